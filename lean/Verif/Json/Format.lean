import Verif.Json.Depth

/-!
# What is written is of the grammar
-/

namespace Verif.Json

open Utf (Char32 Badchar utf8 enc CodePoints)

/-- How a character of a string is written. -/
def strChar (c : Char32) : List Char32 :=
  if c = 12#32 then [92#32, 102#32]
  else if c = 92#32 then [92#32, 92#32]
  else if c = 10#32 then [92#32, 110#32]
  else if c = 13#32 then [92#32, 114#32]
  else if c = 9#32 then [92#32, 116#32]
  else [c]

theorem strChar_enc (c : Char32) (h : c.toNat < 0x110000) : (enc [c]).flatMap strByte = enc (strChar c) := by
  by_cases hc : c.toNat < 128
  · have key : ∀ n : Fin 128, (enc [BitVec.ofNat 32 n.val]).flatMap strByte = enc (strChar (BitVec.ofNat 32 n.val)) := by decide +kernel
    have := key ⟨c.toNat, hc⟩
    simpa using this
  · have e : strChar c = [c] := by
      unfold strChar
      rw [if_neg, if_neg, if_neg, if_neg, if_neg] <;> · rintro rfl; exact hc (by decide)
    rw [e, Utf.enc_cons, enc_nil, List.append_nil]
    have hb := Esc.utf8_hi h (by omega)
    revert hb
    generalize utf8 c.toNat = l
    intro hb
    induction l with
    | nil => rfl
    | cons b l ih =>
      rw [List.flatMap_cons, ih fun x hx => hb x (by simp [hx])]
      have := hb b (by simp)
      unfold strByte
      rw [if_neg, if_neg, if_neg, if_neg, if_neg, List.singleton_append] <;> · rintro rfl; exact absurd this (by decide)

theorem jstr_items (cs : List Char32) (h : CodePoints cs) (ht : ∀ c ∈ cs, c.toNat ≠ 34 ∧ (32 ≤ c.toNat ∨ c.toNat = 9 ∨ c.toNat = 10 ∨ c.toNat = 12 ∨ c.toNat = 13)) :
    Items false (cs.flatMap strChar) (cs.map BitVec.toNat) ∧ (enc cs).flatMap strByte = enc (cs.flatMap strChar) ∧ CodePoints (cs.flatMap strChar) := by
  induction cs with
  | nil => exact ⟨.nil, rfl, cp_nil⟩
  | cons c cs ih =>
    rw [cp_cons] at h
    obtain ⟨i1, i2, i3⟩ := ih h.2 fun x hx => ht x (by simp [hx])
    have hc := ht c (by simp)
    rw [List.flatMap_cons, List.map_cons]
    refine ⟨?_, ?_, ?_⟩
    · unfold strChar
      split
      · next e => subst e; exact .esc (by decide) i1
      · split
        · next e => subst e; exact .esc (by decide) i1
        · split
          · next e => subst e; exact .esc (by decide) i1
          · split
            · next e => subst e; exact .esc (by decide) i1
            · split
              · next e => subst e; exact .esc (by decide) i1
              · next n1 n2 n3 n4 n5 =>
                refine .plain ?_ i1
                have f : ∀ n : Nat, n < 2 ^ 32 → c ≠ BitVec.ofNat 32 n → c.toNat ≠ n := fun n hn hne e => hne (by apply BitVec.eq_of_toNat_eq; rw [e, BitVec.toNat_ofNat, Nat.mod_eq_of_lt hn])
                have := f 12 (by decide) n1
                have := f 92 (by decide) n2
                have := f 10 (by decide) n3
                have := f 13 (by decide) n4
                have := f 9 (by decide) n5
                omega
    · rw [show c :: cs = [c] ++ cs from rfl, Utf.enc_append, List.flatMap_append, i2, strChar_enc c h.1, Utf.enc_append]
    · rw [cp_app]
      refine ⟨?_, i3⟩
      unfold strChar
      (repeat' split) <;> first
        | exact cp_cons.2 ⟨by decide, cp_cons.2 ⟨by decide, cp_nil⟩⟩
        | exact cp_cons.2 ⟨h.1, cp_nil⟩

theorem jstr_str {s : List Byte} (h : Tame s) : ∃ t, jstrfmt s = enc t ∧ Str false t s ∧ CodePoints t := by
  obtain ⟨cs, hcp, rfl, ht⟩ := h
  obtain ⟨h1, h2, h3⟩ := jstr_items cs hcp ht
  refine ⟨34#32 :: cs.flatMap strChar ++ [34#32], ?_, ⟨_, _, rfl, h1, ?_⟩, ?_⟩
  · unfold jstrfmt
    rw [h2, Utf.enc_append, enc_ascii (by decide)]
    rfl
  · unfold enc
    rw [List.flatMap_map]
  · exact cp_app.2 ⟨cp_cons.2 ⟨by decide, h3⟩, cp_cons.2 ⟨by decide, cp_nil⟩⟩

theorem indent_enc (n : Nat) : indent n = enc (List.replicate n 9#32) ∧ Ws (List.replicate n 9#32) := by
  refine ⟨?_, fun c hc => .inr (.inl (List.eq_of_mem_replicate hc))⟩
  unfold indent
  induction n with
  | zero => rfl
  | succ n ih => rw [List.replicate_succ, List.replicate_succ, ih, enc_ascii (by decide)]; rfl

theorem ws_nil : Ws [] := fun c hc => by simp at hc

theorem ws_cons {c : Char32} {w : List Char32} (hc : c = 32#32 ∨ c = 9#32 ∨ c = 13#32 ∨ c = 10#32) (hw : Ws w) : Ws (c :: w) := fun d hd => by
  rcases List.mem_cons.1 hd with rfl | h
  · exact hc
  · exact hw d h

variable {F : Type} {fp : List Byte → Option F} {ff : F → List Byte}

mutual
theorem eltfmt_elt : ∀ (v : Val F) (ind : Nat), All Tame (NumOk fp ff) v → ∃ t, eltfmt ff ind v = enc t ∧ Elt fp false t v ∧ CodePoints t
  | .null, ind, _ => ⟨[110#32, 117#32, 108#32, 108#32], by rw [eltfmt, enc_null], .null, fun c hc => by have := word_lt (l := [110#32, 117#32, 108#32, 108#32]) rfl c hc; omega⟩
  | .bool true, ind, _ => ⟨[116#32, 114#32, 117#32, 101#32], by rw [eltfmt, enc_true]; rfl, .true_, fun c hc => by have := word_lt (l := [116#32, 114#32, 117#32, 101#32]) rfl c hc; omega⟩
  | .bool false, ind, _ => ⟨[102#32, 97#32, 108#32, 115#32, 101#32], by rw [eltfmt, enc_false]; rfl, .false_, fun c hc => by have := word_lt (l := [102#32, 97#32, 108#32, 115#32, 101#32]) rfl c hc; omega⟩
  | .num n, ind, h => by
    rw [All] at h
    obtain ⟨t, h1, h2, h3⟩ := h
    exact ⟨t, by rw [eltfmt, h2], .num h1 h3, number_cp h1⟩
  | .str s, ind, h => by
    rw [All] at h
    obtain ⟨t, h1, h2, h3⟩ := jstr_str h
    exact ⟨t, by rw [eltfmt, h1], .str h2, h3⟩
  | .arr [], ind, h => by
    obtain ⟨e, hw⟩ := indent_enc ind
    have hw2 : Ws (10#32 :: 10#32 :: List.replicate ind 9#32) := ws_cons (by decide) (ws_cons (by decide) hw)
    refine ⟨91#32 :: (10#32 :: 10#32 :: List.replicate ind 9#32) ++ [93#32], ?_, .arr0 hw2, cp_app.2 ⟨cp_cons.2 ⟨by decide, ws_cp hw2⟩, cp_cons.2 ⟨by decide, cp_nil⟩⟩⟩
    rw [eltfmt, eltsfmt, e, Utf.enc_append, enc_ascii (by decide), enc_ascii (by decide), enc_ascii (by decide)]
    rfl
  | .obj [], ind, h => by
    obtain ⟨e, hw⟩ := indent_enc ind
    have hw2 : Ws (10#32 :: 10#32 :: List.replicate ind 9#32) := ws_cons (by decide) (ws_cons (by decide) hw)
    refine ⟨123#32 :: (10#32 :: 10#32 :: List.replicate ind 9#32) ++ [125#32], ?_, .obj0 hw2, cp_app.2 ⟨cp_cons.2 ⟨by decide, ws_cp hw2⟩, cp_cons.2 ⟨by decide, cp_nil⟩⟩⟩
    rw [eltfmt, membsfmt, e, Utf.enc_append, enc_ascii (by decide), enc_ascii (by decide), enc_ascii (by decide)]
    rfl
  | .arr (v :: l), ind, h => by
    rw [All] at h
    obtain ⟨e, hw⟩ := indent_enc ind
    obtain ⟨t, h1, h2, h3⟩ := eltsfmt_elts v l (ind + 1) [] (10#32 :: List.replicate ind 9#32) (ws_cons (by decide) hw) h
    refine ⟨91#32 :: (10#32 :: t) ++ [93#32], ?_, .arr (elts_ws (w := [10#32]) (ws_cons (by decide) ws_nil) h2), cp_app.2 ⟨cp_cons.2 ⟨by decide, cp_cons.2 ⟨by decide, h3⟩⟩, cp_cons.2 ⟨by decide, cp_nil⟩⟩⟩
    rw [enc_ascii (by decide), List.nil_append, ← e] at h1
    rw [eltfmt, Utf.enc_append, enc_ascii (by decide), enc_ascii (by decide), ← h1]
    simp only [List.append_assoc, List.cons_append, List.nil_append]
    rfl
  | .obj (m :: l), ind, h => by
    rw [All] at h
    obtain ⟨e, hw⟩ := indent_enc ind
    obtain ⟨t, h1, h2, h3⟩ := membsfmt_membs m l (ind + 1) [] (10#32 :: List.replicate ind 9#32) (ws_cons (by decide) hw) h
    refine ⟨123#32 :: (10#32 :: t) ++ [125#32], ?_, .obj (membs_ws (w := [10#32]) (ws_cons (by decide) ws_nil) h2), cp_app.2 ⟨cp_cons.2 ⟨by decide, cp_cons.2 ⟨by decide, h3⟩⟩, cp_cons.2 ⟨by decide, cp_nil⟩⟩⟩
    rw [enc_ascii (by decide), List.nil_append, ← e] at h1
    rw [eltfmt, Utf.enc_append, enc_ascii (by decide), enc_ascii (by decide), ← h1]
    simp only [List.append_assoc, List.cons_append, List.nil_append]
    rfl
termination_by v => sizeOf v
decreasing_by all_goals (simp_wf; try omega)

theorem eltsfmt_elts : ∀ (v : Val F) (l : List (Val F)) (ind : Nat) (sep : List Byte) (w : List Char32), Ws w → Alls Tame (NumOk fp ff) (v :: l) →
    ∃ t, eltsfmt ff ind sep (v :: l) ++ enc w = sep ++ enc t ∧ Elts fp false t (v :: l) ∧ CodePoints t
  | v, [], ind, sep, w, hw, h => by
    rw [Alls] at h
    obtain ⟨e, hi⟩ := indent_enc ind
    obtain ⟨t, h1, h2, h3⟩ := eltfmt_elt v ind h.1
    refine ⟨List.replicate ind 9#32 ++ t ++ w, ?_, .one hi h2 hw, cp_app.2 ⟨cp_app.2 ⟨ws_cp hi, h3⟩, ws_cp hw⟩⟩
    rw [eltsfmt, eltsfmt, e, h1, Utf.enc_append, Utf.enc_append]
    simp only [List.append_assoc, List.nil_append]
  | v, v2 :: l, ind, sep, w, hw, h => by
    rw [Alls] at h
    obtain ⟨e, hi⟩ := indent_enc ind
    obtain ⟨t, h1, h2, h3⟩ := eltfmt_elt v ind h.1
    obtain ⟨t2, g1, g2, g3⟩ := eltsfmt_elts v2 l ind [44#8, 10#8] w hw h.2
    refine ⟨List.replicate ind 9#32 ++ t ++ [] ++ [44#32] ++ (10#32 :: t2), ?_, .more hi h2 ws_nil (elts_ws (w := [10#32]) (ws_cons (by decide) ws_nil) g2), ?_⟩
    · rw [eltsfmt, e, h1, List.append_assoc, g1, Utf.enc_append, Utf.enc_append, Utf.enc_append, Utf.enc_append, enc_ascii (cs := t2) (by decide)]
      simp only [List.append_assoc, List.nil_append, enc_nil]
      rfl
    · exact cp_app.2 ⟨cp_app.2 ⟨cp_app.2 ⟨cp_app.2 ⟨ws_cp hi, h3⟩, cp_nil⟩, cp_cons.2 ⟨by decide, cp_nil⟩⟩, cp_cons.2 ⟨by decide, g3⟩⟩
termination_by v l => sizeOf v + sizeOf l + 1
decreasing_by all_goals (simp_wf; try omega)

theorem membsfmt_membs : ∀ (m : List Byte × Val F) (l : List (List Byte × Val F)) (ind : Nat) (sep : List Byte) (w : List Char32), Ws w → Allm Tame (NumOk fp ff) (m :: l) →
    ∃ t, membsfmt ff ind sep (m :: l) ++ enc w = sep ++ enc t ∧ Membs fp false t (m :: l) ∧ CodePoints t
  | (k, v), [], ind, sep, w, hw, h => by
    rw [Allm] at h
    obtain ⟨e, hi⟩ := indent_enc ind
    obtain ⟨kt, k1, k2, k3⟩ := jstr_str h.1
    obtain ⟨t, h1, h2, h3⟩ := eltfmt_elt v ind h.2.1
    have hs : Ws [32#32] := ws_cons (by decide) ws_nil
    refine ⟨List.replicate ind 9#32 ++ kt ++ [] ++ [58#32] ++ [32#32] ++ t ++ w, ?_, .one hi k2 ws_nil hs h2 hw, ?_⟩
    · rw [membsfmt, membsfmt, e, k1, h1]
      simp only [Utf.enc_append, List.append_assoc, List.nil_append]
      rfl
    · simp only [cp_app]
      exact ⟨⟨⟨⟨⟨⟨ws_cp hi, k3⟩, cp_nil⟩, cp_cons.2 ⟨by decide, cp_nil⟩⟩, ws_cp hs⟩, h3⟩, ws_cp hw⟩
  | (k, v), m2 :: l, ind, sep, w, hw, h => by
    rw [Allm] at h
    obtain ⟨e, hi⟩ := indent_enc ind
    obtain ⟨kt, k1, k2, k3⟩ := jstr_str h.1
    obtain ⟨t, h1, h2, h3⟩ := eltfmt_elt v ind h.2.1
    have hs : Ws [32#32] := ws_cons (by decide) ws_nil
    obtain ⟨t2, g1, g2, g3⟩ := membsfmt_membs m2 l ind [44#8, 10#8] w hw h.2.2
    refine ⟨List.replicate ind 9#32 ++ kt ++ [] ++ [58#32] ++ [32#32] ++ t ++ [] ++ [44#32] ++ (10#32 :: t2), ?_,
      .more hi k2 ws_nil hs h2 ws_nil (membs_ws (w := [10#32]) (ws_cons (by decide) ws_nil) g2), ?_⟩
    · rw [membsfmt, e, k1, h1, List.append_assoc, g1, Utf.enc_append, enc_ascii (cs := t2) (by decide)]
      simp only [Utf.enc_append, List.append_assoc, List.nil_append]
      rfl
    · simp only [cp_app]
      exact ⟨⟨⟨⟨⟨⟨⟨⟨ws_cp hi, k3⟩, cp_nil⟩, cp_cons.2 ⟨by decide, cp_nil⟩⟩, ws_cp hs⟩, h3⟩, cp_nil⟩, cp_cons.2 ⟨by decide, cp_nil⟩⟩, cp_cons.2 ⟨by decide, g3⟩⟩
termination_by m l => sizeOf m + sizeOf l + 1
decreasing_by all_goals (simp_wf; try omega)
end

end Verif.Json
