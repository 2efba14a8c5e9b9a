import Verif.Regex.Whole

/-! # Classes on texts of characters below U+10000 -/

namespace Verif.Regex
open Verif.Utf

/-- A range that is translated exactly as far as such texts go: as before, or from ASCII to the last character. -/
def okRngT (r : Rng) : Bool := okRng r || (decide (r.1.toNat < 0x80) && decide (r.2.toNat = 0x10ffff))

theorem boxes_open (r : Rng) (h1 : r.1.toNat < 0x80) (h2 : r.2.toNat = 0x10ffff) : boxes r =
    [([BitVec.ofNat 8 r.1.toNat], [0x7f#8]), ([0xc0#8, 0x80#8], [0xdf#8, 0xbf#8]),
      ([0xe0#8, 0x80#8, 0x80#8], [0xef#8, 0xbf#8, 0xbf#8]), ([0xf0#8, 0x80#8, 0x80#8, 0x80#8], [0xf4#8, 0x8f#8, 0xbf#8, 0xbf#8])] := by
  unfold boxes
  rw [h2, show utf8 r.1.toNat = [BitVec.ofNat 8 r.1.toNat] by unfold utf8; rw [if_pos (by omega)],
    show utf8 0x10ffff = [0xf4#8, 0x8f#8, 0xbf#8, 0xbf#8] by decide]
  simp only [boxesFrom, bound, List.length_cons, List.length_nil, Nat.zero_add, Nat.reduceAdd, Nat.reduceSub]
  simp [List.replicate]

theorem open_text (r : Rng) (h1 : r.1.toNat < 0x80) (h2 : r.2.toNat = 0x10ffff) (c : Nat) (hc : c < 0x10000) (bs rest : List Byte)
    (hp : bs <+: utf8 c ++ rest) :
    (∃ b ∈ boxes r, InBox b.1 b.2 bs) ↔ r.1.toNat ≤ c ∧ bs = utf8 c := by
  rw [boxes_open r h1 h2]
  simp only [List.mem_cons, List.not_mem_nil, or_false, exists_eq_or_imp, exists_eq_left]
  obtain ⟨tl, htl⟩ := hp
  generalize hlo : r.1.toNat = lo at *
  by_cases c1 : c ≤ 0x7f
  · have hu : utf8 c = [BitVec.ofNat 8 c] := by unfold utf8; rw [if_pos c1]
    rw [hu] at htl ⊢
    cases bs with
    | nil => simp [InBox]
    | cons b bs =>
      simp only [List.cons_append, List.nil_append, List.cons.injEq] at htl
      obtain ⟨rfl, htl⟩ := htl
      have hb : (BitVec.ofNat 8 c).toNat = c := byte_ofNat _ (by omega)
      have hb' : (BitVec.ofNat 8 lo).toNat = lo := byte_ofNat _ (by omega)
      cases bs with
      | nil =>
        simp only [InBox, BitVec.le_def, hb, hb', and_true]
        simp
        omega
      | cons b2 bs =>
        simp only [InBox, BitVec.le_def, hb, hb', List.cons.injEq, and_false, false_or, reduceCtorEq, iff_false, BitVec.toNat_ofNat]
        omega
  by_cases c2 : c ≤ 0x7ff
  · have hu : utf8 c = [BitVec.ofNat 8 (0xc0 + c / 64), BitVec.ofNat 8 (0x80 + c % 64)] := by
      unfold utf8; rw [if_neg c1, if_pos c2]
    rw [hu] at htl ⊢
    have hb1 : (BitVec.ofNat 8 (0xc0 + c / 64)).toNat = 0xc0 + c / 64 := byte_ofNat _ (by omega)
    have hb2 : (BitVec.ofNat 8 (0x80 + c % 64)).toNat = 0x80 + c % 64 := byte_ofNat _ (by omega)
    have hb' : (BitVec.ofNat 8 lo).toNat = lo := byte_ofNat _ (by omega)
    match bs, htl with
    | [], _ => simp [InBox]
    | [b], htl =>
      simp only [List.cons_append, List.nil_append, List.cons.injEq] at htl
      obtain ⟨rfl, htl⟩ := htl
      simp only [InBox, BitVec.le_def, hb1, hb', List.cons.injEq, and_true, and_false, or_false, reduceCtorEq, iff_false, BitVec.toNat_ofNat]
      omega
    | b :: b2 :: bs, htl =>
      simp only [List.cons_append, List.nil_append, List.cons.injEq] at htl
      obtain ⟨rfl, rfl, htl⟩ := htl
      cases bs with
      | nil =>
        simp only [InBox, BitVec.le_def, hb1, hb2, hb', and_true, and_false, or_false, false_or, BitVec.toNat_ofNat]
        omega
      | cons b3 bs =>
        simp only [InBox, BitVec.le_def, hb1, hb2, hb', List.cons.injEq, and_false, false_or, reduceCtorEq, iff_false, BitVec.toNat_ofNat]
        omega
  · have hu : utf8 c = [BitVec.ofNat 8 (0xe0 + c / 4096), BitVec.ofNat 8 (0x80 + c / 64 % 64), BitVec.ofNat 8 (0x80 + c % 64)] := by
      unfold utf8; rw [if_neg c1, if_neg c2, if_pos (by omega)]
    rw [hu] at htl ⊢
    have hb1 : (BitVec.ofNat 8 (0xe0 + c / 4096)).toNat = 0xe0 + c / 4096 := byte_ofNat _ (by omega)
    have hb2 : (BitVec.ofNat 8 (0x80 + c / 64 % 64)).toNat = 0x80 + c / 64 % 64 := byte_ofNat _ (by omega)
    have hb3 : (BitVec.ofNat 8 (0x80 + c % 64)).toNat = 0x80 + c % 64 := byte_ofNat _ (by omega)
    have hb' : (BitVec.ofNat 8 lo).toNat = lo := byte_ofNat _ (by omega)
    match bs, htl with
    | [], _ => simp [InBox]
    | [b], htl =>
      simp only [List.cons_append, List.nil_append, List.cons.injEq] at htl
      obtain ⟨rfl, htl⟩ := htl
      simp only [InBox, BitVec.le_def, hb1, hb', List.cons.injEq, and_true, and_false, or_false, reduceCtorEq, iff_false, BitVec.toNat_ofNat]
      omega
    | [b, b2], htl =>
      simp only [List.cons_append, List.nil_append, List.cons.injEq] at htl
      obtain ⟨rfl, rfl, htl⟩ := htl
      simp only [InBox, BitVec.le_def, hb1, hb2, hb', List.cons.injEq, and_true, and_false, or_false, false_or, reduceCtorEq, iff_false, BitVec.toNat_ofNat]
      omega
    | b :: b2 :: b3 :: bs, htl =>
      simp only [List.cons_append, List.nil_append, List.cons.injEq] at htl
      obtain ⟨rfl, rfl, rfl, htl⟩ := htl
      cases bs with
      | nil =>
        simp only [InBox, BitVec.le_def, hb1, hb2, hb3, hb', and_true, and_false, or_false, false_or, BitVec.toNat_ofNat]
        omega
      | cons b4 bs =>
        simp only [InBox, BitVec.le_def, hb1, hb2, hb3, hb', List.cons.injEq, and_false, false_or, reduceCtorEq, iff_false, BitVec.toNat_ofNat]
        omega

/-- The encoding of some characters below U+10000. -/
def Bmp (s : List Byte) : Prop := ∃ cs : List Char32, s = enc cs ∧ ∀ c ∈ cs, c.toNat < 0x10000

/-- The end of such a text: it may begin inside a character. -/
def End (s : List Byte) : Prop := Bmp s ∨ ∃ b r, s = b :: r ∧ 0x80 ≤ b.toNat ∧ b.toNat < 0xc0

/-- The rest of the text from `i` on. -/
def Bnd (s : List Byte) (i : Nat) : Prop := End (s.drop i)

theorem lead_out (d : Nat) (hd : d < 0x110000) {b : Byte} {r : List Byte} (h1 : 0x80 ≤ b.toNat) (h2 : b.toNat < 0xc0)
    (h : utf8 d <+: b :: r) : False := by
  obtain ⟨t, ht⟩ := h
  have key : ∀ n : Nat, n < 256 → (n < 0x80 ∨ 0xc0 ≤ n) → ∀ tl : List Byte, BitVec.ofNat 8 n :: tl = b :: r → False := by
    intro n hn hn' tl e
    simp only [List.cons.injEq] at e
    have := congrArg BitVec.toNat e.1
    rw [byte_ofNat _ hn] at this
    omega
  unfold utf8 at ht
  split at ht
  · exact key d (by omega) (by omega) _ ht
  split at ht
  · exact key _ (by omega) (by omega) _ ht
  split at ht
  · exact key _ (by omega) (by omega) _ ht
  · exact key _ (by omega) (by omega) _ ht

theorem prefix_enc {d : Nat} {s : List Byte} (hs : End s) (hd : d < 0x110000) (h : utf8 d <+: s) :
    d < 0x10000 ∧ Bmp (s.drop (utf8 d).length) ∧ ∃ rest, s = utf8 d ++ rest := by
  rcases hs with hs | ⟨b, r, rfl, h1, h2⟩
  swap
  · exact (lead_out d hd h1 h2 h).elim
  obtain ⟨cs, rfl, hcs⟩ := hs
  cases cs with
  | nil =>
    rw [show enc [] = ([] : List Byte) from rfl, List.prefix_nil] at h
    exact absurd h (utf8_ne_nil d)
  | cons c cs =>
    rw [enc_cons] at h ⊢
    obtain ⟨t, ht⟩ := h
    have hc := hcs c (by simp)
    have h1 := charstep_utf8 d hd t
    rw [ht, charstep_utf8 c.toNat (by omega)] at h1
    simp only [Res.ok.injEq, Prod.mk.injEq] at h1
    have : d = c.toNat := by
      have := congrArg BitVec.toNat h1.1
      rw [BitVec.toNat_ofNat, BitVec.toNat_ofNat] at this
      omega
    rw [this]
    refine ⟨hc, ?_, _, rfl⟩
    rw [List.drop_left']
    · exact ⟨cs, rfl, fun x hx => hcs x (List.mem_cons_of_mem _ hx)⟩
    · rfl

theorem box_ne {r : Rng} (hr : okRngT r = true) (h : ∃ b ∈ boxes r, InBox b.1 b.2 []) : False := by
  simp only [okRngT, Bool.or_eq_true, Bool.and_eq_true, decide_eq_true_eq] at hr
  rcases hr with hr | ⟨h1, h2⟩
  · obtain ⟨c, -, -, h⟩ := (exact_rng r hr []).mp h
    exact utf8_ne_nil c h.symm
  · rw [boxes_open r h1 h2] at h
    simp [InBox] at h

theorem rng_text {r : Rng} (hr : okRngT r = true) {s bs : List Byte} (hs : End s) (hp : bs <+: s) :
    (∃ b ∈ boxes r, InBox b.1 b.2 bs) ↔ ∃ c : Nat, r.1.toNat ≤ c ∧ c ≤ r.2.toNat ∧ bs = utf8 c := by
  have hr' := hr
  simp only [okRngT, Bool.or_eq_true, Bool.and_eq_true, decide_eq_true_eq] at hr
  rcases hr with hr | ⟨h1, h2⟩
  · exact exact_rng r hr bs
  · rcases hs with hs | ⟨x, q, rfl, h3, h4⟩
    swap
    · constructor
      · rw [boxes_open r h1 h2]
        simp only [List.mem_cons, List.not_mem_nil, or_false, exists_eq_or_imp, exists_eq_left]
        intro h
        cases bs with
        | nil => simp [InBox] at h
        | cons y bs =>
          obtain ⟨tl, ht⟩ := hp
          simp only [List.cons_append, List.cons.injEq] at ht
          obtain ⟨rfl, -⟩ := ht
          have := byte_ofNat r.1.toNat (by omega)
          simp only [InBox, BitVec.le_def, BitVec.toNat_ofNat] at h
          omega
      · rintro ⟨c, -, h6, rfl⟩
        exact (lead_out c (by omega) h3 h4 hp).elim
    obtain ⟨cs, rfl, hcs⟩ := hs
    cases cs with
    | nil =>
      rw [show enc [] = ([] : List Byte) from rfl, List.prefix_nil] at hp
      subst hp
      constructor
      · intro h; exact (box_ne hr' h).elim
      · rintro ⟨c, -, -, h⟩; exact absurd h.symm (utf8_ne_nil c)
    | cons c cs =>
      have hc := hcs c (by simp)
      rw [enc_cons] at hp
      rw [open_text r h1 h2 c.toNat hc bs _ hp]
      constructor
      · rintro ⟨h3, h4⟩
        exact ⟨c.toNat, h3, by omega, h4⟩
      · rintro ⟨d, h3, h4, rfl⟩
        obtain ⟨t, ht⟩ := hp
        have h5 := charstep_utf8 d (by omega) t
        rw [ht, charstep_utf8 c.toNat (by omega)] at h5
        simp only [Res.ok.injEq, Prod.mk.injEq] at h5
        have : d = c.toNat := by
          have := congrArg BitVec.toNat h5.1
          rw [BitVec.toNat_ofNat, BitVec.toNat_ofNat] at this
          omega
        rw [← this]
        exact ⟨h3, rfl⟩

theorem cls_text {rl : List Rng} (hr : rl.all okRngT = true) {s bs : List Byte} (hs : End s) (hp : bs <+: s) :
    BoxCls rl bs ↔ InRanges rl bs := by
  unfold BoxCls InRanges
  constructor
  · rintro ⟨r, h, hb⟩
    exact ⟨r, h, (rng_text (List.all_eq_true.mp hr r h) hs hp).mp hb⟩
  · rintro ⟨r, h, hb⟩
    exact ⟨r, h, (rng_text (List.all_eq_true.mp hr r h) hs hp).mpr hb⟩

theorem okRngT_valid {r : Rng} (h : okRngT r = true) : r.1.toNat ≤ r.2.toNat ∧ r.2.toNat < 0x110000 := by
  simp only [okRngT, okRng, Bool.or_eq_true, Bool.and_eq_true, decide_eq_true_eq] at h
  omega

/-- On such texts the code's classes and the true ones give the same parses. -/
theorem parse_text {s : List Byte} {t : Ast} {i j : Nat} {g g' : Groups} {c1 c2 : List Rng → List Byte → Prop}
    (hc : ∀ rl bs i, rl.all okRngT = true → Bnd s i → Has s i bs → c1 rl bs → c2 rl bs ∧ InRanges rl bs) (h : Parse c1 s t i g j g') :
    Ok okRngT t = true → Bnd s i → Parse c2 s t i g j g' ∧ Bnd s j := by
  have nxt : ∀ (d i : Nat), d < 0x110000 → Has s i (utf8 d) → Bnd s i → Bnd s (i + (utf8 d).length) := by
    intro d i hd hh hb
    have := (prefix_enc hb hd hh).2.1
    rw [List.drop_drop] at this
    exact .inl this
  induction h with
  | chr h =>
    intro hok hb
    simp only [Ok, okChr, decide_eq_true_eq] at hok
    exact ⟨.chr h, nxt _ _ (by omega) h hb⟩
  | ranges h1 h2 =>
    intro hok hb
    simp only [Ok, Bool.and_eq_true] at hok
    obtain ⟨h3, r, hr, d, h4, h5, rfl⟩ := hc _ _ _ hok.2 hb h2 h1
    have := okRngT_valid (List.all_eq_true.mp hok.2 r hr)
    exact ⟨.ranges h3 h2, nxt _ _ (by omega) h2 hb⟩
  | cat _ _ ih1 ih2 =>
    intro hok hb
    simp only [Ok, Bool.and_eq_true] at hok
    obtain ⟨p1, b1⟩ := ih1 hok.1 hb
    obtain ⟨p2, b2⟩ := ih2 hok.2 b1
    exact ⟨.cat p1 p2, b2⟩
  | altl _ ih => intro hok hb; simp only [Ok, Bool.and_eq_true] at hok; exact ⟨.altl (ih hok.1 hb).1, (ih hok.1 hb).2⟩
  | altr _ ih => intro hok hb; simp only [Ok, Bool.and_eq_true] at hok; exact ⟨.altr (ih hok.2 hb).1, (ih hok.2 hb).2⟩
  | star0 => intro _ hb; exact ⟨.star0, hb⟩
  | star1 _ _ ih1 ih2 =>
    intro hok hb
    have h := hok
    simp only [Ok, Bool.and_eq_true] at h
    obtain ⟨p1, b1⟩ := ih1 h.1 hb
    obtain ⟨p2, b2⟩ := ih2 hok b1
    exact ⟨.star1 p1 p2, b2⟩
  | plus _ _ ih1 ih2 =>
    intro hok hb
    have h := hok
    simp only [Ok, Bool.and_eq_true] at h
    obtain ⟨p1, b1⟩ := ih1 h.1 hb
    obtain ⟨p2, b2⟩ := ih2 hok b1
    exact ⟨.plus p1 p2, b2⟩
  | quest0 => intro _ hb; exact ⟨.quest0, hb⟩
  | quest1 _ ih => intro hok hb; exact ⟨.quest1 (ih hok hb).1, (ih hok hb).2⟩
  | cap _ ih =>
    intro hok hb
    simp only [Ok, Bool.and_eq_true] at hok
    exact ⟨.cap (ih hok.2 hb).1, (ih hok.2 hb).2⟩
  | bol h => intro _ hb; exact ⟨.bol h, hb⟩
  | eol h => intro _ hb; exact ⟨.eol h, hb⟩

theorem ok_validT (t : Ast) (h : Ok okRngT t = true) : Ok validRng t = true := by
  induction t with
  | ranges rl =>
    simp only [Ok, Bool.and_eq_true, List.all_eq_true] at h ⊢
    refine ⟨h.1, fun r hr => ?_⟩
    have := okRngT_valid (h.2 r hr)
    simp only [validRng, Bool.and_eq_true, decide_eq_true_eq]
    exact this
  | _ => simp only [Ok, Bool.and_eq_true] at h ⊢ <;> grind

/-- Every end of a text. -/
theorem end_drop {s : List Byte} (hs : Bmp s) (i : Nat) : End (s.drop i) := by
  obtain ⟨cs, rfl, hcs⟩ := hs
  induction cs generalizing i with
  | nil => exact .inl ⟨[], by simp [enc], by simp⟩
  | cons c cs ih =>
    have hc := hcs c (by simp)
    by_cases hi : (utf8 c.toNat).length ≤ i
    · obtain ⟨k, rfl⟩ := Nat.exists_eq_add_of_le hi
      rw [enc_cons, List.drop_append, List.drop_eq_nil_of_le (by omega), List.nil_append, Nat.add_sub_cancel_left]
      exact ih k (fun x hx => hcs x (List.mem_cons_of_mem _ hx))
    · by_cases h0 : i = 0
      · subst h0
        exact .inl ⟨c :: cs, rfl, hcs⟩
      · right
        rw [enc_cons]
        have key : ∀ n : Nat, n < 64 → 0x80 ≤ (BitVec.ofNat 8 (0x80 + n)).toNat ∧ (BitVec.ofNat 8 (0x80 + n)).toNat < 0xc0 := by
          intro n hn
          rw [byte_ofNat _ (by omega)]
          omega
        unfold utf8 at hi ⊢
        split at hi
        · simp at hi; omega
        rename_i c1
        rw [if_neg c1]
        split at hi
        · rename_i c2
          rw [if_pos c2]
          simp only [List.length_cons, List.length_nil] at hi
          obtain rfl : i = 1 := by omega
          exact ⟨_, _, rfl, key _ (by omega)⟩
        rename_i c2
        rw [if_neg c2]
        split at hi
        · rename_i c3
          rw [if_pos c3]
          simp only [List.length_cons, List.length_nil] at hi
          obtain rfl | rfl : i = 1 ∨ i = 2 := by omega
          · exact ⟨_, _, rfl, key _ (by omega)⟩
          · exact ⟨_, _, rfl, key _ (by omega)⟩
        · omega

theorem matches_text {s : List Byte} (hs : End s) {t : Ast} (h : Ok okRngT t = true) (j : Nat) (g : Groups) :
    Parse BoxCls s (.cap 0 t) 0 .none j g ↔ Matches s t 0 j g := by
  have hok : Ok okRngT (.cap 0 t) = true := by simp [Ok, h]
  constructor
  · intro hp
    refine (parse_text (fun rl bs i hr hb hh hc => ?_) hp hok (by simpa [Bnd] using hs)).1
    have := (cls_text hr hb hh).mp hc
    exact ⟨this, this⟩
  · intro hp
    refine (parse_text (fun rl bs i hr hb hh hc => ?_) hp hok (by simpa [Bnd] using hs)).1
    exact ⟨(cls_text hr hb hh).mpr hc, hc⟩

end Verif.Regex
