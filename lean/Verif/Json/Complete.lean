import Verif.Json.Scalars

/-!
# Texts of the grammar are read
-/

namespace Verif.Json

open Utf (Char32 Badchar utf8 enc CodePoints)

theorem ws_cp {w : List Char32} (h : Ws w) : CodePoints w := fun c hc => by
  have := isWs_lt (ws_iff.1 h c hc)
  omega

theorem follow_nil : Follow [] := by intro c hc; simp at hc

theorem follow_ws {w r : List Char32} (h : Ws w) (hr : Follow r) : Follow (w ++ r) := by
  cases w with
  | nil => exact hr
  | cons c w =>
    intro d hd
    simp only [List.cons_append, List.head?_cons, Option.some.injEq] at hd
    subst hd
    have := h c (by simp)
    rcases this with rfl | rfl | rfl | rfl <;> decide

theorem follow_sep {c : Char32} {r : List Char32} (h : c = 44#32 ∨ c = 93#32 ∨ c = 125#32) : Follow (c :: r) := by
  intro d hd
  simp only [List.head?_cons, Option.some.injEq] at hd
  subst hd
  rcases h with rfl | rfl | rfl <;> decide

theorem follow_sep_ws {w : List Char32} {c : Char32} {r : List Char32} (hw : Ws w) (h : c = 44#32 ∨ c = 93#32 ∨ c = 125#32) : Follow (w ++ c :: r) := follow_ws hw (follow_sep h)

theorem takespace_idem (x : List Byte) : takespace (takespace x) = takespace x := by
  induction x with
  | nil => rfl
  | cons b r ih =>
    rw [takespace]
    split
    · exact ih
    · next h => rw [takespace, if_neg h]

/-- After white space comes something else. -/
theorem takespace_skip {w cs : List Char32} (hw : Ws w) {c : Char32} (hc : isWs c = false) (h : CodePoints (c :: cs)) : takespace (enc (w ++ c :: cs)) = enc (c :: cs) := by
  rw [takespace_enc (cp_app.2 ⟨ws_cp hw, h⟩), dropWhile_ws hw, List.dropWhile_cons, if_neg (by rw [hc]; decide)]

theorem str_head {u : Bool} {t : List Char32} {s : List Byte} (h : Str u t s) : ∃ t', t = 34#32 :: t' := by
  obtain ⟨b, cs, rfl, -⟩ := h
  exact ⟨_, rfl⟩

theorem elt_head {F : Type} {fp : List Byte → Option F} {u : Bool} {t : List Char32} {v : Val F} (h : Elt fp u t v) : ∃ c t', t = c :: t' ∧ isWs c = false := by
  cases h with
  | num hn =>
    obtain ⟨c, t', e, hc⟩ := number_head hn
    refine ⟨c, t', e, ?_⟩
    rcases hc with hc | rfl
    · unfold isDig at hc
      simp only [decide_eq_true_eq] at hc
      by_contra hw
      simp only [Bool.not_eq_false] at hw
      unfold isWs at hw
      simp only [Bool.or_eq_true, beq_iff_eq] at hw
      rcases hw with ((rfl | rfl) | rfl) | rfl <;> exact absurd hc (by decide)
    · decide
  | str hs =>
    obtain ⟨t', rfl⟩ := str_head hs
    exact ⟨_, t', rfl, by decide⟩
  | _ => exact ⟨_, _, rfl, by decide⟩

theorem elts_ne {F : Type} {fp : List Byte → Option F} {u : Bool} {t : List Char32} {l : List (Val F)} (h : Elts fp u t l) : l.isEmpty = false := by cases h <;> rfl
theorem membs_ne {F : Type} {fp : List Byte → Option F} {u : Bool} {t : List Char32} {l : List (List Byte × Val F)} (h : Membs fp u t l) : l.isEmpty = false := by cases h <;> rfl

theorem elts_head {F : Type} {fp : List Byte → Option F} {u : Bool} {t : List Char32} {l : List (Val F)} (h : Elts fp u t l) : ∃ w c t', t = w ++ c :: t' ∧ Ws w ∧ isWs c = false ∧ c ≠ 93#32 := by
  have key : ∀ {t : List Char32} {v : Val F}, Elt fp u t v → ∃ c t', t = c :: t' ∧ isWs c = false ∧ c ≠ 93#32 := by
    intro t v he
    obtain ⟨c, t', e, hc⟩ := elt_head he
    refine ⟨c, t', e, hc, ?_⟩
    rintro rfl
    cases he with
    | num hn =>
      obtain ⟨c, t', e', hc⟩ := number_head hn
      rw [e] at e'
      obtain ⟨rfl, -⟩ := List.cons.inj e'
      rcases hc with hc | hc <;> exact absurd hc (by decide)
    | str hs =>
      obtain ⟨t', e'⟩ := str_head hs
      rw [e] at e'
      exact absurd (List.cons.inj e').1 (by decide)
    | _ => exact absurd (List.cons.inj e).1 (by decide)
  cases h with
  | one h1 h2 h3 =>
    obtain ⟨c, t', rfl, hc⟩ := key h2
    exact ⟨_, c, _, by rw [List.append_assoc]; rfl, h1, hc⟩
  | more h1 h2 h3 h4 =>
    obtain ⟨c, t', rfl, hc⟩ := key h2
    exact ⟨_, c, _, by simp only [List.append_assoc]; rfl, h1, hc⟩

theorem membs_head {F : Type} {fp : List Byte → Option F} {u : Bool} {t : List Char32} {l : List (List Byte × Val F)} (h : Membs fp u t l) : ∃ w t', t = w ++ 34#32 :: t' ∧ Ws w := by
  cases h with
  | one h1 h2 =>
    obtain ⟨t', rfl⟩ := str_head h2
    exact ⟨_, _, by simp only [List.append_assoc]; rfl, h1⟩
  | more h1 h2 =>
    obtain ⟨t', rfl⟩ := str_head h2
    exact ⟨_, _, by simp only [List.append_assoc]; rfl, h1⟩

theorem cons_len {a b : List Char32} {c : Char32} : (a ++ c :: b).length = a.length + b.length + 1 := by simp; omega

/-- Reading a value at some place. -/
theorem parseelt_step {F : Type} {fp : List Byte → Option F} {f : Nat} {w cs : List Char32} {c : Char32} {d : Int} (hw : Ws w) (hc : isWs c = false) (h : CodePoints (c :: cs)) :
    parseelt fp (f + 1) ⟨enc (w ++ c :: cs), d⟩ = (if c = 123#32 then parseobj fp f ⟨enc (c :: cs), d⟩
    else if c = 91#32 then parsearr fp f ⟨enc (c :: cs), d⟩
    else if c = 34#32 then do
      let s ← jsonstr (enc (c :: cs))
      PM.ret (.str s.1, ⟨s.2, d⟩)
    else do
      let s ← scalar fp (enc (c :: cs)) c
      PM.ret (s.1, ⟨s.2, d⟩)) := by
  rw [parseelt]
  dsimp only
  rw [takespace_skip hw hc h, peekc_enc (cp_cons.1 h).1]
  rfl

theorem scalar_word {F : Type} {fp : List Byte → Option F} {r : List Char32} (hr : CodePoints r) (c : Char32) :
    scalar fp (enc ([102#32, 97#32, 108#32, 115#32, 101#32] ++ r)) c = PM.ret (.bool false, enc r) ∧
    scalar fp (enc ([116#32, 114#32, 117#32, 101#32] ++ r)) c = PM.ret (.bool true, enc r) ∧
    scalar fp (enc ([110#32, 117#32, 108#32, 108#32] ++ r)) c = PM.ret (.null, enc r) := by
  have cp : ∀ w : List Char32, (w.all fun c => decide (c.toNat < 128)) = true → CodePoints (w ++ r) :=
    fun w h => cp_app.2 ⟨fun c hc => by have := word_lt h c hc; omega, hr⟩
  unfold scalar
  rw [← enc_false, ← enc_true, ← enc_null]
  refine ⟨?_, ?_, ?_⟩
  · rw [matchprefix_some (word_lt rfl) (cp _ rfl)]
    simp only [PM.lift_ok, PM.ret_bind]
  · have h1 : matchprefix (enc ([116#32, 114#32, 117#32, 101#32] ++ r)) (enc [102#32, 97#32, 108#32, 115#32, 101#32]) = .ok none :=
      matchprefix_none (word_lt rfl) (cp [116#32, 114#32, 117#32, 101#32] rfl) (by decide)
    rw [h1, matchprefix_some (word_lt rfl) (cp _ rfl)]
    simp only [PM.lift_ok, PM.ret_bind]
  · have h1 : matchprefix (enc ([110#32, 117#32, 108#32, 108#32] ++ r)) (enc [102#32, 97#32, 108#32, 115#32, 101#32]) = .ok none :=
      matchprefix_none (word_lt rfl) (cp [110#32, 117#32, 108#32, 108#32] rfl) (by decide)
    have h2 : matchprefix (enc ([110#32, 117#32, 108#32, 108#32] ++ r)) (enc [116#32, 114#32, 117#32, 101#32]) = .ok none :=
      matchprefix_none (word_lt rfl) (cp [110#32, 117#32, 108#32, 108#32] rfl) (by decide)
    rw [h1, h2, matchprefix_some (word_lt rfl) (cp _ rfl)]
    simp only [PM.lift_ok, PM.ret_bind]

theorem not_dig {c : Char32} (h : isDig c = true ∨ c = 45#32) : c ≠ 123#32 ∧ c ≠ 91#32 ∧ c ≠ 34#32 := by
  refine ⟨?_, ?_, ?_⟩ <;> rintro rfl <;> rcases h with h | h <;> exact absurd h (by decide)

mutual
theorem elt_reads {F : Type} {fp : List Byte → Option F} {t : List Char32} {v : Val F} (h : Elt fp false t v) : ∀ {w r : List Char32} {d : Int} {f : Nat}, Ws w → CodePoints t → CodePoints r → Follow r →
    d + depthOf v + empties v ≤ 1024 → 3 * t.length + 5 ≤ f → parseelt fp f ⟨enc (w ++ (t ++ r)), d⟩ = PM.ret (v, ⟨enc r, d + empties v⟩) := by
  intro w r d f hw ht hr hfo hd hf
  obtain ⟨f, rfl⟩ : ∃ g, f = g + 1 := ⟨f - 1, by omega⟩
  have hcp : CodePoints (t ++ r) := cp_app.2 ⟨ht, hr⟩
  cases h with
  | null =>
    rw [List.cons_append] at hcp ⊢
    rw [parseelt_step hw (by decide) hcp, if_neg (by decide), if_neg (by decide), if_neg (by decide), ← List.cons_append, (scalar_word hr _).2.2]
    simp [empties]
  | true_ =>
    rw [List.cons_append] at hcp ⊢
    rw [parseelt_step hw (by decide) hcp, if_neg (by decide), if_neg (by decide), if_neg (by decide), ← List.cons_append, (scalar_word hr _).2.1]
    simp [empties]
  | false_ =>
    rw [List.cons_append] at hcp ⊢
    rw [parseelt_step hw (by decide) hcp, if_neg (by decide), if_neg (by decide), if_neg (by decide), ← List.cons_append, (scalar_word hr _).1]
    simp [empties]
  | @num _ n hn hfp =>
    obtain ⟨c, e1, e2⟩ := scalar_num (r := r) hn hfp hr hfo
    obtain ⟨c', t', e3, hc⟩ := number_head hn
    obtain ⟨c2, t2, e4, hc2⟩ := elt_head (Elt.num (u := false) hn hfp)
    rw [e3] at e4
    obtain ⟨rfl, rfl⟩ := List.cons.inj e4
    subst e3
    simp only [List.cons_append, List.head?_cons, Option.some.injEq] at e1
    subst e1
    obtain ⟨n1, n2, n3⟩ := not_dig hc
    rw [List.cons_append] at hcp ⊢
    rw [parseelt_step hw hc2 hcp, if_neg n1, if_neg n2, if_neg n3, ← List.cons_append, e2]
    simp [empties]
  | @str _ s hs =>
    obtain ⟨t', rfl⟩ := str_head hs
    rw [List.cons_append] at hcp ⊢
    rw [parseelt_step hw (by decide) hcp, if_neg (by decide), if_neg (by decide), if_pos rfl, ← List.cons_append, jsonstr_str hs ht]
    simp [empties]
  | @arr0 w' hw' =>
    obtain ⟨f, rfl⟩ : ∃ g, f = g + 1 := ⟨f - 1, by omega⟩
    simp only [depthOf, empties, depthsOf, List.isEmpty_nil, if_true] at hd ⊢
    rw [List.append_assoc, List.cons_append, List.singleton_append] at hcp ⊢
    rw [parseelt_step hw (by decide) hcp, if_neg (by decide), if_pos rfl, parsearr]
    dsimp only
    rw [takec_enc (by decide)]
    simp only [PM.lift_ok, PM.ret_bind, ne_eq, not_true_eq_false, if_false]
    rw [if_neg (by unfold Maxdepth; omega), takespace_skip hw' (by decide) (cp_cons.2 ⟨by decide, hr⟩), peekc_enc (by decide)]
    simp only [PM.lift_ok, PM.ret_bind, if_true]
    rw [takec_enc (by decide)]
    simp
  | @obj0 w' hw' =>
    obtain ⟨f, rfl⟩ : ∃ g, f = g + 1 := ⟨f - 1, by omega⟩
    simp only [depthOf, empties, depthmOf, List.isEmpty_nil, if_true] at hd ⊢
    rw [List.append_assoc, List.cons_append, List.singleton_append] at hcp ⊢
    rw [parseelt_step hw (by decide) hcp, if_pos rfl, parseobj]
    dsimp only
    rw [takec_enc (by decide)]
    simp only [PM.lift_ok, PM.ret_bind, ne_eq, not_true_eq_false, if_false]
    rw [if_neg (by unfold Maxdepth; omega), takespace_skip hw' (by decide) (cp_cons.2 ⟨by decide, hr⟩), peekc_enc (by decide)]
    simp only [PM.lift_ok, PM.ret_bind, if_true]
    rw [takec_enc (by decide)]
    simp
  | @arr t' l he =>
    obtain ⟨f, rfl⟩ : ∃ g, f = g + 1 := ⟨f - 1, by omega⟩
    simp only [depthOf, empties, elts_ne he] at hd ⊢
    simp only [Bool.false_eq_true, if_false] at hd ⊢
    simp only [List.length_append, List.length_cons, List.length_nil] at hf
    rw [List.append_assoc, List.cons_append, List.singleton_append] at hcp ⊢
    obtain ⟨w', c, t2, e, hw', hc, hne⟩ := elts_head he
    have hcp2 := (cp_cons.1 hcp).2
    rw [e, List.append_assoc, List.cons_append] at hcp2
    rw [parseelt_step hw (by decide) hcp, if_neg (by decide), if_pos rfl, parsearr]
    dsimp only
    rw [takec_enc (by decide)]
    simp only [PM.lift_ok, PM.ret_bind, ne_eq, not_true_eq_false, if_false]
    rw [if_neg (by unfold Maxdepth; omega)]
    have hp : peekc (takespace (enc (t' ++ 93#32 :: r))) = .ok c := by
      rw [e, List.append_assoc, List.cons_append, takespace_skip hw' hc (cp_app.1 hcp2).2, peekc_enc (cp_cons.1 (cp_app.1 hcp2).2).1]
    rw [hp]
    simp only [PM.lift_ok, PM.ret_bind]
    rw [if_neg hne, elts_reads he (x := takespace (enc (t' ++ 93#32 :: r))) (takespace_idem _) (cp_app.1 (cp_cons.1 hcp).2).1 hr (by omega) (by omega)]
    simp only [List.nil_append]
    congr 4
    omega
  | @obj t' l he =>
    obtain ⟨f, rfl⟩ : ∃ g, f = g + 1 := ⟨f - 1, by omega⟩
    simp only [depthOf, empties, membs_ne he] at hd ⊢
    simp only [Bool.false_eq_true, if_false] at hd ⊢
    simp only [List.length_append, List.length_cons, List.length_nil] at hf
    rw [List.append_assoc, List.cons_append, List.singleton_append] at hcp ⊢
    obtain ⟨w', t2, e, hw'⟩ := membs_head he
    have hcp2 := (cp_cons.1 hcp).2
    rw [e, List.append_assoc, List.cons_append] at hcp2
    rw [parseelt_step hw (by decide) hcp, if_pos rfl, parseobj]
    dsimp only
    rw [takec_enc (by decide)]
    simp only [PM.lift_ok, PM.ret_bind, ne_eq, not_true_eq_false, if_false]
    rw [if_neg (by unfold Maxdepth; omega)]
    have hp : peekc (takespace (enc (t' ++ 125#32 :: r))) = .ok 34#32 := by
      rw [e, List.append_assoc, List.cons_append, takespace_skip hw' (by decide) (cp_app.1 hcp2).2, peekc_enc (by decide)]
    rw [hp]
    simp only [PM.lift_ok, PM.ret_bind]
    rw [if_neg (by decide), membs_reads he (x := takespace (enc (t' ++ 125#32 :: r))) (takespace_idem _) ⟨_, hp, by decide⟩ (cp_app.1 (cp_cons.1 hcp).2).1 hr (by omega) (by omega)]
    simp only [List.nil_append]
    congr 4
    omega

theorem elts_reads {F : Type} {fp : List Byte → Option F} {t : List Char32} {l : List (Val F)} (h : Elts fp false t l) : ∀ {r : List Char32} {x : List Byte} {d : Int} {f : Nat} {acc : List (Val F)},
    takespace x = takespace (enc (t ++ 93#32 :: r)) → CodePoints t → CodePoints r → d + depthsOf l + emptiess l ≤ 1024 → 3 * t.length + 6 ≤ f →
    arrLoop fp f ⟨x, d⟩ acc = PM.ret (.arr (acc ++ l), ⟨enc r, d + emptiess l - 1⟩) := by
  intro r x d f acc hx ht hr hd hf
  obtain ⟨f, rfl⟩ : ∃ g, f = g + 1 := ⟨f - 1, by omega⟩
  obtain ⟨f, rfl⟩ : ∃ g, f = g + 1 := ⟨f - 1, by omega⟩
  have hpe : parseelt fp (f + 1) ⟨x, d⟩ = parseelt fp (f + 1) ⟨enc (t ++ 93#32 :: r), d⟩ := by
    rw [parseelt, parseelt]
    dsimp only
    rw [hx]
  rw [arrLoop, hpe]
  cases h with
  | @one w1 t1 w2 v h1 h2 h3 =>
    simp only [depthsOf, emptiess] at hd ⊢
    simp only [List.length_append] at hf
    rw [cp_app, cp_app] at ht
    rw [List.append_assoc, List.append_assoc, elt_reads h2 h1 ht.1.2 (cp_app.2 ⟨ht.2, cp_cons.2 ⟨by decide, hr⟩⟩) (follow_sep_ws h3 (by decide)) (by omega) (by omega)]
    simp only [PM.ret_bind]
    rw [takespace_skip h3 (by decide) (cp_cons.2 ⟨by decide, hr⟩), takec_enc (by decide)]
    simp only [PM.lift_ok, PM.ret_bind]
    rw [if_neg (by decide), if_pos trivial, Nat.add_zero]
  | @more w1 t1 w2 r' v l' h1 h2 h3 h4 =>
    simp only [depthsOf, emptiess] at hd ⊢
    simp only [List.length_append, List.length_cons, List.length_nil] at hf
    rw [cp_app, cp_app, cp_app, cp_app] at ht
    have hr' : CodePoints (r' ++ 93#32 :: r) := cp_app.2 ⟨ht.2, cp_cons.2 ⟨by decide, hr⟩⟩
    rw [show w1 ++ t1 ++ w2 ++ [44#32] ++ r' ++ 93#32 :: r = w1 ++ (t1 ++ (w2 ++ 44#32 :: (r' ++ 93#32 :: r))) by simp,
      elt_reads h2 h1 ht.1.1.1.2 (cp_app.2 ⟨ht.1.1.2, cp_cons.2 ⟨by decide, hr'⟩⟩) (follow_sep_ws h3 (by decide)) (by omega) (by omega)]
    simp only [PM.ret_bind]
    rw [takespace_skip h3 (by decide) (cp_cons.2 ⟨by decide, hr'⟩), takec_enc (by decide)]
    simp only [PM.lift_ok, PM.ret_bind, if_true]
    rw [elts_reads h4 rfl ht.2 hr (by omega) (by omega)]
    simp only [List.append_assoc, List.singleton_append]
    congr 4
    omega

theorem membs_reads {F : Type} {fp : List Byte → Option F} {t : List Char32} {l : List (List Byte × Val F)} (h : Membs fp false t l) :
    ∀ {r : List Char32} {x : List Byte} {d : Int} {f : Nat} {acc : List (List Byte × Val F)},
    takespace x = takespace (enc (t ++ 125#32 :: r)) → (∃ c, peekc x = .ok c ∧ c ≠ 125#32) → CodePoints t → CodePoints r → d + depthmOf l + emptiesm l ≤ 1024 → 3 * t.length + 6 ≤ f →
    objLoop fp f ⟨x, d⟩ acc = PM.ret (.obj (acc ++ l), ⟨enc r, d + emptiesm l - 1⟩) := by
  intro r x d f acc hx hp ht hr hd hf
  obtain ⟨f, rfl⟩ : ∃ g, f = g + 1 := ⟨f - 1, by omega⟩
  obtain ⟨f, rfl⟩ : ∃ g, f = g + 1 := ⟨f - 1, by omega⟩
  obtain ⟨c, hp1, hp2⟩ := hp
  rw [objLoop, hp1]
  simp only [PM.lift_ok, PM.ret_bind]
  rw [if_neg hp2, member]
  dsimp only
  rw [hx]
  cases h with
  | @one w1 k w2 w3 t1 w4 s v h1 h2 h3 h4 h5 h6 =>
    simp only [depthmOf, emptiesm] at hd ⊢
    simp only [List.length_append, List.length_cons, List.length_nil] at hf
    simp only [cp_app] at ht
    obtain ⟨k', hk⟩ := str_head h2
    obtain ⟨c1, t1', ht1, hc1⟩ := elt_head h5
    have hr1 : CodePoints (w4 ++ 125#32 :: r) := cp_app.2 ⟨ht.2, cp_cons.2 ⟨by decide, hr⟩⟩
    have hr2 : CodePoints (t1 ++ (w4 ++ 125#32 :: r)) := cp_app.2 ⟨ht.1.2, hr1⟩
    have hr3 : CodePoints (w3 ++ (t1 ++ (w4 ++ 125#32 :: r))) := cp_app.2 ⟨ht.1.1.2, hr2⟩
    have hr4 : CodePoints (k ++ (w2 ++ 58#32 :: (w3 ++ (t1 ++ (w4 ++ 125#32 :: r))))) := cp_app.2 ⟨ht.1.1.1.1.1.2, cp_app.2 ⟨ht.1.1.1.1.2, cp_cons.2 ⟨by decide, hr3⟩⟩⟩
    have ets : takespace (enc (w1 ++ k ++ w2 ++ [58#32] ++ w3 ++ t1 ++ w4 ++ 125#32 :: r)) = enc (k ++ (w2 ++ 58#32 :: (w3 ++ (t1 ++ (w4 ++ 125#32 :: r))))) := by
      rw [show w1 ++ k ++ w2 ++ [58#32] ++ w3 ++ t1 ++ w4 ++ 125#32 :: r = w1 ++ (k ++ (w2 ++ 58#32 :: (w3 ++ (t1 ++ (w4 ++ 125#32 :: r))))) by simp]
      rw [hk, List.cons_append] at hr4 ⊢
      exact takespace_skip h1 (by decide) hr4
    rw [ets, jsonstr_str h2 ht.1.1.1.1.1.2]
    simp only [PM.ret_bind]
    rw [takespace_skip h3 (by decide) (cp_cons.2 ⟨by decide, hr3⟩), takec_enc (by decide)]
    simp only [PM.lift_ok, PM.ret_bind, if_true]
    have ets2 : takespace (enc (w3 ++ (t1 ++ (w4 ++ 125#32 :: r)))) = enc ([] ++ (t1 ++ (w4 ++ 125#32 :: r))) := by
      rw [ht1, List.cons_append] at hr2 ⊢
      rw [takespace_skip h4 hc1 hr2]
      rfl
    rw [ets2, elt_reads h5 (fun c hc => by simp at hc) ht.1.2 hr1 (follow_sep_ws h6 (by decide)) (by omega) (by omega)]
    simp only [PM.ret_bind]
    rw [takespace_skip h6 (by decide) (cp_cons.2 ⟨by decide, hr⟩), takec_enc (by decide)]
    simp only [PM.lift_ok, PM.ret_bind]
    rw [if_neg (by decide), if_pos trivial, Nat.add_zero]
  | @more w1 k w2 w3 t1 w4 r' s v l' h1 h2 h3 h4 h5 h6 h7 =>
    simp only [depthmOf, emptiesm] at hd ⊢
    simp only [List.length_append, List.length_cons, List.length_nil] at hf
    simp only [cp_app] at ht
    obtain ⟨k', hk⟩ := str_head h2
    obtain ⟨c1, t1', ht1, hc1⟩ := elt_head h5
    have hr0 : CodePoints (r' ++ 125#32 :: r) := cp_app.2 ⟨ht.2, cp_cons.2 ⟨by decide, hr⟩⟩
    have hr1 : CodePoints (w4 ++ 44#32 :: (r' ++ 125#32 :: r)) := cp_app.2 ⟨ht.1.1.2, cp_cons.2 ⟨by decide, hr0⟩⟩
    have hr2 : CodePoints (t1 ++ (w4 ++ 44#32 :: (r' ++ 125#32 :: r))) := cp_app.2 ⟨ht.1.1.1.2, hr1⟩
    have hr3 : CodePoints (w3 ++ (t1 ++ (w4 ++ 44#32 :: (r' ++ 125#32 :: r)))) := cp_app.2 ⟨ht.1.1.1.1.2, hr2⟩
    have hr4 : CodePoints (k ++ (w2 ++ 58#32 :: (w3 ++ (t1 ++ (w4 ++ 44#32 :: (r' ++ 125#32 :: r)))))) := cp_app.2 ⟨ht.1.1.1.1.1.1.1.2, cp_app.2 ⟨ht.1.1.1.1.1.1.2, cp_cons.2 ⟨by decide, hr3⟩⟩⟩
    have ets : takespace (enc (w1 ++ k ++ w2 ++ [58#32] ++ w3 ++ t1 ++ w4 ++ [44#32] ++ r' ++ 125#32 :: r)) = enc (k ++ (w2 ++ 58#32 :: (w3 ++ (t1 ++ (w4 ++ 44#32 :: (r' ++ 125#32 :: r)))))) := by
      rw [show w1 ++ k ++ w2 ++ [58#32] ++ w3 ++ t1 ++ w4 ++ [44#32] ++ r' ++ 125#32 :: r = w1 ++ (k ++ (w2 ++ 58#32 :: (w3 ++ (t1 ++ (w4 ++ 44#32 :: (r' ++ 125#32 :: r)))))) by simp]
      rw [hk, List.cons_append] at hr4 ⊢
      exact takespace_skip h1 (by decide) hr4
    rw [ets, jsonstr_str h2 ht.1.1.1.1.1.1.1.2]
    simp only [PM.ret_bind]
    rw [takespace_skip h3 (by decide) (cp_cons.2 ⟨by decide, hr3⟩), takec_enc (by decide)]
    simp only [PM.lift_ok, PM.ret_bind, if_true]
    have ets2 : takespace (enc (w3 ++ (t1 ++ (w4 ++ 44#32 :: (r' ++ 125#32 :: r))))) = enc ([] ++ (t1 ++ (w4 ++ 44#32 :: (r' ++ 125#32 :: r)))) := by
      rw [ht1, List.cons_append] at hr2 ⊢
      rw [takespace_skip h4 hc1 hr2]
      rfl
    rw [ets2, elt_reads h5 (fun c hc => by simp at hc) ht.1.1.1.2 hr1 (follow_sep_ws h6 (by decide)) (by omega) (by omega)]
    simp only [PM.ret_bind]
    rw [takespace_skip h6 (by decide) (cp_cons.2 ⟨by decide, hr0⟩), takec_enc (by decide)]
    simp only [PM.lift_ok, PM.ret_bind, if_true]
    have hpk : ∃ c, peekc (enc (r' ++ 125#32 :: r)) = .ok c ∧ c ≠ 125#32 := by
      obtain ⟨w', t2, e, hw'⟩ := membs_head h7
      rw [peekc_head hr0, e]
      refine ⟨_, rfl, ?_⟩
      cases w' with
      | nil => show (34#32 : Char32) ≠ 125#32; decide
      | cons c w' =>
        show c ≠ 125#32
        rcases hw' c (by simp) with rfl | rfl | rfl | rfl <;> decide
    rw [membs_reads h7 rfl hpk ht.2 hr (by omega) (by omega)]
    simp only [List.append_assoc, List.singleton_append]
    congr 4
    omega
end

end Verif.Json
