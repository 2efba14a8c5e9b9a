import Verif.Json.Complete

/-!
# What is read is of the grammar
-/

namespace Verif.Json

open Utf (Char32 Badchar utf8 enc CodePoints)

theorem takec_next {cs : List Char32} (h : CodePoints cs) {t : Char32 × List Byte} (he : takec (takespace (enc cs)) = .ok t) (hb : t.1 ≠ Badchar) :
    ∃ w cs', Ws w ∧ cs = w ++ t.1 :: cs' ∧ t.2 = enc cs' := by
  obtain ⟨w, hw, e⟩ := ws_split cs
  rw [takespace_enc h] at he
  have h2 := cp_dropWhile h isWs
  revert e he h2
  cases cs.dropWhile isWs with
  | nil =>
    intro he e h2
    rw [enc_nil, takec_nil, Res.ok.injEq] at he
    subst he
    exact absurd rfl hb
  | cons c r =>
    intro he e h2
    rw [takec_enc (cp_cons.1 h2).1, Res.ok.injEq] at he
    subst he
    exact ⟨w, r, hw, e, rfl⟩

theorem peekc_next {cs : List Char32} (h : CodePoints cs) {c : Char32} (he : peekc (takespace (enc cs)) = .ok c) (hb : c ≠ Badchar) :
    ∃ w cs', Ws w ∧ cs = w ++ c :: cs' ∧ takespace (enc cs) = enc (c :: cs') ∧ isWs c = false := by
  obtain ⟨w, hw, e⟩ := ws_split cs
  rw [takespace_enc h] at he ⊢
  have h2 := cp_dropWhile h isWs
  have h3 := List.head?_dropWhile_not isWs cs
  revert e he h2 h3
  cases cs.dropWhile isWs with
  | nil =>
    intro he e
    rw [enc_nil, peekc_nil, Res.ok.injEq] at he
    exact absurd he.symm hb
  | cons d r =>
    intro he e h2 h3
    rw [peekc_enc (cp_cons.1 h2).1, Res.ok.injEq] at he
    subst he
    exact ⟨w, r, hw, e, rfl, by simpa using h3⟩

theorem ws_app {a b : List Char32} (ha : Ws a) (hb : Ws b) : Ws (a ++ b) := fun c hc => by
  rcases List.mem_append.1 hc with h | h
  · exact ha c h
  · exact hb c h

theorem elts_ws {F : Type} {fp : List Byte → Option F} {u : Bool} {w t : List Char32} {l : List (Val F)} (hw : Ws w) (h : Elts fp u t l) : Elts fp u (w ++ t) l := by
  cases h with
  | one h1 h2 h3 => simpa only [List.append_assoc] using Elts.one (ws_app hw h1) h2 h3
  | more h1 h2 h3 h4 => simpa only [List.append_assoc] using Elts.more (ws_app hw h1) h2 h3 h4

theorem membs_ws {F : Type} {fp : List Byte → Option F} {u : Bool} {w t : List Char32} {l : List (List Byte × Val F)} (hw : Ws w) (h : Membs fp u t l) : Membs fp u (w ++ t) l := by
  cases h with
  | one h1 h2 h3 h4 h5 h6 => simpa only [List.append_assoc] using Membs.one (ws_app hw h1) h2 h3 h4 h5 h6
  | more h1 h2 h3 h4 h5 h6 h7 => simpa only [List.append_assoc] using Membs.more (ws_app hw h1) h2 h3 h4 h5 h6 h7

variable {F : Type} (fp : List Byte → Option F)

/-- The text has neither `\u` nor `,}`. -/
structure Plain (cs : List Char32) : Prop where
  cp : CodePoints cs
  u : NoU cs
  c : NoC cs

theorem Plain.right {a b : List Char32} (h : Plain (a ++ b)) : Plain b := ⟨(cp_app.1 h.cp).2, h.u.right, h.c.right⟩
theorem Plain.tail {a : Char32} {b : List Char32} (h : Plain (a :: b)) : Plain b := ⟨(cp_cons.1 h.cp).2, h.u.tail, h.c.tail⟩

/-- An element is read at the start of the text. -/
def EltS (f : P → PM (Val F × P)) : Prop := ∀ (cs : List Char32) (d : Int) (v : Val F) (p : P), Plain cs → f ⟨enc cs, d⟩ = PM.ret (v, p) →
  ∃ w t cs', cs = w ++ (t ++ cs') ∧ Ws w ∧ Elt fp false t v ∧ p.rest = enc cs'

/-- The elements of an array and the bracket. -/
def ArrL (f : P → List (Val F) → PM (Val F × P)) : Prop := ∀ (cs : List Char32) (d : Int) (acc : List (Val F)) (v : Val F) (p : P), Plain cs → f ⟨enc cs, d⟩ acc = PM.ret (v, p) →
  ∃ t l cs', cs = t ++ 93#32 :: cs' ∧ Elts fp false t l ∧ v = .arr (acc ++ l) ∧ p.rest = enc cs'

/-- The members of an object and the brace. -/
def ObjL (f : P → List (List Byte × Val F) → PM (Val F × P)) : Prop := ∀ (cs : List Char32) (d : Int) (acc : List (List Byte × Val F)) (v : Val F) (p : P), Plain cs →
  cs.head? ≠ some 125#32 → f ⟨enc cs, d⟩ acc = PM.ret (v, p) →
  ∃ t l cs', cs = t ++ 125#32 :: cs' ∧ Membs fp false t l ∧ v = .obj (acc ++ l) ∧ p.rest = enc cs'

/-- A member. -/
def MembS (f : P → PM ((List Byte × Val F) × P)) : Prop := ∀ (cs : List Char32) (d : Int) (m : List Byte × Val F) (p : P), Plain cs → f ⟨enc cs, d⟩ = PM.ret (m, p) →
  ∃ w1 k w2 w3 t cs', cs = w1 ++ (k ++ (w2 ++ 58#32 :: (w3 ++ (t ++ cs')))) ∧ Ws w1 ∧ Str false k m.1 ∧ Ws w2 ∧ Ws w3 ∧ Elt fp false t m.2 ∧ p.rest = enc cs'

/-- All of them. -/
structure Sound (f : Nat) : Prop where
  elt : EltS fp (parseelt fp f)
  obj : EltS fp (parseobj fp f)
  arr : EltS fp (parsearr fp f)
  objL : ObjL fp (objLoop fp f)
  arrL : ArrL fp (arrLoop fp f)
  memb : MembS fp (member fp f)

variable {fp}

theorem step_elt {f : Nat} (ih : Sound fp f) : EltS fp (parseelt fp (f + 1)) := by
  intro cs d v p hcs h
  rw [parseelt] at h
  dsimp only at h
  obtain ⟨w, hw, e⟩ := ws_split cs
  rw [takespace_enc hcs.cp] at h
  obtain ⟨cs2, e2⟩ : ∃ x, cs.dropWhile isWs = x := ⟨_, rfl⟩
  rw [e2] at e h
  have hcs2 : Plain cs2 := by rw [e] at hcs; exact hcs.right
  rw [PM.bind_eq_ret] at h
  obtain ⟨c, hc, h⟩ := h
  have done : ∀ {w2 t cs'}, cs2 = w2 ++ (t ++ cs') → Ws w2 → Elt fp false t v → p.rest = enc cs' → ∃ w t cs', cs = w ++ (t ++ cs') ∧ Ws w ∧ Elt fp false t v ∧ p.rest = enc cs' := by
    intro w2 t cs' h1 h2 h3 h4
    exact ⟨w ++ w2, t, cs', by rw [e, h1, List.append_assoc], ws_app hw h2, h3, h4⟩
  have nilw : Ws [] := fun c hc => by simp at hc
  split at h
  · obtain ⟨w2, t, cs', h1, h2, h3, h4⟩ := ih.obj _ _ _ _ hcs2 h
    exact done h1 h2 h3 h4
  · split at h
    · obtain ⟨w2, t, cs', h1, h2, h3, h4⟩ := ih.arr _ _ _ _ hcs2 h
      exact done h1 h2 h3 h4
    · split at h
      · rw [PM.bind_eq_ret] at h
        obtain ⟨⟨s, r⟩, hs, h⟩ := h
        simp only [PM.ret_inj, Prod.mk.injEq] at h
        obtain ⟨rfl, rfl⟩ := h
        obtain ⟨t, r', h1, h2, h3⟩ := jsonstr_sound hcs2.cp hcs2.u hs
        exact done (w2 := []) h1 nilw (.str h2) h3
      · rw [PM.bind_eq_ret] at h
        obtain ⟨⟨s, r⟩, hs, h⟩ := h
        simp only [PM.ret_inj, Prod.mk.injEq] at h
        obtain ⟨rfl, rfl⟩ := h
        obtain ⟨t, r', h1, h2, h3⟩ := scalar_sound hcs2.cp hs
        exact done (w2 := []) h1 nilw h2 h3

theorem step_obj {f : Nat} (ih : Sound fp f) : EltS fp (parseobj fp (f + 1)) := by
  intro cs d v p hcs h
  have nilw : Ws [] := fun c hc => by simp at hc
  rw [parseobj] at h
  dsimp only at h
  rw [PM.bind_eq_ret] at h
  obtain ⟨t, ht, h⟩ := h
  split at h
  · exact (PM.abort_ne.1 h).elim
  · next hb =>
    rw [not_not] at hb
    split at h
    · exact (PM.err_ne.1 h).elim
    · rw [PM.lift_eq_ret] at ht
      obtain ⟨cs1, rfl, e2⟩ : ∃ cs1, cs = 123#32 :: cs1 ∧ t.2 = enc cs1 := by
        cases cs with
        | nil => rw [enc_nil, takec_nil, Res.ok.injEq] at ht; subst ht; exact absurd hb (by decide)
        | cons c cs1 =>
          rw [takec_enc (cp_cons.1 hcs.cp).1, Res.ok.injEq] at ht
          subst ht
          exact ⟨cs1, by rw [← hb], rfl⟩
      have hcs1 := hcs.tail
      rw [e2, PM.bind_eq_ret] at h
      obtain ⟨c, hc, h⟩ := h
      rw [PM.lift_eq_ret] at hc
      split at h
      · next hc2 =>
        subst hc2
        obtain ⟨w, cs2, hw, e3, e4, -⟩ := peekc_next hcs1.cp hc (by decide)
        rw [e4, takec_enc (by decide)] at h
        simp only [PM.lift_ok, PM.ret_bind, PM.ret_inj, Prod.mk.injEq] at h
        obtain ⟨rfl, rfl⟩ := h
        exact ⟨[], _, cs2, by rw [e3]; simp, nilw, .obj0 hw, rfl⟩
      · next hc2 =>
        obtain ⟨w, hw, e3⟩ := ws_split cs1
        rw [takespace_enc hcs1.cp] at h hc
        have hcs2 : Plain (cs1.dropWhile isWs) := by
          have := hcs1
          rw [e3] at this
          exact this.right
        obtain ⟨t', l, cs', h1, h2, h3, h4⟩ := ih.objL _ _ _ _ _ hcs2 (by
          intro hh
          rw [peekc_head hcs2.cp, hh, Res.ok.injEq] at hc
          exact hc2 hc.symm) h
        rw [List.nil_append] at h3
        subst h3
        refine ⟨[], _, cs', ?_, nilw, .obj (membs_ws hw h2), h4⟩
        rw [h1] at e3
        rw [e3]
        simp

theorem step_arr {f : Nat} (ih : Sound fp f) : EltS fp (parsearr fp (f + 1)) := by
  intro cs d v p hcs h
  have nilw : Ws [] := fun c hc => by simp at hc
  rw [parsearr] at h
  dsimp only at h
  rw [PM.bind_eq_ret] at h
  obtain ⟨t, ht, h⟩ := h
  split at h
  · exact (PM.abort_ne.1 h).elim
  · next hb =>
    rw [not_not] at hb
    split at h
    · exact (PM.err_ne.1 h).elim
    · rw [PM.lift_eq_ret] at ht
      obtain ⟨cs1, rfl, e2⟩ : ∃ cs1, cs = 91#32 :: cs1 ∧ t.2 = enc cs1 := by
        cases cs with
        | nil => rw [enc_nil, takec_nil, Res.ok.injEq] at ht; subst ht; exact absurd hb (by decide)
        | cons c cs1 =>
          rw [takec_enc (cp_cons.1 hcs.cp).1, Res.ok.injEq] at ht
          subst ht
          exact ⟨cs1, by rw [← hb], rfl⟩
      have hcs1 := hcs.tail
      rw [e2, PM.bind_eq_ret] at h
      obtain ⟨c, hc, h⟩ := h
      rw [PM.lift_eq_ret] at hc
      split at h
      · next hc2 =>
        subst hc2
        obtain ⟨w, cs2, hw, e3, e4, -⟩ := peekc_next hcs1.cp hc (by decide)
        rw [e4, takec_enc (by decide)] at h
        simp only [PM.lift_ok, PM.ret_bind, PM.ret_inj, Prod.mk.injEq] at h
        obtain ⟨rfl, rfl⟩ := h
        exact ⟨[], _, cs2, by rw [e3]; simp, nilw, .arr0 hw, rfl⟩
      · obtain ⟨w, hw, e3⟩ := ws_split cs1
        rw [takespace_enc hcs1.cp] at h
        have hcs2 : Plain (cs1.dropWhile isWs) := by
          have := hcs1
          rw [e3] at this
          exact this.right
        obtain ⟨t', l, cs', h1, h2, h3, h4⟩ := ih.arrL _ _ _ _ _ hcs2 h
        rw [List.nil_append] at h3
        subst h3
        refine ⟨[], _, cs', ?_, nilw, .arr (elts_ws hw h2), h4⟩
        rw [h1] at e3
        rw [e3]
        simp

theorem step_arrL {f : Nat} (ih : Sound fp f) : ArrL fp (arrLoop fp (f + 1)) := by
  intro cs d acc v p hcs h
  rw [arrLoop, PM.bind_eq_ret] at h
  obtain ⟨e, he, h⟩ := h
  obtain ⟨w, t, cs1, rfl, hw, helt, hr⟩ := ih.elt _ _ _ _ hcs he
  rw [hr, PM.bind_eq_ret] at h
  obtain ⟨x, hx, h⟩ := h
  rw [PM.lift_eq_ret] at hx
  have hcs1 : Plain cs1 := hcs.right.right
  split at h
  · next hc =>
    obtain ⟨w2, cs2, hw2, rfl, e2⟩ := takec_next hcs1.cp hx (by rw [hc]; decide)
    rw [e2] at h
    obtain ⟨t2, l, cs', h1, h2, h3, h4⟩ := ih.arrL _ _ _ _ _ hcs1.right.tail h
    refine ⟨_, _, cs', ?_, .more hw helt hw2 h2, by rw [h3]; simp, h4⟩
    rw [hc, h1]
    simp
  · split at h
    · next hc =>
      obtain ⟨w2, cs2, hw2, rfl, e2⟩ := takec_next hcs1.cp hx (by rw [hc]; decide)
      simp only [PM.ret_inj, Prod.mk.injEq] at h
      obtain ⟨rfl, rfl⟩ := h
      refine ⟨_, _, cs2, ?_, .one hw helt hw2, rfl, e2⟩
      rw [hc]
      simp
    · split at h <;> exact (PM.err_ne.1 h).elim

theorem step_memb {f : Nat} (ih : Sound fp f) : MembS fp (member fp (f + 1)) := by
  intro cs d m p hcs h
  rw [member] at h
  dsimp only at h
  rw [PM.bind_eq_ret] at h
  obtain ⟨⟨s, r⟩, hs, h⟩ := h
  obtain ⟨w1, hw1, e1⟩ := ws_split cs
  rw [takespace_enc hcs.cp] at hs
  obtain ⟨cs2, e2⟩ : ∃ x, cs.dropWhile isWs = x := ⟨_, rfl⟩
  rw [e2] at e1 hs
  subst e1
  have hcs2 := hcs.right
  obtain ⟨k, cs3, rfl, hk, hr⟩ := jsonstr_sound hcs2.cp hcs2.u hs
  dsimp only at h
  rw [hr, PM.bind_eq_ret] at h
  obtain ⟨x, hx, h⟩ := h
  rw [PM.lift_eq_ret] at hx
  split at h
  · next hc =>
    obtain ⟨w2, cs4, hw2, rfl, e4⟩ := takec_next hcs2.right.cp hx (by rw [hc]; decide)
    have hcs4 := hcs2.right.right.tail
    obtain ⟨w3, hw3, e5⟩ := ws_split cs4
    rw [e4, takespace_enc hcs4.cp, PM.bind_eq_ret] at h
    obtain ⟨y, hy, h⟩ := h
    have hcs5 : Plain (cs4.dropWhile isWs) := by
      have := hcs4
      rw [e5] at this
      exact this.right
    obtain ⟨w, t, cs', h1, h2, h3, h4⟩ := ih.elt _ _ _ _ hcs5 hy
    rw [h1] at e5
    simp only [PM.ret_inj, Prod.mk.injEq] at h
    obtain ⟨rfl, rfl⟩ := h
    refine ⟨w1, k, w2, w3 ++ w, t, cs', ?_, hw1, hk, hw2, ws_app hw3 h2, h3, h4⟩
    rw [e5, hc]
    simp
  · exact (PM.err_ne.1 h).elim

theorem step_objL {f : Nat} (ih : Sound fp f) : ObjL fp (objLoop fp (f + 1)) := by
  intro cs d acc v p hcs hh h
  rw [objLoop, PM.bind_eq_ret] at h
  obtain ⟨c, hc, h⟩ := h
  rw [PM.lift_eq_ret, peekc_head hcs.cp, Res.ok.injEq] at hc
  split at h
  · next hc2 =>
    rw [hc2] at hc
    obtain ⟨r, rfl⟩ := head_eq (by decide) hc
    exact absurd rfl hh
  · rw [PM.bind_eq_ret] at h
    obtain ⟨m, hm, h⟩ := h
    obtain ⟨w1, k, w2, w3, t, cs1, rfl, h1, h2, h3, h4, h5, hr⟩ := ih.memb _ _ _ _ hcs hm
    rw [hr, PM.bind_eq_ret] at h
    obtain ⟨x, hx, h⟩ := h
    rw [PM.lift_eq_ret] at hx
    have hcs1 : Plain cs1 := hcs.right.right.right.tail.right.right
    clear hc
    split at h
    · next hc =>
      obtain ⟨w4, cs2, hw4, rfl, e2⟩ := takec_next hcs1.cp hx (by rw [hc]; decide)
      rw [e2] at h
      have hcs2 := hcs1.right
      have hnc : cs2.head? ≠ some 125#32 := by
        intro hh2
        cases cs2 with
        | nil => simp at hh2
        | cons c2 cs2 =>
          rw [List.head?_cons, Option.some.injEq] at hh2
          subst hh2
          rw [hc] at hcs2
          exact hcs2.c ⟨[], cs2, rfl⟩
      obtain ⟨t2, l, cs', g1, g2, g3, g4⟩ := ih.objL _ _ _ _ _ hcs2.tail hnc h
      refine ⟨_, _, cs', ?_, .more h1 h2 h3 h4 h5 hw4 g2, by rw [g3]; simp, g4⟩
      rw [hc, g1]
      simp
    · split at h
      · next hc =>
        obtain ⟨w4, cs2, hw4, rfl, e2⟩ := takec_next hcs1.cp hx (by rw [hc]; decide)
        simp only [PM.ret_inj, Prod.mk.injEq] at h
        obtain ⟨rfl, rfl⟩ := h
        refine ⟨_, _, cs2, ?_, .one h1 h2 h3 h4 h5 hw4, rfl, e2⟩
        rw [hc]
        simp
      · split at h <;> exact (PM.err_ne.1 h).elim

theorem sound (fp : List Byte → Option F) (f : Nat) : Sound fp f := by
  induction f with
  | zero =>
    constructor
    · intro cs d v p _ h; rw [parseelt] at h; exact (PM.spin_ne.1 h).elim
    · intro cs d v p _ h; rw [parseobj] at h; exact (PM.spin_ne.1 h).elim
    · intro cs d v p _ h; rw [parsearr] at h; exact (PM.spin_ne.1 h).elim
    · intro cs d acc v p _ _ h; rw [objLoop] at h; exact (PM.spin_ne.1 h).elim
    · intro cs d acc v p _ h; rw [arrLoop] at h; exact (PM.spin_ne.1 h).elim
    · intro cs d v p _ h; rw [member] at h; exact (PM.spin_ne.1 h).elim
  | succ f ih => exact ⟨step_elt ih, step_obj ih, step_arr ih, step_objL ih, step_arrL ih, step_memb ih⟩

end Verif.Json
