import Verif.Json.Total

/-!
# How deep the parser goes
-/

namespace Verif.Json

open Utf (Char32 Badchar utf8 enc CodePoints)

theorem depthsOf_app {F : Type} (a : List (Val F)) (v : Val F) : depthsOf (a ++ [v]) = max (depthsOf a) (depthOf v) := by
  induction a with
  | nil => simp [depthsOf]
  | cons x a ih =>
    rw [List.cons_append, depthsOf, depthsOf, ih]
    omega

theorem depthmOf_app {F : Type} (a : List (List Byte × Val F)) (m : List Byte × Val F) : depthmOf (a ++ [m]) = max (depthmOf a) (depthOf m.2) := by
  induction a with
  | nil => simp [depthmOf]
  | cons x a ih =>
    rw [List.cons_append, depthmOf, depthmOf, ih]
    omega

/-- What was read at a depth is not nested too deep. -/
structure Shallow {F : Type} (fp : List Byte → Option F) (f : Nat) : Prop where
  elt : ∀ (p : P) (v : Val F) (p' : P), p.depth ≤ 1024 → parseelt fp f p = PM.ret (v, p') → p.depth + depthOf v ≤ 1024 ∧ p.depth ≤ p'.depth ∧ p'.depth ≤ 1024
  obj : ∀ (p : P) (v : Val F) (p' : P), parseobj fp f p = PM.ret (v, p') → p.depth + depthOf v ≤ 1024 ∧ p.depth ≤ p'.depth ∧ p'.depth ≤ 1024
  arr : ∀ (p : P) (v : Val F) (p' : P), parsearr fp f p = PM.ret (v, p') → p.depth + depthOf v ≤ 1024 ∧ p.depth ≤ p'.depth ∧ p'.depth ≤ 1024
  objL : ∀ (p : P) (acc : List (List Byte × Val F)) (v : Val F) (p' : P) (d : Int), d ≤ p.depth → p.depth ≤ 1024 → d + depthmOf acc ≤ 1024 → objLoop fp f p acc = PM.ret (v, p') →
    d + depthOf v ≤ 1025 ∧ d ≤ p'.depth + 1 ∧ p'.depth + 1 ≤ 1024
  arrL : ∀ (p : P) (acc : List (Val F)) (v : Val F) (p' : P) (d : Int), d ≤ p.depth → p.depth ≤ 1024 → d + depthsOf acc ≤ 1024 → arrLoop fp f p acc = PM.ret (v, p') →
    d + depthOf v ≤ 1025 ∧ d ≤ p'.depth + 1 ∧ p'.depth + 1 ≤ 1024
  memb : ∀ (p : P) (m : List Byte × Val F) (p' : P), p.depth ≤ 1024 → member fp f p = PM.ret (m, p') → p.depth + depthOf m.2 ≤ 1024 ∧ p.depth ≤ p'.depth ∧ p'.depth ≤ 1024

theorem scalar_depth {F : Type} {fp : List Byte → Option F} {r : List Byte} {c : Char32} {x : Val F × List Byte} (h : scalar fp r c = PM.ret x) : depthOf x.1 = 0 := by
  unfold scalar at h
  rw [PM.bind_eq_ret] at h
  obtain ⟨a, -, h⟩ := h
  split at h
  · rw [PM.ret_inj] at h; subst h; rfl
  · rw [PM.bind_eq_ret] at h
    obtain ⟨a, -, h⟩ := h
    split at h
    · rw [PM.ret_inj] at h; subst h; rfl
    · rw [PM.bind_eq_ret] at h
      obtain ⟨a, -, h⟩ := h
      split at h
      · rw [PM.ret_inj] at h; subst h; rfl
      · split at h
        · rw [PM.bind_eq_ret] at h
          obtain ⟨a, -, h⟩ := h
          split at h
          · rw [PM.ret_inj] at h; subst h; rfl
          · exact (PM.err_ne.1 h).elim
        · exact (PM.err_ne.1 h).elim

theorem shallow {F : Type} (fp : List Byte → Option F) (f : Nat) : Shallow fp f := by
  induction f with
  | zero =>
    constructor
    · intro p v p' _ h; rw [parseelt] at h; exact (PM.spin_ne.1 h).elim
    · intro p v p' h; rw [parseobj] at h; exact (PM.spin_ne.1 h).elim
    · intro p v p' h; rw [parsearr] at h; exact (PM.spin_ne.1 h).elim
    · intro p acc v p' d _ _ _ h; rw [objLoop] at h; exact (PM.spin_ne.1 h).elim
    · intro p acc v p' d _ _ _ h; rw [arrLoop] at h; exact (PM.spin_ne.1 h).elim
    · intro p v p' _ h; rw [member] at h; exact (PM.spin_ne.1 h).elim
  | succ f ih =>
    constructor
    · intro p v p' hd h
      rw [parseelt, PM.bind_eq_ret] at h
      obtain ⟨c, -, h⟩ := h
      split at h
      · exact ih.obj ⟨takespace p.rest, p.depth⟩ _ _ h
      · split at h
        · exact ih.arr ⟨takespace p.rest, p.depth⟩ _ _ h
        · split at h
          · rw [PM.bind_eq_ret] at h
            obtain ⟨s, -, h⟩ := h
            simp only [PM.ret_inj, Prod.mk.injEq] at h
            obtain ⟨rfl, rfl⟩ := h
            simp only [depthOf]
            omega
          · rw [PM.bind_eq_ret] at h
            obtain ⟨s, hs, h⟩ := h
            have := scalar_depth hs
            simp only [PM.ret_inj, Prod.mk.injEq] at h
            obtain ⟨rfl, rfl⟩ := h
            rw [this]
            dsimp only
            omega
    · intro p v p' h
      rw [parseobj, PM.bind_eq_ret] at h
      obtain ⟨t, -, h⟩ := h
      split at h
      · exact (PM.abort_ne.1 h).elim
      · split at h
        · exact (PM.err_ne.1 h).elim
        · next hm =>
          unfold Maxdepth at hm
          rw [PM.bind_eq_ret] at h
          obtain ⟨c, -, h⟩ := h
          split at h
          · rw [PM.bind_eq_ret] at h
            obtain ⟨t, -, h⟩ := h
            simp only [PM.ret_inj, Prod.mk.injEq] at h
            obtain ⟨rfl, rfl⟩ := h
            simp only [depthOf, depthmOf]
            omega
          · have := ih.objL _ _ _ _ (p.depth + 1) (Int.le_refl _) (by dsimp only; omega) (by simp only [depthmOf]; omega) h
            omega
    · intro p v p' h
      rw [parsearr, PM.bind_eq_ret] at h
      obtain ⟨t, -, h⟩ := h
      split at h
      · exact (PM.abort_ne.1 h).elim
      · split at h
        · exact (PM.err_ne.1 h).elim
        · next hm =>
          unfold Maxdepth at hm
          rw [PM.bind_eq_ret] at h
          obtain ⟨c, -, h⟩ := h
          split at h
          · rw [PM.bind_eq_ret] at h
            obtain ⟨t, -, h⟩ := h
            simp only [PM.ret_inj, Prod.mk.injEq] at h
            obtain ⟨rfl, rfl⟩ := h
            simp only [depthOf, depthsOf]
            omega
          · have := ih.arrL _ _ _ _ (p.depth + 1) (Int.le_refl _) (by dsimp only; omega) (by simp only [depthsOf]; omega) h
            omega
    · intro p acc v p' d hd hp ha h
      rw [objLoop, PM.bind_eq_ret] at h
      obtain ⟨c, -, h⟩ := h
      split at h
      · simp only [PM.ret_inj, Prod.mk.injEq] at h
        obtain ⟨rfl, rfl⟩ := h
        simp only [depthOf]
        omega
      · rw [PM.bind_eq_ret] at h
        obtain ⟨m, hm, h⟩ := h
        obtain ⟨h1, h2, h3⟩ := ih.memb _ _ _ hp hm
        have ha2 : d + (depthmOf (acc ++ [m.1]) : Nat) ≤ 1024 := by rw [depthmOf_app]; omega
        rw [PM.bind_eq_ret] at h
        obtain ⟨t, -, h⟩ := h
        split at h
        · exact ih.objL _ _ _ _ d (by dsimp only; omega) (by dsimp only; omega) ha2 h
        · split at h
          · simp only [PM.ret_inj, Prod.mk.injEq] at h
            obtain ⟨rfl, rfl⟩ := h
            simp only [depthOf]
            omega
          · split at h <;> exact (PM.err_ne.1 h).elim
    · intro p acc v p' d hd hp ha h
      rw [arrLoop, PM.bind_eq_ret] at h
      obtain ⟨m, hm, h⟩ := h
      obtain ⟨h1, h2, h3⟩ := ih.elt _ _ _ hp hm
      have ha2 : d + (depthsOf (acc ++ [m.1]) : Nat) ≤ 1024 := by rw [depthsOf_app]; omega
      rw [PM.bind_eq_ret] at h
      obtain ⟨t, -, h⟩ := h
      split at h
      · exact ih.arrL _ _ _ _ d (by dsimp only; omega) (by dsimp only; omega) ha2 h
      · split at h
        · simp only [PM.ret_inj, Prod.mk.injEq] at h
          obtain ⟨rfl, rfl⟩ := h
          simp only [depthOf]
          omega
        · split at h <;> exact (PM.err_ne.1 h).elim
    · intro p m p' hp h
      rw [member, PM.bind_eq_ret] at h
      obtain ⟨s, -, h⟩ := h
      rw [PM.bind_eq_ret] at h
      obtain ⟨t, -, h⟩ := h
      split at h
      · rw [PM.bind_eq_ret] at h
        obtain ⟨e, he, h⟩ := h
        simp only [PM.ret_inj, Prod.mk.injEq] at h
        obtain ⟨rfl, rfl⟩ := h
        exact ih.elt ⟨takespace t.2, p.depth⟩ _ _ hp he
      · exact (PM.err_ne.1 h).elim

end Verif.Json
