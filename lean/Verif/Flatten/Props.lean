import Verif.Flatten.Det

/-!
# C95: flattening keeps the meaning of a function body
-/

namespace Verif.Flatten

open Spec (St Sem Expr Stmt exec closed Ends SafeS)

/-- The claim for a body: started with the same memory, whatever temporaries contain, the code ends exactly when the
body does, with the same value and the same memory. -/
def Preserved (M : Sem) (s : Stmt) : Prop :=
  ∀ σ τ v σ', Ends M s σ v σ' ↔ Finishes M (body s) σ τ v σ'

/-- The claim: for all bodies with `break` and `continue` in loops only, whatever operators and functions do. -/
def FullClaim : Prop := ∀ M s, closed s → Preserved M s

/-- The claim holds for bodies in which no left operand is changed by a right one (`SafeS`), post-increments are not in
parts evaluated only sometimes, nor in conditions of loops.  Missing: the others, for which see below. -/
theorem flatten_preserves_partial (M : Sem) (s : Stmt) (hs : SafeS s) (hc : closed s) : Preserved M s := by
  have hn : (labels (body s)).Nodup := (bnd_S s 0 0 1).2.2
  have fwd : ∀ n σ τ, Does M (body s) n ⟨body s, σ, τ⟩ [] 0 0 (exec M n s σ) := by
    intro n σ τ
    have := good_S M n s hs 0 0 1 (body s) [] [] σ τ (Nat.le_refl 1) (by simp [body]) hn
    simpa [body] using this
  intro σ τ v σ'
  constructor
  · rintro ⟨n, h⟩
    have hf := fwd n σ τ
    rw [h] at hf
    cases v with
    | none => exact let ⟨m, τ', h'⟩ := hf; ⟨m, τ', h'⟩
    | some v => exact let ⟨m, τ', r, h', e⟩ := hf; ⟨m, τ', r, h', e⟩
  · intro h
    -- the body ends within more rounds than the code makes steps
    have key : ∀ m c, Steps M (body s) m ⟨body s, σ, τ⟩ c → step M (body s) c = none →
        (∃ n σ1 τ1, exec M n s σ = some (.norm σ1) ∧ c = ⟨[], σ1, τ1⟩) ∨
        (∃ n w σ1 τ1 r, exec M n s σ = some (.ret w σ1) ∧ c = ⟨.ret :: r, σ1, τ1⟩ ∧ τ1 tret = w) := by
      intro m c hm he
      have hf := fwd (m + 1) σ τ
      match ho : exec M (m + 1) s σ with
      | none =>
        rw [ho] at hf
        obtain ⟨j, d, h1, h2⟩ := hf
        have := steps_le hm he h2
        omega
      | some (.norm σ1) =>
        rw [ho] at hf
        obtain ⟨j, τ1, h2⟩ := hf
        exact .inl ⟨_, σ1, τ1, ho, steps_det hm he h2 rfl⟩
      | some (.brk σ1) => exact absurd ho (exec_closed M _ s hc σ σ1).1
      | some (.cnt σ1) => exact absurd ho (exec_closed M _ s hc σ σ1).2
      | some (.ret w σ1) =>
        rw [ho] at hf
        obtain ⟨j, τ1, r, h2, h3⟩ := hf
        exact .inr ⟨_, w, σ1, τ1, r, ho, steps_det hm he h2 rfl, h3⟩
    cases v with
    | none =>
      obtain ⟨m, τ', hm⟩ := h
      rcases key m _ hm rfl with ⟨n, σ1, τ1, h1, h2⟩ | ⟨n, w, σ1, τ1, r, h1, h2, h3⟩
      · injection h2 with _ e _
        subst e
        exact ⟨n, h1⟩
      · injection h2 with e _ _
        exact absurd e (by simp)
    | some v =>
      obtain ⟨m, τ', r, hm, hv⟩ := h
      rcases key m _ hm rfl with ⟨n, σ1, τ1, h1, h2⟩ | ⟨n, w, σ1, τ1, r, h1, h2, h3⟩
      · injection h2 with e _ _
        exact absurd e (by simp)
      · injection h2 with _ e1 e2
        subst e1 e2
        rw [hv] at h3
        subst h3
        exact ⟨n, h1⟩

/-- The labels of the code of a body are distinct. -/
theorem flatten_labels (s : Stmt) : (labels (body s)).Nodup := (bnd_S s 0 0 1).2.2

/-! ## Examples -/

/-- Operators: 0 adds, 1 compares; function 0 stores its first argument at its second and returns 7. -/
def exSem : Sem where
  op o a b := if o = 0 then a + b else Spec.truth (a < b)
  inc up v := if up then v + 1 else v - 1
  fn _ a b σ := (7, Spec.set σ b a)

/-- Variables 0 and 1. -/
def x0 : Expr := .load (.lit 0)
def x1 : Expr := .load (.lit 1)

/-- `for ; x0 < 3; x0++ { if x1 < 2 && !(x0 < 1) { x1 += f(x0++, 5); continue } ; x1 = x1 + 4 }; -> x1`. -/
def exBody : Stmt :=
  .seq (.loop none (.bin 1 x0 (.lit 3)) (some (.postinc true (.lit 0)))
    (.seq (.ite (.land (.bin 1 x1 (.lit 2)) (.lnot (.bin 1 x0 (.lit 1))))
        (.seq (.assign (some 0) (.lit 1) (.call 0 (.postinc true (.lit 0)) (.lit 5))) .cnt) .skip)
      (.assign none (.lit 1) (.bin 0 x1 (.lit 4)))))
    (.ret x1)

example : SafeS exBody ∧ closed exBody := by
  simp [exBody, x0, x1, SafeS, closed, Spec.Safe, Spec.SafeOpt, Spec.SafeAsn, Spec.rd, Spec.wr, Spec.place, Spec.plain,
    Spec.nopost]

example : ∃ σ', Ends exSem exBody (fun x => if x = 1 then -3 else 0) (some 8) σ' ∧ σ' 0 = 3 ∧ σ' 1 = 8 ∧ σ' 5 = 1 :=
  ⟨_, ⟨4, rfl⟩, by decide +kernel, by decide +kernel, by decide +kernel⟩

/-! ## Where it fails -/

/-- How to refute the claim for a body: some memory differs. -/
theorem refute {M : Sem} {s : Stmt} (σ : St) (k n : Nat) (x : Int)
    (h : ∃ σ', exec M k s σ = some (.norm σ') ∧ (run M (body s) n ⟨body s, σ, fun _ => 0⟩).σ x ≠ σ' x)
    (hr : (run M (body s) n ⟨body s, σ, fun _ => 0⟩).code = []) : ¬Preserved M s := by
  intro hp
  obtain ⟨σ', h1, h2⟩ := h
  obtain ⟨m, τ', h3⟩ := (hp σ (fun _ => 0) none σ').1 ⟨k, h1⟩
  obtain ⟨j, h4⟩ := run_steps M (body s) n ⟨body s, σ, fun _ => 0⟩
  have he : step M (body s) (run M (body s) n ⟨body s, σ, fun _ => 0⟩) = none := by
    simp only [step, hr]
  have := steps_det h4 he h3 rfl
  exact h2 (by rw [this])

/-- `y = x + (x = 1)`. -/
def lateRead : Stmt := .assign none (.lit 1) (.bin 0 x0 (.asn (.lit 0) (.lit 1)))

/-- `y && x++`. -/
def lazyInc : Stmt := .expr (.land x1 (.postinc true (.lit 0)))

/-- `while x-- ;;`. -/
def loopDec : Stmt := .loop none (.postinc false (.lit 0)) none .skip

/-- `f(1, &x)# = x`. -/
def leftFirst : Stmt := .assign none (.call 0 (.lit 1) (.lit 0)) x0

/-- A variable to the left of an operator is read after the right side was evaluated (`visit`, flatten.c:184-205): with
`x` 0, `x + (x = 1)` is 2. -/
theorem flatten_late_read : ¬Preserved exSem lateRead :=
  refute (fun _ => 0) 1 20 1 ⟨_, rfl, by decide +kernel⟩ (by decide +kernel)

/-- A post-increment is done although the part with it was left out (`flattencond` and `draininc`). -/
theorem flatten_lazy_increment : ¬Preserved exSem lazyInc :=
  refute (fun _ => 0) 1 20 0 ⟨_, rfl, by decide +kernel⟩ (by decide +kernel)

/-- A post-decrement in the condition of a loop is not done when the condition is false (flatten.c:770-775). -/
theorem flatten_loop_decrement : ¬Preserved exSem loopDec :=
  refute (fun _ => 0) 1 20 0 ⟨_, rfl, by decide +kernel⟩ (by decide +kernel)

/-- The left side of an assignment is evaluated before the right one (`assign`, flatten.c:454-459). -/
theorem flatten_left_first : ¬Preserved exSem leftFirst :=
  refute (fun _ => 0) 1 20 7 ⟨_, rfl, by decide +kernel⟩ (by decide +kernel)

/-- The claim does not hold. -/
theorem flatten_preserves_violated : ¬FullClaim := fun h => flatten_late_read (h exSem lateRead trivial)

end Verif.Flatten
