import Verif.Flatten.Stm

/-!
# Lemmas on how running code ends
-/

namespace Verif.Flatten

open Spec (St Sem Expr Stmt exec rounds Out closed)

/-- If one run is at its end, every other is a part of it. -/
theorem steps_le {M : Sem} {prog : List I} {m n : Nat} {a b c : Cfg} (h : Steps M prog m a b) (hb : step M prog b = none)
    (h' : Steps M prog n a c) : n ≤ m := by
  induction h generalizing n c with
  | refl a =>
    cases h' with
    | refl => exact Nat.le_refl 0
    | step e _ => rw [hb] at e; exact absurd e (by simp)
  | step e t ih =>
    cases h' with
    | refl => exact Nat.zero_le _
    | step e' t' =>
      rw [e] at e'
      injection e' with e'
      subst e'
      exact Nat.succ_le_succ (ih hb t')

theorem steps_det {M : Sem} {prog : List I} {m n : Nat} {a b c : Cfg} (h : Steps M prog m a b) (hb : step M prog b = none)
    (h' : Steps M prog n a c) (hc : step M prog c = none) : b = c := by
  induction h generalizing n c with
  | refl a =>
    cases h' with
    | refl => rfl
    | step e _ => rw [hb] at e; exact absurd e (by simp)
  | step e t ih =>
    cases h' with
    | refl => rw [hc] at e; exact absurd e (by simp)
    | step e' t' =>
      rw [e] at e'
      injection e' with e'
      subst e'
      exact ih hb t' hc

theorem rounds_closed (M : Sem) (c : Expr) (st : Option Expr) (b : St → Option Out) (n : Nat) : ∀ σ σ',
    rounds M c st b n σ ≠ some (.brk σ') ∧ rounds M c st b n σ ≠ some (.cnt σ') := by
  induction n with
  | zero => intro σ σ'; simp [rounds]
  | succ n ih =>
    intro σ σ'
    simp only [rounds]
    split
    · split
      · simp
      · exact ih _ _
      · exact ih _ _
      · simp
      · simp
    · simp

theorem exec_closed (M : Sem) (n : Nat) (s : Stmt) (h : closed s) : ∀ σ σ',
    exec M n s σ ≠ some (.brk σ') ∧ exec M n s σ ≠ some (.cnt σ') := by
  induction s with
  | skip => intro σ σ'; simp [exec]
  | expr e => intro σ σ'; simp [exec]
  | assign o a e => intro σ σ'; simp [exec]
  | seq s t ihs iht =>
    intro σ σ'
    simp only [exec]
    split
    · exact iht h.2 _ _
    · exact ihs h.1 _ _
  | ite c s t ihs iht =>
    intro σ σ'
    simp only [exec]
    split
    · exact ihs h.1 _ _
    · exact iht h.2 _ _
  | loop i c st b ih => intro σ σ'; simp only [exec]; exact rounds_closed _ _ _ _ _ _ _
  | brk => exact h.elim
  | cnt => exact h.elim
  | ret e => intro σ σ'; simp [exec]

/-- Steps one can compute. -/
def run (M : Sem) (prog : List I) : Nat → Cfg → Cfg
  | 0, c => c
  | n + 1, c =>
    match step M prog c with
    | none => c
    | some d => run M prog n d

theorem run_steps (M : Sem) (prog : List I) (n : Nat) : ∀ c, ∃ m, Steps M prog m c (run M prog n c) := by
  induction n with
  | zero => intro c; exact ⟨0, .refl c⟩
  | succ n ih =>
    intro c
    simp only [run]
    split
    · exact ⟨0, .refl c⟩
    · rename_i d hd
      obtain ⟨m, hm⟩ := ih d
      exact ⟨m + 1, .step hd hm⟩

end Verif.Flatten
