import Verif.Regex.Total

/-! # More fuel does not change the result of the machine -/

namespace Verif.Regex

variable {code : List (BitVec 64)} {str : List Byte} {i : Nat} {start : Int} {whole : Bool}

theorem thread_mono (fuel : Nat) : ∀ (cur : Int) (t : Thr) (q : List Thr) (n : Int), Ends (thread code str i start fuel cur t q n) →
    thread code str i start (fuel + 1) cur t q n = thread code str i start fuel cur t q n := by
  induction fuel with
  | zero => intro cur t q n h; exact absurd rfl h
  | succ fuel ih =>
    intro cur t q n h
    rw [thread]
    rw [thread] at h ⊢
    cases hs : step code str i t cur with
    | ok o =>
      rw [hs] at h
      simp only [Res.bind_ok] at h ⊢
      cases o with
      | alive t => rfl
      | dead => rfl
      | matched t => rfl
      | cont t new =>
        cases new with
        | none => exact ih _ _ _ _ h
        | some u => exact ih _ _ _ _ h
    | abort => rfl
    | ub => rfl
    | spin => rfl

theorem inner_mono (fuel : Nat) : ∀ vm : VM, Ends (inner code str whole fuel vm) →
    inner code str whole (fuel + 1) vm = inner code str whole fuel vm := by
  induction fuel with
  | zero => intro vm h; exact absurd rfl h
  | succ fuel ih =>
    intro vm h
    rw [inner]
    rw [inner] at h ⊢
    cases hq : vm.runq with
    | nil => rfl
    | cons t q =>
      rw [hq] at h
      simp only at h ⊢
      have ht : Ends (thread code str vm.strp t.ip fuel (-1) t q vm.nthr) := by
        intro e; rw [e] at h; exact h rfl
      rw [thread_mono fuel _ _ _ _ ht]
      cases hr : thread code str vm.strp t.ip fuel (-1) t q vm.nthr with
      | ok r =>
        rw [hr] at h
        obtain ⟨k, t, q, n⟩ := r
        simp only [Res.bind_ok] at h ⊢
        generalize hk : (if decide (t.ip ∈ vm.states) = true then Kind.dead else k) = k' at h ⊢
        cases k' with
        | dead => exact ih _ h
        | matched =>
          simp only at h ⊢
          split at h
          · rename_i hc; rw [if_pos hc, if_pos hc]
          · rename_i hc
            rw [if_neg hc, if_neg hc]
            split at h
            · rename_i hd; rw [if_pos hd, if_pos hd]; exact ih _ h
            · rename_i hd; rw [if_neg hd, if_neg hd]; exact ih _ h
        | alive =>
          simp only at h ⊢
          generalize expire _ _ = e at h ⊢
          cases e with
          | ok vm => exact ih _ h
          | abort => rfl
          | ub => rfl
          | spin => rfl
      | abort => rfl
      | ub => rfl
      | spin => rfl

theorem outer_mono (fuel : Nat) : ∀ vm : VM, Ends (outer code str whole fuel vm) →
    outer code str whole (fuel + 1) vm = outer code str whole fuel vm := by
  induction fuel with
  | zero => intro vm h; exact absurd rfl h
  | succ fuel ih =>
    intro vm h
    rw [outer]
    rw [outer] at h ⊢
    split at h
    · rename_i hc
      rw [if_pos hc, if_pos hc]
      have hi : Ends (inner code str whole fuel vm) := by
        intro e; rw [e] at h; exact h rfl
      rw [inner_mono fuel _ hi]
      cases hr : inner code str whole fuel vm with
      | ok s =>
        rw [hr] at h
        simp only [Res.bind_ok] at h ⊢
        cases s with
        | done vm => rfl
        | next vm => exact ih _ h
      | abort => rfl
      | ub => rfl
      | spin => rfl
    · rename_i hc
      rw [if_neg hc, if_neg hc]

/-- A result of some fuel is the result of every fuel, or there is none. -/
theorem settled {α : Type} {f : Nat → Res α} (hm : ∀ k, Ends (f k) → f (k + 1) = f k) {k : Nat} {r : α} (h : f k = .ok r) (n : Nat) :
    f n = .spin ∨ f n = .ok r := by
  have up : ∀ d a x, f a = x → x ≠ .spin → f (a + d) = x := by
    intro d
    induction d with
    | zero => intro a x h _; exact h
    | succ d ih =>
      intro a x h hx
      have := ih a x h hx
      rw [← Nat.add_assoc, hm (a + d) (by unfold Ends; rw [this]; exact hx), this]
  rcases Nat.le_total k n with hk | hk
  · obtain ⟨d, rfl⟩ := Nat.exists_eq_add_of_le hk
    exact .inr (up d k _ h (by simp))
  · by_cases hs : f n = .spin
    · exact .inl hs
    · obtain ⟨d, rfl⟩ := Nat.exists_eq_add_of_le hk
      have := up d n _ rfl hs
      rw [h] at this
      exact .inr this.symm

theorem run_mono (p : Prog) (o : Obj) (str : List Byte) (whole : Bool) (k : Nat) (h : Ends (run p k o str whole)) :
    run p (k + 1) o str whole = run p k o str whole := by
  unfold run at h ⊢
  split at h
  · rename_i hc; rw [if_pos hc, if_pos hc]
  · rename_i hc; rw [if_neg hc, if_neg hc]; exact outer_mono _ _ h

/-- Threads that are counted but not in the queue keep the machine running. -/
theorem outer_empty (fuel : Nat) : ∀ (tl : Tail) (st : List Nat) (b : Option Thr) (n : Int) (k : Nat), 0 < n →
    outer code str whole fuel (VM.mk [] [] tl st b n k) = .spin := by
  induction fuel with
  | zero => intro _ _ _ _ _ _; rfl
  | succ fuel ih =>
    intro tl st b n k hn
    rw [outer, if_pos (by simpa using hn)]
    cases fuel with
    | zero => rfl
    | succ f => rw [inner]; simp only [Res.bind_ok]; exact ih _ _ _ _ _ hn

end Verif.Regex
