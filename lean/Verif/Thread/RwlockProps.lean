import Verif.Thread.RwlockLemmas

/-!
# C21: the read/write lock

lib/thread/rwlock+futex.myr.
-/

namespace Verif.Thread.Rwlock

/-! ## Specification -/

/-- The thread has the write lock: `wrlock` returned, or `trywrlock` returned `true`, and `wrunlock` was not called. -/
def writing (p : PC) : Prop := p.w = true ∧ p.loc = .out

/-- The thread has a read lock. -/
def reading (p : PC) : Prop := 0 < p.r

/-- The thread is outside of all calls and holds nothing. -/
def away (p : PC) : Prop := p = ⟨.out, 0, false⟩

/-- The read locks given out. -/
def readLocks {n : Nat} (s : St n) : Nat := ((List.finRange n).map fun t => (s.pc t).r).sum

/-- **C21**: while a thread has the write lock no thread (itself included) has a read lock and no other thread has the
write lock. Any number of threads, any schedule, recursive read locks, `try` variants, misuse of the write lock. -/
theorem rw_exclusion {n : Nat} {es : List (Ev n)} {s : St n} (hr : run step (init n) es = some s) {t : Fin n} (ht : writing (s.pc t)) :
    (∀ u, ¬reading (s.pc u)) ∧ ∀ u, writing (s.pc u) → u = t := by
  have hi := inv_run hr
  have hw : tot wr s.pc = 1 := by
    have := le_tot wr s.pc t
    have := wr_w ht.1
    have := hi.one
    omega
  refine ⟨fun u => ?_, fun u hu => inv_alone hi hu.1 ht.1⟩
  have := (hi.w1 hw).1
  have := le_tot PC.r s.pc u
  unfold reading
  omega

/-- **C21**: when every thread is outside and holds nothing the lock is as new: no wait mark stays behind. -/
theorem rw_free_again {n : Nat} {es : List (Ev n)} {s : St n} (hr : run step (init n) es = some s) (h : ∀ t, away (s.pc t)) :
    s.word = 0 ∧ s.owner = none := by
  have hi := inv_run hr
  have h1 : tot wr s.pc = 0 := tot_zero fun t => by rw [h t]; rfl
  have h2 : tot PC.r s.pc = 0 := tot_zero fun t => by rw [h t]
  have h3 := (hi.w0 h1).1
  constructor
  · by_cases hw : s.word = Waitbit
    · obtain ⟨u, hu⟩ := hi.wait hw
      rw [h u] at hu; cases hu
    · have := hi.bnd
      have hW : Waitbit = 2147483648 := rfl
      unfold nr at h3
      omega
  · cases ho : s.owner with
    | none => rfl
    | some u =>
      have := hi.own2 u ho
      rw [h u] at this; cases this

/-- **C21**: no call ever sleeps for good: a thread inside a call can always take its next step. -/
theorem rw_can_go {n : Nat} (s : St n) (t : Fin n) (h : (s.pc t).loc ≠ .out) : ∃ s', go s t = some s' := by
  unfold go
  cases hp : (s.pc t).loc with
  | out => exact absurd hp h
  | _ => dsimp only; repeat' split
         all_goals exact ⟨_, rfl⟩

/-- **C21**: the process dies only by misuse (a second `wrlock` by the writer, a `wrunlock` by another thread) or with
`2 ^ 31 - 2` read locks given out. -/
theorem rw_dies_only {n : Nat} {es : List (Ev n)} {s s' : St n} {e : Ev n} (hr : run step (init n) es = some s) (hs : step s e = some s')
    (hd : s'.dead = true) :
    (∃ t, (s.pc t).loc = .wchk ∧ (s.pc t).w = true) ∨ (∃ t, (s.pc t).loc = .uchk ∧ (s.pc t).w = false) ∨ readLocks s = 2 ^ 31 - 2 := by
  have hi := inv_run hr
  cases e with
  | call t c =>
    unfold step at hs
    dsimp only at hs
    split at hs
    · cases hs
    · rename_i hnd
      split at hs
      · cases hs; exact absurd hd hnd
      · cases hs
  | go t =>
    unfold step at hs
    dsimp only at hs
    split at hs
    · cases hs
    rename_i hnd
    unfold go at hs
    cases hp : (s.pc t).loc with
    | rget y =>
      rw [hp] at hs
      dsimp only at hs
      split at hs
      · rename_i hn
        refine .inr (.inr ?_)
        have h0 := hi.w0
        have h1 := hi.w1
        have := hi.one
        have hN : Nrmask = 2147483647 := rfl
        show tot PC.r s.pc = _
        by_cases hw : tot wr s.pc = 0
        · have := h0 hw; omega
        · have := h1 (by omega); omega
      · split at hs <;> (cases hs; exact absurd hd hnd)
    | wchk =>
      rw [hp] at hs
      dsimp only at hs
      split at hs
      · rename_i ho
        exact .inl ⟨t, hp, owning_w (hi.own2 t ho)⟩
      · cases hs; exact absurd hd hnd
    | uchk =>
      rw [hp] at hs
      dsimp only at hs
      split at hs
      · cases hs; exact absurd hd hnd
      · rename_i ho
        refine .inr (.inl ⟨t, hp, ?_⟩)
        cases hw : (s.pc t).w with
        | false => rfl
        | true => exact absurd (hi.own1 t (by simp [owning, hp, hw])) ho
    | rdec =>
      rw [hp] at hs
      dsimp only at hs
      split at hs
      · rename_i hn
        have hl := hi.loc t
        simp only [locOk, hp] at hl
        have h0 := hi.w0
        have h1 := hi.w1
        have := hi.one
        have := le_tot PC.r s.pc t
        by_cases hw : tot wr s.pc = 0
        · have := h0 hw; omega
        · have := h1 (by omega); omega
      · rw [Option.some.injEq] at hs; subst hs; exact absurd hd hnd
    | out => rw [hp] at hs; cases hs
    | _ =>
      rw [hp] at hs
      dsimp only at hs
      repeat' (split at hs)
      all_goals first
        | (rw [Option.some.injEq] at hs; subst hs; exact absurd hd hnd)

/-- **C21**: misuse of the write lock is always caught. -/
theorem rw_wrong_use_caught {n : Nat} {es : List (Ev n)} {s s' : St n} (hr : run step (init n) es = some s) {t : Fin n}
    (hb : ((s.pc t).loc = .wchk ∧ (s.pc t).w = true) ∨ ((s.pc t).loc = .uchk ∧ (s.pc t).w = false)) (hg : step s (.go t) = some s') :
    s'.dead = true := by
  have hi := inv_run hr
  unfold step at hg
  dsimp only at hg
  split at hg
  · cases hg
  unfold go at hg
  rcases hb with ⟨hp, hw⟩ | ⟨hp, hw⟩
  · rw [hp] at hg
    dsimp only at hg
    rw [if_pos (hi.own1 t (by simp [owning, hp, hw]))] at hg
    cases hg; rfl
  · rw [hp] at hg
    dsimp only at hg
    split at hg
    · rename_i ho
      have := owning_w (hi.own2 t ho)
      rw [hw] at this; cases this
    · cases hg; rfl

/-! Two readers, a writer that marks the lock, the readers leave, the writer gets in. -/

def rd (t : Fin 3) : List (Ev 3) := [.call t .rdlock, .go t, .go t]
def wrWaits : List (Ev 3) := [.call 2 .wrlock, .go 2, .go 2, .go 2]

example : (run step (init 3) (rd 0 ++ rd 1 ++ wrWaits)).map (fun s => (s.word, s.pc 0, s.pc 1, s.pc 2)) =
    some (Waitbit + 2, ⟨.out, 1, false⟩, ⟨.out, 1, false⟩, ⟨.wwait, 0, false⟩) := by decide
example : (run step (init 3) (rd 0 ++ rd 1 ++ wrWaits ++ [.call 0 .rdunlock, .go 0, .call 1 .rdunlock, .go 1])).map
    (fun s => (s.word, s.pc 0, s.pc 1)) = some (Waitbit, ⟨.out, 0, false⟩, ⟨.rclr, 0, false⟩) := by decide
example : (run step (init 3) (rd 0 ++ rd 1 ++ wrWaits ++ [.call 0 .rdunlock, .go 0, .call 1 .rdunlock, .go 1, .go 1, .go 2, .go 2, .go 2, .go 2])).map
    (fun s => (s.word, s.owner, s.pc 2)) = some (Nrmask, some 2, ⟨.out, 0, true⟩) := by decide
/-- A writer that locks twice. -/
example : (run step (init 3) [.call 0 .trywrlock, .go 0, .go 0, .call 0 .wrlock, .go 0]).map (fun s => s.dead) = some true := by decide

end Verif.Thread.Rwlock
