import Verif.Thread.Base

/-!
# The read/write lock for systems without futexes

lib/thread/rwlock.myr over the mutex of lib/thread/mutex.myr (compare and swap 0 to 1, store 0).
-/

namespace Verif.Thread.SpinRw

/-- The next step of a thread; the numbers are lines of rwlock.myr. -/
inductive Loc where
  | out
  /-- 30 `rdlock` -/
  | r1
  /-- 38 -/
  | r2
  /-- 39 -/
  | r3
  /-- 41 -/
  | r4
  /-- 50 `tryrdlock` -/
  | t1
  /-- 51 -/
  | t2
  /-- 52 -/
  | t3
  /-- 53 -/
  | t4
  /-- 57 -/
  | t5
  /-- 45 `wrlock` -/
  | w1
  /-- 62 `trywrlock` -/
  | tw
  /-- 66 `rdunlock` -/
  | u1
  /-- 69 -/
  | u2
  /-- 70 -/
  | u3
  /-- 72 -/
  | u4
  /-- 77 `wrunlock` -/
  | wu
  deriving DecidableEq, Repr

/-- A thread: its next step, the read locks it was granted and has not begun to give back, and whether it was granted
the write lock and has not begun to give it back. -/
structure PC where
  loc : Loc
  r : Nat
  w : Bool
  deriving DecidableEq, Repr

/-- rwlock.myr:10-14. `over`: the 32-bit count of readers has wrapped. -/
structure St (n : Nat) where
  l : Nat
  rl : Nat
  rc : Nat
  over : Bool
  pc : Fin n → PC

/-- rwlock.myr:25-27 `mkrwlock`. -/
def init (n : Nat) : St n := ⟨0, 0, 0, false, fun _ => ⟨.out, 0, false⟩⟩

inductive Call where
  | rdlock | tryrdlock | rdunlock | wrlock | trywrlock | wrunlock

inductive Ev (n : Nat) where
  | call (t : Fin n) (c : Call)
  | go (t : Fin n)

/-- A call. Precondition: `rdunlock` and `wrunlock` are called by threads which have such a lock. -/
def enter (p : PC) : Call → Option PC
  | .rdlock => some ⟨.r1, p.r, p.w⟩
  | .tryrdlock => some ⟨.t1, p.r, p.w⟩
  | .wrlock => some ⟨.w1, p.r, p.w⟩
  | .trywrlock => some ⟨.tw, p.r, p.w⟩
  | .rdunlock => if 0 < p.r then some ⟨.u1, p.r - 1, p.w⟩ else none
  | .wrunlock => if p.w then some ⟨.wu, p.r, false⟩ else none

/-- One step of a thread. rwlock.myr:29-78, mutex.myr:21-62. -/
def go {n : Nat} (s : St n) (t : Fin n) : Option (St n) :=
  match s.pc t with
  | ⟨.out, _, _⟩ => none
  | ⟨.r1, r, w⟩ => if s.rl = 0 then some { s with rl := 1, pc := upd s.pc t ⟨.r2, r, w⟩ } else some s
  | ⟨.r2, r, w⟩ =>
    let s := { s with rc := (s.rc + 1) % 2 ^ 32, over := s.over || s.rc == 2 ^ 32 - 1,
                      pc := upd s.pc t (if s.rc = 0 then ⟨.r3, r, w⟩ else ⟨.r4, r + 1, w⟩) }
    some s
  | ⟨.r3, r, w⟩ => if s.l = 0 then some { s with l := 1, pc := upd s.pc t ⟨.r4, r + 1, w⟩ } else some s
  | ⟨.r4, r, w⟩ => some { s with rl := 0, pc := upd s.pc t ⟨.out, r, w⟩ }
  | ⟨.t1, r, w⟩ => if s.rl = 0 then some { s with rl := 1, pc := upd s.pc t ⟨.t2, r, w⟩ } else some s
  | ⟨.t2, r, w⟩ =>
    let s := { s with rc := (s.rc + 1) % 2 ^ 32, over := s.over || s.rc == 2 ^ 32 - 1,
                      pc := upd s.pc t (if s.rc = 0 then ⟨.t3, r, w⟩ else ⟨.t5, r + 1, w⟩) }
    some s
  | ⟨.t3, r, w⟩ =>
    if s.l = 0 then some { s with l := 1, pc := upd s.pc t ⟨.t5, r + 1, w⟩ } else some { s with pc := upd s.pc t ⟨.t4, r, w⟩ }
  | ⟨.t4, r, w⟩ => some { s with rc := dec32 s.rc, pc := upd s.pc t ⟨.t5, r, w⟩ }
  | ⟨.t5, r, w⟩ => some { s with rl := 0, pc := upd s.pc t ⟨.out, r, w⟩ }
  | ⟨.w1, r, _⟩ => if s.l = 0 then some { s with l := 1, pc := upd s.pc t ⟨.out, r, true⟩ } else some s
  | ⟨.tw, r, w⟩ => if s.l = 0 then some { s with l := 1, pc := upd s.pc t ⟨.out, r, true⟩ } else some { s with pc := upd s.pc t ⟨.out, r, w⟩ }
  | ⟨.u1, r, w⟩ => if s.rl = 0 then some { s with rl := 1, pc := upd s.pc t ⟨.u2, r, w⟩ } else some s
  | ⟨.u2, r, w⟩ => some { s with rc := dec32 s.rc, pc := upd s.pc t (if dec32 s.rc = 0 then ⟨.u3, r, w⟩ else ⟨.u4, r, w⟩) }
  | ⟨.u3, r, w⟩ => some { s with l := 0, pc := upd s.pc t ⟨.u4, r, w⟩ }
  | ⟨.u4, r, w⟩ => some { s with rl := 0, pc := upd s.pc t ⟨.out, r, w⟩ }
  | ⟨.wu, r, w⟩ => some { s with l := 0, pc := upd s.pc t ⟨.out, r, w⟩ }

/-- One event. -/
def step {n : Nat} (s : St n) : Ev n → Option (St n)
  | .call t c => if (s.pc t).loc = .out then (enter (s.pc t) c).map fun p => { s with pc := upd s.pc t p } else none
  | .go t => go s t

/-! ## Invariant -/

/-- Holds `_rlock`, elsewhere than `mA` and `mB`. -/
def mD (p : PC) : Nat := match p.loc with
  | .r2 | .r4 | .t2 | .t5 | .u2 | .u4 => 1
  | _ => 0

/-- Counted in `_rcount`, does not yet hold `_lock`. -/
def mA (p : PC) : Nat := match p.loc with
  | .r3 | .t3 | .t4 => 1
  | _ => 0

/-- Not counted, still holds `_lock`. -/
def mB (p : PC) : Nat := match p.loc with
  | .u3 => 1
  | _ => 0

/-- Still counted though it is giving its lock back. -/
def mE (p : PC) : Nat := match p.loc with
  | .u1 | .u2 => 1
  | _ => 0

/-- Holds `_lock` for writing. -/
def mW (p : PC) : Nat := (if p.w then 1 else 0) + match p.loc with
  | .wu => 1
  | _ => 0

structure Inv {n : Nat} (s : St n) : Prop where
  rl : s.rl = tot mD s.pc + tot mA s.pc + tot mB s.pc
  rl1 : s.rl ≤ 1
  rc : s.rc = tot PC.r s.pc + tot mA s.pc + tot mE s.pc
  rc32 : s.rc < 2 ^ 32
  /-- the readers as a group hold `_lock` -/
  lr : tot mA s.pc = 0 → 0 < s.rc → s.l = tot mW s.pc + tot mB s.pc + 1
  ln : 0 < tot mA s.pc ∨ s.rc = 0 → s.l = tot mW s.pc + tot mB s.pc
  l1 : s.l ≤ 1
  a : 0 < tot mA s.pc → s.rc = 1
  b : 0 < tot mB s.pc → s.rc = 0

/-- Numbers before and after a step of a thread from `p` to `x`. -/
theorem inv_fin {n : Nat} {s : St n} (hi : Inv s) {t : Fin n} {p : PC} (hp : s.pc t = p) (l rl rc : Nat) (o : Bool) (x : PC)
    (h : ∀ D A B E W R : Nat, s.rl = D + mD p + (A + mA p) + (B + mB p) → s.rl ≤ 1 → s.rc = R + p.r + (A + mA p) + (E + mE p) → s.rc < 2 ^ 32 →
      (A + mA p = 0 → 0 < s.rc → s.l = W + mW p + (B + mB p) + 1) → (0 < A + mA p ∨ s.rc = 0 → s.l = W + mW p + (B + mB p)) → s.l ≤ 1 →
      (0 < A + mA p → s.rc = 1) → (0 < B + mB p → s.rc = 0) →
      rl = D + mD x + (A + mA x) + (B + mB x) ∧ rl ≤ 1 ∧ rc = R + x.r + (A + mA x) + (E + mE x) ∧ rc < 2 ^ 32 ∧
        (A + mA x = 0 → 0 < rc → l = W + mW x + (B + mB x) + 1) ∧ (0 < A + mA x ∨ rc = 0 → l = W + mW x + (B + mB x)) ∧ l ≤ 1 ∧
        (0 < A + mA x → rc = 1) ∧ (0 < B + mB x → rc = 0)) : Inv (St.mk l rl rc o (upd s.pc t x)) := by
  subst hp
  have key : ∀ g : PC → Nat, ∃ k, tot g s.pc = k + g (s.pc t) ∧ tot g (upd s.pc t x) = k + g x := fun g =>
    ⟨tot g s.pc - g (s.pc t), by have := le_tot g s.pc t; omega, by have := le_tot g s.pc t; have := tot_upd g s.pc t x; omega⟩
  obtain ⟨D, d1, d2⟩ := key mD
  obtain ⟨A, a1, a2⟩ := key mA
  obtain ⟨B, b1, b2⟩ := key mB
  obtain ⟨E, e1, e2⟩ := key mE
  obtain ⟨W, w1, w2⟩ := key mW
  obtain ⟨R, r1, r2⟩ := key PC.r
  obtain ⟨h1, h2, h3, h4, h5, h6, h7, h8, h9⟩ := hi
  rw [d1, a1, b1] at h1
  rw [r1, a1, e1] at h3
  rw [a1, w1, b1] at h5 h6
  rw [a1] at h8
  rw [b1] at h9
  obtain ⟨k1, k2, k3, k4, k5, k6, k7, k8, k9⟩ := h D A B E W R h1 h2 h3 h4 h5 h6 h7 h8 h9
  refine ⟨?_, k2, ?_, k4, ?_, ?_, k7, ?_, ?_⟩ <;> dsimp only
  · rw [d2, a2, b2]; exact k1
  · rw [r2, a2, e2]; exact k3
  · rw [a2, w2, b2]; exact k5
  · rw [a2, w2, b2]; exact k6
  · rw [a2]; exact k8
  · rw [b2]; exact k9

macro "numbers" : tactic => `(tactic|
  (intro D A B E W R
   simp only [mD, mA, mB, mE, mW, if_true, Nat.add_zero]
   intro h1 h2 h3 h4 h5 h6 h7 h8 h9
   refine ⟨?_, ?_, ?_, ?_, ?_, ?_, ?_, ?_, ?_⟩ <;> omega))

theorem inv_go {n : Nat} (s : St n) (t : Fin n) (s' : St n) (hi : Inv s) (h : go s t = some s') (ho : s'.over = false) : Inv s' := by
  unfold go at h
  rcases hp : s.pc t with ⟨loc, r, w⟩
  rw [hp] at h
  have dz := @dec32_pos s.rc
  have fin := @inv_fin n s hi t _ hp
  cases loc <;> dsimp only at h
  case out => cases h
  case r1 | t1 | u1 | r3 | w1 =>
    split at h <;> (rw [Option.some.injEq] at h; subst h)
    · refine fin _ _ _ _ _ ?_; numbers
    · exact hi
  case r4 | t5 | u3 | u4 => rw [Option.some.injEq] at h; subst h; refine fin _ _ _ _ _ ?_; numbers
  case wu => rw [Option.some.injEq] at h; subst h; refine fin _ _ _ _ _ ?_; numbers
  case tw => split at h <;> (rw [Option.some.injEq] at h; subst h; refine fin _ _ _ _ _ ?_; numbers)
  case t3 => split at h <;> (rw [Option.some.injEq] at h; subst h; refine fin _ _ _ _ _ ?_; numbers)
  case t4 =>
    rw [Option.some.injEq] at h; subst h; refine fin _ _ _ _ _ ?_
    intro D A B E W R
    simp only [mD, mA, mB, mE, mW, Nat.add_zero]
    intro h1 h2 h3 h4 h5 h6 h7 h8 h9
    rw [dz (by omega)]
    refine ⟨?_, ?_, ?_, ?_, ?_, ?_, ?_, ?_, ?_⟩ <;> omega
  case r2 | t2 =>
    rw [Option.some.injEq] at h; subst h
    simp only [Bool.or_eq_false_iff, beq_eq_false_iff_ne] at ho
    by_cases hz : s.rc = 0
    · rw [if_pos hz]; refine fin _ _ _ _ _ ?_; numbers
    · rw [if_neg hz]; refine fin _ _ _ _ _ ?_; numbers
  case u2 =>
    rw [Option.some.injEq] at h; subst h
    have hrc : 0 < s.rc := by
      have h1 := hi.rc
      have h2 := le_tot mE s.pc t
      rw [hp] at h2
      simp only [mE] at h2
      omega
    by_cases hz : s.rc = 1
    · rw [dz hrc, if_pos (by omega)]; refine fin _ _ _ _ _ ?_; numbers
    · rw [dz hrc, if_neg (by omega)]; refine fin _ _ _ _ _ ?_; numbers

theorem over_mono {n : Nat} {s s' : St n} {e : Ev n} (h : step s e = some s') (ho : s'.over = false) : s.over = false := by
  cases e with
  | call t c =>
    unfold step at h
    dsimp only at h
    split at h
    · obtain ⟨p, _, rfl⟩ := Option.map_eq_some_iff.mp h; exact ho
    · cases h
  | go t =>
    unfold step go at h
    dsimp only at h
    repeat' split at h
    all_goals first
      | cases h; done
      | (rw [Option.some.injEq] at h; subst h; first | exact ho | (simp only [Bool.or_eq_false_iff] at ho; exact ho.1))

theorem inv_step {n : Nat} (s : St n) (e : Ev n) (s' : St n) (hi : s.over = false → Inv s) (h : step s e = some s') : s'.over = false → Inv s' := by
  intro ho
  have hi := hi (over_mono h ho)
  cases e with
  | go t => exact inv_go s t s' hi h ho
  | call t c =>
    unfold step at h
    dsimp only at h
    split at h
    · rename_i hl
      obtain ⟨p, he, rfl⟩ := Option.map_eq_some_iff.mp h
      rcases hp : s.pc t with ⟨loc, r, w⟩
      rw [hp] at hl he
      dsimp only at hl
      subst hl
      refine inv_fin hi hp _ _ _ _ _ ?_
      cases c <;> unfold enter at he <;> dsimp only at he
      case rdunlock =>
        split at he <;> cases he
        numbers
      case wrunlock =>
        split at he <;> cases he
        rename_i hw
        rw [hw]
        intro D A B E W R
        simp only [mD, mA, mB, mE, mW, if_true, Nat.add_zero, Bool.false_eq_true, if_false]
        intro h1 h2 h3 h4 h5 h6 h7 h8 h9
        refine ⟨?_, ?_, ?_, ?_, ?_, ?_, ?_, ?_, ?_⟩ <;> omega
      all_goals
        cases he
        numbers
    · cases h

theorem inv_run {n : Nat} {es : List (Ev n)} {s : St n} (hr : run step (init n) es = some s) (ho : s.over = false) : Inv s := by
  refine run_inv (I := fun s => s.over = false → Inv s) inv_step (fun _ => ?_) hr ho
  have z : ∀ g : PC → Nat, g ⟨.out, 0, false⟩ = 0 → tot g (fun _ : Fin n => PC.mk .out 0 false) = 0 := fun g h => tot_zero fun _ => h
  constructor <;> simp [z mD rfl, z mA rfl, z mB rfl, z mE rfl, z mW rfl, z PC.r rfl, init]

/-! ## Specification -/

/-- The thread has the write lock. -/
def writing (p : PC) : Prop := p.w = true

/-- The thread has a read lock. -/
def reading (p : PC) : Prop := 0 < p.r

/-- The thread is outside of all calls and holds nothing. -/
def away (p : PC) : Prop := p = ⟨.out, 0, false⟩

theorem mW_w {p : PC} (h : p.w = true) : 0 < mW p := by unfold mW; rw [if_pos h]; omega

/-- **C21** for rwlock.myr: while a thread has the write lock no thread has a read lock and no other thread has the write
lock; as long as there never were `2 ^ 32` readers. -/
theorem spin_rw_exclusion {n : Nat} {es : List (Ev n)} {s : St n} (hr : run step (init n) es = some s) (ho : s.over = false) {t : Fin n}
    (ht : writing (s.pc t)) : (∀ u, ¬reading (s.pc u)) ∧ ∀ u, writing (s.pc u) → u = t := by
  obtain ⟨h1, h2, h3, h4, h5, h6, h7, h8, h9⟩ := inv_run hr ho
  have hW := le_tot mW s.pc t
  have := mW_w ht
  refine ⟨fun u hu => ?_, fun u hu => ?_⟩
  · have := le_tot PC.r s.pc u
    have hu : 0 < (s.pc u).r := hu
    omega
  · by_cases e : u = t
    · exact e
    · have := add_le_tot mW s.pc e ⟨.out, 0, false⟩ rfl
      have := mW_w hu
      omega

/-- **C21** for rwlock.myr: when every thread is outside and holds nothing the lock is as new. -/
theorem spin_rw_free_again {n : Nat} {es : List (Ev n)} {s : St n} (hr : run step (init n) es = some s) (ho : s.over = false)
    (h : ∀ t, away (s.pc t)) : s.l = 0 ∧ s.rl = 0 ∧ s.rc = 0 := by
  obtain ⟨h1, h2, h3, h4, h5, h6, h7, h8, h9⟩ := inv_run hr ho
  have z : ∀ g : PC → Nat, g ⟨.out, 0, false⟩ = 0 → tot g s.pc = 0 := fun g hg => tot_zero fun t => by rw [h t]; exact hg
  simp only [z mD rfl, z mA rfl, z mB rfl, z mE rfl, z mW rfl, z PC.r rfl] at h1 h3 h6
  exact ⟨by omega, h1, h3⟩

/-- **C21** for rwlock.myr: the first reader, which holds up all others, gets in at its next attempt once no thread
writes. -/
theorem spin_rw_reader_enters {n : Nat} {es : List (Ev n)} {s : St n} (hr : run step (init n) es = some s) (ho : s.over = false) {t : Fin n}
    (ht : (s.pc t).loc = .r3) (hw : ∀ u, (s.pc u).w = false ∧ (s.pc u).loc ≠ .wu) :
    ∃ s', step s (.go t) = some s' ∧ reading (s'.pc t) ∧ (s'.pc t).loc = .r4 := by
  obtain ⟨h1, h2, h3, h4, h5, h6, h7, h8, h9⟩ := inv_run hr ho
  have hA := le_tot mA s.pc t
  have hA' : mA (s.pc t) = 1 := by unfold mA; rw [ht]
  have hW : tot mW s.pc = 0 := tot_zero fun u => by
    unfold mW
    rw [(hw u).1]
    have := (hw u).2
    cases hl : (s.pc u).loc <;> first | rfl | exact absurd hl this
  have hl : s.l = 0 := by omega
  rcases hp : s.pc t with ⟨loc, r, w⟩
  rw [hp] at ht
  dsimp only at ht
  subst ht
  refine ⟨{ s with l := 1, pc := upd s.pc t ⟨.r4, r + 1, w⟩ }, ?_, ?_, ?_⟩
  · unfold step go
    dsimp only
    rw [hp]
    dsimp only
    rw [if_pos hl]
  · simp only [upd_same]; exact Nat.succ_pos r
  · simp only [upd_same]

example : (run step (init 2) [.call 0 .wrlock, .go 0, .call 1 .tryrdlock, .go 1, .go 1, .go 1, .go 1, .go 1, .call 1 .rdlock, .go 1, .go 1, .go 1,
    .call 0 .wrunlock, .go 0, .go 1, .go 1, .call 0 .trywrlock, .go 0]).map (fun s => (s.pc 0, s.pc 1, s.l, s.rl, s.rc)) =
    some (⟨.out, 0, false⟩, ⟨.out, 1, false⟩, 1, 0, 1) := by decide

end Verif.Thread.SpinRw
