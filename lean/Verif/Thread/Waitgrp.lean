import Verif.Thread.Base

/-!
# C24: wait groups

lib/thread/waitgrp+futex.myr; lib/thread/waitgrp.myr is the same without the futex (its waiters never sleep for good).
-/

namespace Verif.Thread.Waitgrp

/-- The next step of a thread; the numbers are lines of waitgrp+futex.myr (waitgrp.myr). -/
inductive Loc where
  /-- outside of all calls -/
  | out
  /-- 23 (21, 27, 34, 41): load and compare with 0 -/
  | get
  /-- 24: wait for the value to differ from `v` -/
  | wait (v : Nat)
  /-- asleep -/
  | parked (v : Nat)
  /-- 29, 31 (49) -/
  | padd
  /-- 32 -/
  | pwake
  /-- 35 (49): the assertion fails -/
  | pdie
  deriving DecidableEq, Repr

/-- The word and the threads. `posts` counts the decrements, `back` says that some `wgwait` has returned (neither is kept
by the code). `futex` chooses the file: `true` for waitgrp+futex.myr. -/
structure St (n : Nat) where
  val : Nat
  pc : Fin n → Loc
  posts : Nat
  back : Bool
  dead : Bool

/-- waitgrp+futex.myr:16-18, waitgrp.myr:15-17 `mkwg`. -/
def init (n v : Nat) : St n := ⟨v, fun _ => .out, 0, false, false⟩

inductive Ev (n : Nat) where
  | callWait (t : Fin n)
  | callPost (t : Fin n)
  | go (t : Fin n)
  | spurious (t : Fin n) (again : Bool)

def wakeAll : Loc → Loc
  | .parked _ => .get
  | l => l

/-- The way on from the decrement: waitgrp+futex.myr:31-35, waitgrp.myr:49. -/
def afterPost (futex : Bool) (v : Nat) : Loc := if v = 0 then .pdie else if futex = true ∧ v = 1 then .pwake else .out

/-- One step of a thread. waitgrp+futex.myr:20-36; waitgrp.myr:19-50 (the naps between the loads are left out). -/
def go {n : Nat} (futex : Bool) (s : St n) (t : Fin n) : Option (St n) :=
  match s.pc t with
  | .out => none
  | .get =>
    if s.val = 0 then some { s with pc := upd s.pc t .out, back := true }
    else some { s with pc := upd s.pc t (if futex then .wait s.val else .get) }
  | .wait v => some { s with pc := upd s.pc t (if s.val = v then .parked v else .get) }
  | .parked _ => none
  | .padd => some { s with val := dec32 s.val, posts := s.posts + 1, pc := upd s.pc t (afterPost futex s.val) }
  | .pwake => some { s with pc := upd (fun u => wakeAll (s.pc u)) t .out }
  | .pdie => some { s with dead := true }

/-- One event. -/
def step {n : Nat} (futex : Bool) (s : St n) (e : Ev n) : Option (St n) :=
  if s.dead then none else match e with
  | .callWait t => if s.pc t = .out then some { s with pc := upd s.pc t .get } else none
  | .callPost t => if s.pc t = .out then some { s with pc := upd s.pc t .padd } else none
  | .go t => go futex s t
  | .spurious t again => match s.pc t with
    | .parked v => some { s with pc := upd s.pc t (if again then .wait v else .get) }
    | _ => none

structure Inv {n : Nat} (futex : Bool) (v : Nat) (s : St n) : Prop where
  sum : s.posts ≤ v → s.val + s.posts = v
  back : s.back = true → v ≤ s.posts
  wait : ∀ t x, s.pc t = .wait x → 0 < x ∧ futex = true
  park : ∀ t x, s.pc t = .parked x → 0 < x ∧ futex = true
  wake : ∀ t x, s.pc t = .parked x → s.val = 0 → ∃ u, s.pc u = .pwake

/-- One thread goes on; the value stays. -/
theorem inv_move {n v : Nat} {futex : Bool} {s : St n} (hi : Inv futex v s) (t : Fin n) (x : Loc) (hw : ∀ y, x = .wait y → 0 < y ∧ futex = true)
    (hp : ∀ y, x = .parked y → s.val = y ∧ 0 < y ∧ futex = true) (h : s.pc t ≠ .pwake) (b : Bool) (hb : b = true → v ≤ s.posts) :
    Inv futex v { s with pc := upd s.pc t x, back := b } := by
  obtain ⟨i1, i2, i3, i4, i5⟩ := hi
  refine ⟨i1, hb, ?_, ?_, ?_⟩ <;> dsimp only
  · intro u y hu
    by_cases e : u = t
    · subst e; rw [upd_same] at hu; exact hw y hu
    · rw [upd_ne _ _ e] at hu; exact i3 u y hu
  · intro u y hu
    by_cases e : u = t
    · subst e; rw [upd_same] at hu; exact (hp y hu).2
    · rw [upd_ne _ _ e] at hu; exact i4 u y hu
  · intro u y hu hz
    by_cases e : u = t
    · subst e
      rw [upd_same] at hu
      have := hp y hu
      omega
    · rw [upd_ne _ _ e] at hu
      obtain ⟨w, hw⟩ := i5 u y hu hz
      have : w ≠ t := by intro e; subst e; exact h hw
      exact ⟨w, by rw [upd_ne _ _ this]; exact hw⟩

theorem inv_step {n v : Nat} {futex : Bool} (s : St n) (e : Ev n) (s' : St n) (hi : Inv futex v s) (h : step futex s e = some s') : Inv futex v s' := by
  unfold step at h
  split at h
  · cases h
  cases e with
  | callWait t =>
    dsimp only at h
    split at h <;> cases h
    rename_i hp
    exact inv_move hi t .get nofun nofun (by rw [hp]; nofun) s.back hi.back
  | callPost t =>
    dsimp only at h
    split at h <;> cases h
    rename_i hp
    exact inv_move hi t .padd nofun nofun (by rw [hp]; nofun) s.back hi.back
  | spurious t again =>
    dsimp only at h
    cases hp : s.pc t with
    | parked x =>
      rw [hp] at h; cases h
      have hx := hi.park t x hp
      cases again
      · exact inv_move hi t .get nofun nofun (by rw [hp]; nofun) s.back hi.back
      · exact inv_move hi t (.wait x) (fun y e => by cases e; exact hx) nofun (by rw [hp]; nofun) s.back hi.back
    | _ => rw [hp] at h; cases h
  | go t =>
    dsimp only at h
    unfold go at h
    cases hp : s.pc t with
    | out => rw [hp] at h; cases h
    | get =>
      rw [hp] at h
      dsimp only at h
      split at h
      · rename_i hz
        cases h
        refine inv_move hi t .out nofun nofun (by rw [hp]; nofun) true (fun _ => ?_)
        have := hi.sum
        omega
      · rename_i hz
        cases h
        cases futex
        · exact inv_move hi t .get nofun nofun (by rw [hp]; nofun) s.back hi.back
        · exact inv_move hi t (.wait s.val) (fun y e => by cases e; exact ⟨by omega, rfl⟩) nofun (by rw [hp]; nofun) s.back hi.back
    | wait x =>
      rw [hp] at h; cases h
      have hx := hi.wait t x hp
      split
      · rename_i hv
        exact inv_move hi t (.parked x) nofun (fun y e => by cases e; exact ⟨hv, hx⟩) (by rw [hp]; nofun) s.back hi.back
      · exact inv_move hi t .get nofun nofun (by rw [hp]; nofun) s.back hi.back
    | parked x => rw [hp] at h; cases h
    | pdie => rw [hp] at h; cases h; exact ⟨hi.1, hi.2, hi.3, hi.4, hi.5⟩
    | pwake =>
      rw [hp] at h; cases h
      obtain ⟨i1, i2, i3, i4, i5⟩ := hi
      have hn : ∀ u y, upd (fun u => wakeAll (s.pc u)) t .out u ≠ .parked y := by
        intro u y
        by_cases e : u = t
        · subst e; rw [upd_same]; nofun
        · rw [upd_ne _ _ e]; cases s.pc u <;> nofun
      refine ⟨i1, i2, ?_, fun u y e => absurd e (hn u y), fun u y e => absurd e (hn u y)⟩
      intro u y hu
      dsimp only at hu
      by_cases e : u = t
      · subst e; rw [upd_same] at hu; cases hu
      · rw [upd_ne _ _ e] at hu
        revert hu
        cases hq : s.pc u with
        | wait z => intro h; cases h; exact i3 u _ hq
        | _ => nofun
    | padd =>
      rw [hp] at h; cases h
      obtain ⟨i1, i2, i3, i4, i5⟩ := hi
      have hx : ∀ y, afterPost futex s.val ≠ .wait y ∧
          afterPost futex s.val ≠ .parked y := by
        intro y
        unfold afterPost
        split
        · exact ⟨nofun, nofun⟩
        · split <;> exact ⟨nofun, nofun⟩
      refine ⟨?_, ?_, ?_, ?_, ?_⟩ <;> dsimp only
      · intro hle
        have := i1 (by omega)
        rw [dec32_pos (by omega)]
        omega
      · intro hb
        have := i2 hb; omega
      · intro u y hu
        by_cases e : u = t
        · subst e; rw [upd_same] at hu; exact absurd hu (hx y).1
        · rw [upd_ne _ _ e] at hu; exact i3 u y hu
      · intro u y hu
        by_cases e : u = t
        · subst e; rw [upd_same] at hu; exact absurd hu (hx y).2
        · rw [upd_ne _ _ e] at hu; exact i4 u y hu
      · intro u y hu hz
        by_cases e : u = t
        · subst e; rw [upd_same] at hu; exact absurd hu (hx y).2
        · rw [upd_ne _ _ e] at hu
          have h1 : s.val = 1 := by
            unfold dec32 at hz
            split at hz <;> omega
          have hf : futex = true := (i4 u y hu).2
          exact ⟨t, by rw [upd_same, afterPost, if_neg (by omega), if_pos ⟨hf, h1⟩]⟩

theorem inv_init (n v : Nat) (futex : Bool) : Inv futex v (init n v) := ⟨fun _ => rfl, nofun, nofun, nofun, nofun⟩

/-- **C24**: when a `wgwait` has returned, at least as many posts have begun as the group was made for; both
implementations, any number of threads, any schedule. -/
theorem wg_releases_after {n v : Nat} {futex : Bool} {es : List (Ev n)} {s : St n} (hr : run (step futex) (init n v) es = some s)
    (hb : s.back = true) : v ≤ s.posts :=
  (run_inv inv_step (inv_init n v futex) hr).back hb

/-- **C24**: with the last post no waiter stays asleep: once as many posts have been made as the group was made for, a
thread still asleep is about to be woken together with all others. -/
theorem wg_no_lost_wakeup {n v : Nat} {futex : Bool} {es : List (Ev n)} {s : St n} (hr : run (step futex) (init n v) es = some s)
    (hp : s.posts = v) {t : Fin n} {x : Nat} (ht : s.pc t = .parked x) : ∃ u, s.pc u = .pwake := by
  have hi := run_inv inv_step (inv_init n v futex) hr
  have := hi.sum (by omega)
  exact hi.wake t x ht (by omega)

/-- **C24**: the process dies only after more posts than the group was made for. -/
theorem wg_dies_only {n v : Nat} {futex : Bool} {es : List (Ev n)} {s : St n} (hr : run (step futex) (init n v) es = some s)
    (hd : s.dead = true ∨ ∃ t, s.pc t = .pdie) : v < s.posts := by
  have key : ∀ (s : St n) (e : Ev n) (s' : St n), (Inv futex v s ∧ ((s.dead = true ∨ ∃ t, s.pc t = .pdie) → v < s.posts)) → step futex s e = some s' →
      Inv futex v s' ∧ ((s'.dead = true ∨ ∃ t, s'.pc t = .pdie) → v < s'.posts) := by
    intro s e s' ⟨hi, hd⟩ h
    refine ⟨inv_step s e s' hi h, ?_⟩
    have old : ∀ (t : Fin n) (x : Loc), x ≠ .pdie → (∃ u, upd s.pc t x u = .pdie) → v < s.posts := by
      intro t x hx ⟨u, hu⟩
      by_cases e : u = t
      · subst e; rw [upd_same] at hu; exact absurd hu hx
      · rw [upd_ne _ _ e] at hu; exact hd (.inr ⟨u, hu⟩)
    unfold step at h
    split at h
    · cases h
    rename_i hnd
    cases e with
    | callWait t =>
      dsimp only at h
      split at h <;> cases h
      rintro (h | h)
      · exact absurd h hnd
      · exact old t .get nofun h
    | callPost t =>
      dsimp only at h
      split at h <;> cases h
      rintro (h | h)
      · exact absurd h hnd
      · exact old t .padd nofun h
    | spurious t again =>
      dsimp only at h
      split at h <;> cases h
      rintro (h | h)
      · exact absurd h hnd
      · exact old t _ (by cases again <;> nofun) h
    | go t =>
      dsimp only at h
      unfold go at h
      cases hp : s.pc t with
      | out => rw [hp] at h; cases h
      | parked x => rw [hp] at h; cases h
      | get =>
        rw [hp] at h
        dsimp only at h
        split at h <;> cases h
        · rintro (h | h)
          · exact absurd h hnd
          · exact old t .out nofun h
        · rintro (h | h)
          · exact absurd h hnd
          · exact old t _ (by cases futex <;> nofun) h
      | wait x =>
        rw [hp] at h; cases h
        rintro (h | h)
        · exact absurd h hnd
        · refine old t _ ?_ h
          split <;> nofun
      | pdie =>
        rw [hp] at h; cases h
        intro _
        exact hd (.inr ⟨t, hp⟩)
      | pwake =>
        rw [hp] at h; cases h
        rintro (h | ⟨u, hu⟩)
        · exact absurd h hnd
        · dsimp only at hu
          by_cases e : u = t
          · subst e; rw [upd_same] at hu; cases hu
          · rw [upd_ne _ _ e] at hu
            refine hd (.inr ⟨u, ?_⟩)
            revert hu
            cases s.pc u <;> simp [wakeAll]
      | padd =>
        rw [hp] at h; cases h
        rintro (h | ⟨u, hu⟩)
        · exact absurd h hnd
        · dsimp only at hu ⊢
          by_cases e : u = t
          · subst e
            rw [upd_same] at hu
            have hz : s.val = 0 := by
              revert hu
              unfold afterPost
              split
              · intro _; assumption
              · split <;> nofun
            have := hi.sum
            omega
          · rw [upd_ne _ _ e] at hu
            have := hd (.inr ⟨u, hu⟩)
            omega
  exact (run_inv key ⟨inv_init n v futex, by rintro (h | ⟨_, h⟩) <;> cases h⟩ hr).2 hd

example : (run (step true) (init 2 1) [.callWait 0, .go 0, .go 0, .callPost 1, .go 1]).map (fun s => (s.pc 0, s.pc 1, s.val)) =
    some (.parked 1, .pwake, 0) := by decide
example : (run (step true) (init 2 1) [.callWait 0, .go 0, .go 0, .callPost 1, .go 1, .go 1, .go 0]).map (fun s => (s.pc 0, s.back, s.posts)) =
    some (.out, true, 1) := by decide
example : (run (step false) (init 2 1) [.callWait 0, .go 0, .go 0, .callPost 1, .go 1, .go 0]).map (fun s => (s.pc 0, s.back, s.posts)) =
    some (.out, true, 1) := by decide
example : (run (step true) (init 1 0) [.callPost 0, .go 0, .go 0]).map (fun s => (s.dead, s.posts)) = some (true, 1) := by decide

end Verif.Thread.Waitgrp
