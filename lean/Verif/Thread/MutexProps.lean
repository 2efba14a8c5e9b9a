import Verif.Thread.MutexLemmas

/-!
# C19, C20, C74: mutual exclusion, no lost wake-up, condition variables

lib/thread/mutex+futex.myr, lib/thread/condvar+linux.myr.
-/

namespace Verif.Thread.Mutex

/-! ## Specification -/

/-- The thread got the mutex by `mtxlock`, `mtxtrylock` or `condwait` and has not begun to give it up: it is outside of
all calls, or in a call that does not give it up. -/
def holds : PC → Bool
  | .out h | .try h | .sig1 h | .sig2 h _ | .bc1 h | .bc2 h _ => h
  | _ => false

/-- The thread is asleep in the kernel. -/
def asleep : PC → Bool
  | .parked _ | .cparked _ => true
  | _ => false

/-- The thread is outside of all calls. -/
def outside : PC → Bool
  | .out _ => true
  | _ => false

/-- The thread may make the call: it does not lock twice, and unlocks or waits only while it holds the mutex. -/
def rightCall (h : Bool) : Call → Bool
  | .lock => !h
  | .unlock | .condwait => h
  | _ => true

/-- All calls of the schedule are right. -/
def Right {n : Nat} : St n → List (Ev n) → Prop
  | _, [] => True
  | s, e :: es => (∀ t c h, e = .call t c → s.pc t = .out h → rightCall h c = true) ∧ ∀ s', step s e = some s' → Right s' es

/-! ## C19 -/

theorem holds_crit {p : PC} (h : holds p = true) : crit p = true := by
  revert h; cases p <;> simp [holds, crit]

/-- **C19**: at most one thread holds the mutex, for any number of threads, any calls (right or wrong), any schedule of
the steps, any spurious wake-ups. -/
theorem mutex_exclusion {n : Nat} {es : List (Ev n)} {s : St n} (hr : run step (init n) es = some s) {t u : Fin n}
    (ht : holds (s.pc t) = true) (hu : holds (s.pc u) = true) : t = u :=
  (inv_run hr).one t u (holds_crit ht) (holds_crit hu)

/-- The bad places: those where the process is going to kill itself. -/
def bad : PC → Bool
  | .chk true _ | .uchk false _ | .cread false => true
  | _ => false

theorem bad_upd {n : Nat} {f : Fin n → PC} (h : ∀ u, bad (f u) = false) {t : Fin n} {x : PC} (hx : bad x = false) :
    ∀ u, bad (upd f t x u) = false := by
  intro u
  by_cases hu : u = t
  · subst hu; rw [upd_same]; exact hx
  · rw [upd_ne _ _ hu]; exact h u

theorem bad_after (k : Option Nat) : bad (after k) = false := by cases k <;> rfl

theorem good_go {n : Nat} {s s' : St n} {t : Fin n} {w : Option (Fin n)} (hi : Inv s) (hd : s.dead = false)
    (hb : ∀ u, bad (s.pc u) = false) (h : go s t w = some s') : s'.dead = false ∧ ∀ u, bad (s'.pc u) = false := by
  have hbt := hb t
  unfold go at h
  cases hp : s.pc t with
  | out a => rw [hp] at h; cases h
  | chk a c =>
    rw [hp] at h hbt
    dsimp only at h
    cases a with
    | true => cases hbt
    | false =>
      split at h
      · rename_i ho
        have := hi.own2 t ho
        rw [hp] at this; cases this
      · cases h
        refine ⟨hd, bad_upd hb ?_⟩
        cases c <;> rfl
  | spin i =>
    rw [hp] at h
    dsimp only at h
    repeat' (split at h)
    all_goals
      cases h
      exact ⟨hd, bad_upd hb rfl⟩
  | xch =>
    rw [hp] at h; cases h
    refine ⟨hd, bad_upd hb ?_⟩
    split <;> rfl
  | wait =>
    rw [hp] at h; cases h
    refine ⟨hd, bad_upd hb ?_⟩
    split <;> rfl
  | parked k => rw [hp] at h; cases h
  | own => rw [hp] at h; cases h; exact ⟨hd, bad_upd hb rfl⟩
  | «try» a =>
    rw [hp] at h
    dsimp only at h
    split at h <;> (cases h; exact ⟨hd, bad_upd hb rfl⟩)
  | uchk a k =>
    rw [hp] at h hbt
    dsimp only at h
    cases a with
    | false => cases hbt
    | true =>
      rw [if_pos (hi.own1 t (by rw [hp]; rfl))] at h
      cases h; exact ⟨hd, bad_upd hb rfl⟩
  | uclr k => rw [hp] at h; cases h; exact ⟨hd, bad_upd hb rfl⟩
  | uxch k =>
    rw [hp] at h; cases h
    refine ⟨hd, bad_upd hb ?_⟩
    split
    · rfl
    · exact bad_after k
  | uwake k =>
    rw [hp] at h
    cases w with
    | some u =>
      dsimp only at h
      split at h
      · cases h
        refine ⟨hd, bad_upd (bad_upd hb ?_) (bad_after k)⟩
        cases s.pc u with
        | parked k => cases k <;> rfl
        | _ => rfl
      · cases h
    | none =>
      dsimp only at h
      split at h
      · cases h
      · cases h; exact ⟨hd, bad_upd hb (bad_after k)⟩
  | cread a =>
    rw [hp] at h hbt
    cases h
    cases a with
    | false => cases hbt
    | true => exact ⟨hd, bad_upd hb rfl⟩
  | cwait k =>
    rw [hp] at h; cases h
    refine ⟨hd, bad_upd hb ?_⟩
    split <;> rfl
  | cparked k => rw [hp] at h; cases h
  | sig1 a => rw [hp] at h; cases h; exact ⟨hd, bad_upd hb rfl⟩
  | sig2 a m =>
    rw [hp] at h
    cases w with
    | some u =>
      dsimp only at h
      split at h
      · cases h; exact ⟨hd, bad_upd (bad_upd hb rfl) rfl⟩
      · cases h
    | none =>
      dsimp only at h
      split at h
      · cases h
      · cases h; exact ⟨hd, bad_upd hb rfl⟩
  | bc1 a => rw [hp] at h; cases h; exact ⟨hd, bad_upd hb rfl⟩
  | bc2 a m =>
    rw [hp] at h
    cases w with
    | some u =>
      dsimp only at h
      split at h
      · cases h
        refine ⟨hd, bad_upd (bad_upd ?_ rfl) rfl⟩
        intro v
        have := hb v
        revert this
        cases s.pc v <;> simp [requeue, bad]
      · cases h
    | none =>
      dsimp only at h
      split at h
      · cases h
      · cases h; exact ⟨hd, bad_upd hb rfl⟩

theorem good_step {n : Nat} {s s' : St n} {e : Ev n} (hi : Inv s) (hd : s.dead = false) (hb : ∀ u, bad (s.pc u) = false)
    (hc : ∀ t c h, e = .call t c → s.pc t = .out h → rightCall h c = true) (h : step s e = some s') :
    s'.dead = false ∧ ∀ u, bad (s'.pc u) = false := by
  unfold step at h
  rw [hd] at h
  simp only [Bool.false_eq_true, if_false] at h
  cases e with
  | call t c =>
    dsimp only at h
    cases hp : s.pc t with
    | out a =>
      rw [hp] at h
      have := hc t c a rfl hp
      cases h
      refine ⟨rfl, bad_upd hb ?_⟩
      revert this
      cases c <;> cases a <;> simp [rightCall, enter, bad]
    | _ => rw [hp] at h; cases h
  | go t w => exact good_go hi hd hb h
  | spurious t again =>
    dsimp only at h
    cases hp : s.pc t with
    | parked k =>
      rw [hp] at h
      cases k <;> (cases h; refine ⟨rfl, bad_upd hb ?_⟩; cases again <;> rfl)
    | cparked k =>
      rw [hp] at h
      cases h
      refine ⟨rfl, bad_upd hb ?_⟩
      cases again <;> rfl
    | _ => rw [hp] at h; cases h

theorem good_run {n : Nat} : ∀ {es : List (Ev n)} {s s' : St n}, Inv s → s.dead = false → (∀ u, bad (s.pc u) = false) →
    Right s es → run step s es = some s' → s'.dead = false
  | [], s, s', _, hd, _, _, h => by cases h; exact hd
  | e :: es, s, s', hi, hd, hb, hr, h => by
    rw [run] at h
    cases he : step s e with
    | none => rw [he] at h; cases h
    | some s1 =>
      rw [he] at h
      have ⟨h1, h2⟩ := good_step hi hd hb hr.1 he
      exact good_run (inv_step s e s1 hi he) h1 h2 (hr.2 s1 he) h

/-- **C19**: right use never kills the process: the test of the owner, which races with the other threads, has no false
alarms. -/
theorem mutex_right_use_lives {n : Nat} {es : List (Ev n)} {s : St n} (hr : run step (init n) es = some s)
    (hc : Right (init n) es) : s.dead = false :=
  good_run (inv_init n) rfl (fun _ => rfl) hc hr

/-- **C19**: a thread that locks the mutex it holds, or unlocks or waits without holding it, is always caught: it can
only go on to kill the process. -/
theorem mutex_wrong_use_caught {n : Nat} {es : List (Ev n)} {s s' : St n} (hr : run step (init n) es = some s) {t : Fin n}
    {w : Option (Fin n)} (hb : (∃ c, s.pc t = .chk true c) ∨ ∃ k, s.pc t = .uchk false k) (hg : step s (.go t w) = some s') :
    s'.dead = true := by
  have hi := inv_run hr
  unfold step at hg
  split at hg
  · cases hg
  dsimp only at hg
  unfold go at hg
  rcases hb with ⟨c, hp⟩ | ⟨k, hp⟩
  · rw [hp] at hg
    dsimp only at hg
    rw [if_pos (hi.own1 t (by rw [hp]; rfl))] at hg
    cases hg; rfl
  · rw [hp] at hg
    dsimp only at hg
    split at hg
    · rename_i ho
      have := hi.own2 t ho
      rw [hp] at this; cases this
    · cases hg; rfl

/-! A schedule: thread 0 locks, thread 1 spins, marks the mutex and sleeps; thread 0 unlocks and wakes thread 1, which
gets the mutex. -/

def lock0 : List (Ev 2) := [.call 0 .lock, .go 0 none, .go 0 none, .go 0 none]
def sleep1 : List (Ev 2) := [.call 1 .lock] ++ List.replicate 13 (.go 1 none)
def unlock0 : List (Ev 2) := [.call 0 .unlock, .go 0 none, .go 0 none, .go 0 none]

example : (run step (init 2) lock0).map (fun s => (s.pc 0, s.pc 1, s.word)) = some (.out true, .out false, 1) := by decide
example : (run step (init 2) (lock0 ++ sleep1)).map (fun s => (s.pc 0, s.pc 1, s.word)) = some (.out true, .parked none, 2) := by decide
example : (run step (init 2) (lock0 ++ sleep1 ++ unlock0)).map (fun s => (s.pc 0, s.pc 1, s.word)) =
    some (.uwake none, .parked none, 0) := by decide
example : (run step (init 2) (lock0 ++ sleep1 ++ unlock0 ++ [.go 0 (some 1), .go 1 none, .go 1 none])).map (fun s => (s.pc 0, s.pc 1, s.word)) =
    some (.out false, .out true, 2) := by decide
/-- The wake-up cannot pass over the sleeper. -/
example : (run step (init 2) (lock0 ++ sleep1 ++ unlock0 ++ [.go 0 none])).isNone = true := by decide
/-- A wrong unlock. -/
example : (run step (init 2) (lock0 ++ [.call 1 .unlock, .go 1 none])).map (fun s => s.dead) = some true := by decide
example : Right (init 2) lock0 := by
  refine ⟨?_, fun s hs => ⟨nofun, fun s hs => ⟨nofun, fun s hs => ⟨nofun, fun s hs => trivial⟩⟩⟩⟩
  intro t c h e hp
  cases e; cases hp; rfl

/-! ## C20 -/

/-- The thread will wake a sleeper of the mutex, or try to take the mutex (marking it so that its holder will wake a
sleeper), before it sleeps or leaves. -/
def active : PC → Bool
  | .uwake _ | .xch | .chk _ true => true
  | _ => false

/-- A thread inside a call that is not asleep can take its next step. -/
theorem can_go {n : Nat} (s : St n) (t : Fin n) (h1 : outside (s.pc t) = false) (h2 : asleep (s.pc t) = false) :
    ∃ w s', go s t w = some s' := by
  have key : ∀ (P : Fin n → Prop) [DecidablePred P], (∃ u, P u) ∨ ¬∃ u, P u := fun P _ => Classical.em _
  unfold go
  cases hp : s.pc t with
  | out a => rw [hp] at h1; cases h1
  | parked k => rw [hp] at h2; cases h2
  | cparked k => rw [hp] at h2; cases h2
  | chk a c => dsimp only; split <;> exact ⟨none, _, rfl⟩
  | spin i => dsimp only; repeat' split
              all_goals exact ⟨none, _, rfl⟩
  | «try» a => dsimp only; split <;> exact ⟨none, _, rfl⟩
  | uchk a k => dsimp only; split <;> exact ⟨none, _, rfl⟩
  | uwake k =>
    rcases key (fun u => isParked (s.pc u) = true) with ⟨u, hu⟩ | hu
    · exact ⟨some u, _, if_pos hu⟩
    · exact ⟨none, _, if_neg hu⟩
  | sig2 a m =>
    rcases key (fun u => isCparked (s.pc u) = true) with ⟨u, hu⟩ | hu
    · exact ⟨some u, _, if_pos hu⟩
    · exact ⟨none, _, if_neg hu⟩
  | bc2 a m =>
    rcases key (fun u => isCparked (s.pc u) = true) with ⟨u, hu⟩ | hu
    · exact ⟨some u, _, if_pos hu⟩
    · exact ⟨none, _, if_neg hu⟩
  | _ => exact ⟨none, _, rfl⟩

/-- **C20**: if a thread sleeps on the mutex and the mutex is free, some thread is on its way to wake a sleeper or to
take the mutex. -/
theorem mutex_no_lost_wakeup {n : Nat} {es : List (Ev n)} {s : St n} (hr : run step (init n) es = some s) {t : Fin n} {k : Option Nat}
    (ht : s.pc t = .parked k) (hf : s.word = 0) : ∃ u, active (s.pc u) = true ∧ asleep (s.pc u) = false ∧ outside (s.pc u) = false := by
  rcases (inv_run hr).wake t (by rw [ht]; rfl) with h | ⟨u, hu⟩
  · omega
  · refine ⟨u, ?_⟩
    revert hu
    cases s.pc u with
    | chk a c => cases c <;> simp [pending, active, asleep, outside]
    | _ => simp [pending, active, asleep, outside]

/-- **C20**: the threads are never all asleep or gone while one of them sleeps on the mutex: some thread can go on with
its call, or holds the mutex and is outside, free to unlock it. -/
theorem mutex_no_deadlock {n : Nat} {es : List (Ev n)} {s : St n} (hr : run step (init n) es = some s) {t : Fin n} {k : Option Nat}
    (ht : s.pc t = .parked k) : ∃ u, s.pc u = .out true ∨ ∃ w s', go s u w = some s' := by
  have hi := inv_run hr
  have live : ∀ u, (active (s.pc u) = true ∨ crit (s.pc u) = true) → s.pc u = .out true ∨ ∃ w s', go s u w = some s' := by
    intro u hu
    by_cases ho : s.pc u = .out true
    · exact .inl ho
    · refine .inr (can_go s u ?_ ?_)
      · revert hu ho; cases s.pc u <;> simp [active, crit, outside]
      · revert hu; cases s.pc u <;> simp [active, crit, asleep]
  by_cases hf : s.word = 0
  · obtain ⟨u, hu, _⟩ := mutex_no_lost_wakeup hr ht hf
    exact ⟨u, live u (.inl hu)⟩
  · obtain ⟨u, hu⟩ := hi.held hf
    exact ⟨u, live u (.inr hu)⟩

/-! ## C74 -/

/-- The sequence number read by a thread in `condwait`. -/
def ticket : PC → Option Nat
  | .uchk _ k | .uclr k | .uxch k | .uwake k | .parked k => k
  | .cwait k | .cparked k => some k
  | _ => none

/-- The number of a signal or broadcast on its way. -/
def sent : PC → Option Nat
  | .sig2 _ m | .bc2 _ m => some m
  | _ => none

structure CInv {n : Nat} (s : St n) : Prop where
  tick : ∀ t k, ticket (s.pc t) = some k → k ≤ s.seq
  sent : ∀ t m, sent (s.pc t) = some m → m ≤ s.seq
  bd : s.bdone ≤ s.seq
  ws : s.wasted ≤ s.seq
  bc : ∀ t k, s.pc t = .cparked k → s.bdone ≤ k
  sg : ∀ t k, s.pc t = .cparked k → s.wasted ≤ k

theorem ticket_after (k : Option Nat) : ticket (after k) = k := by cases k <;> rfl

/-- One thread moves; it does not fall asleep on the condition variable. -/
theorem cinv_move {n : Nat} {s : St n} (hc : CInv s) (t : Fin n) (x : PC) (q w : Nat) (o : Option (Fin n)) (d : Bool) (hq : s.seq ≤ q)
    (h1 : ∀ k, ticket x = some k → k ≤ q) (h2 : ∀ m, Mutex.sent x = some m → m ≤ q)
    (h3 : ∀ k, x = .cparked k → s.bdone ≤ k ∧ s.wasted ≤ k) :
    CInv { s with pc := upd s.pc t x, seq := q, word := w, owner := o, dead := d } := by
  obtain ⟨c1, c2, c3, c4, c5, c6⟩ := hc
  refine ⟨?_, ?_, Nat.le_trans c3 hq, Nat.le_trans c4 hq, ?_, ?_⟩ <;> dsimp only
  · intro u k hu
    by_cases hut : u = t
    · subst hut; rw [upd_same] at hu; exact h1 k hu
    · rw [upd_ne _ _ hut] at hu; exact Nat.le_trans (c1 u k hu) hq
  · intro u k hu
    by_cases hut : u = t
    · subst hut; rw [upd_same] at hu; exact h2 k hu
    · rw [upd_ne _ _ hut] at hu; exact Nat.le_trans (c2 u k hu) hq
  · intro u k hu
    by_cases hut : u = t
    · subst hut; rw [upd_same] at hu; exact (h3 k hu).1
    · rw [upd_ne _ _ hut] at hu; exact c5 u k hu
  · intro u k hu
    by_cases hut : u = t
    · subst hut; rw [upd_same] at hu; exact (h3 k hu).2
    · rw [upd_ne _ _ hut] at hu; exact c6 u k hu

/-- A signal or a broadcast ends while nobody is asleep on the condition variable. -/
theorem cinv_empty {n : Nat} {s : St n} (hc : CInv s) (hn : ∀ u k, s.pc u ≠ .cparked k) (b w : Nat) (hb : b ≤ s.seq) (hw : w ≤ s.seq) :
    CInv { s with bdone := b, wasted := w } :=
  ⟨hc.1, hc.2, hb, hw, fun t k h => absurd h (hn t k), fun t k h => absurd h (hn t k)⟩

theorem cinv_requeue {n : Nat} {s : St n} (hc : CInv s) (u : Fin n) : CInv { s with pc := upd (fun v => requeue (s.pc v)) u (.chk false true) } := by
  obtain ⟨c1, c2, c3, c4, c5, c6⟩ := hc
  have hn : ∀ v k, upd (fun v => requeue (s.pc v)) u (.chk false true) v ≠ .cparked k := by
    intro v k
    by_cases hv : v = u
    · subst hv; rw [upd_same]; intro h; cases h
    · rw [upd_ne _ _ hv]; cases s.pc v <;> simp [requeue]
  refine ⟨?_, ?_, c3, c4, fun v k h => absurd h (hn v k), fun v k h => absurd h (hn v k)⟩ <;> dsimp only
  · intro v k hv
    by_cases hu : v = u
    · subst hu; rw [upd_same] at hv; cases hv
    · rw [upd_ne _ _ hu] at hv
      apply c1 v k
      revert hv
      cases s.pc v <;> simp [requeue, ticket]
  · intro v k hv
    by_cases hu : v = u
    · subst hu; rw [upd_same] at hv; cases hv
    · rw [upd_ne _ _ hu] at hv
      apply c2 v k
      revert hv
      cases s.pc v <;> simp [requeue, Mutex.sent]

theorem cinv_go {n : Nat} {s s' : St n} {t : Fin n} {w : Option (Fin n)} (hq : s.seq < 2 ^ 32) (hc : CInv s) (h : go s t w = some s') :
    CInv s' := by
  unfold go at h
  cases hp : s.pc t with
  | out a => rw [hp] at h; cases h
  | chk a c =>
    rw [hp] at h
    dsimp only at h
    split at h
    · cases h; exact ⟨hc.1, hc.2, hc.3, hc.4, hc.5, hc.6⟩
    · cases h
      cases c <;> exact cinv_move hc t _ _ _ _ _ (Nat.le_refl _) nofun nofun nofun
  | spin i =>
    rw [hp] at h
    dsimp only at h
    repeat' (split at h)
    all_goals
      cases h
      exact cinv_move hc t _ _ _ _ _ (Nat.le_refl _) nofun nofun nofun
  | xch =>
    rw [hp] at h; cases h
    split <;> exact cinv_move hc t _ _ _ _ _ (Nat.le_refl _) nofun nofun nofun
  | wait =>
    rw [hp] at h; cases h
    split <;> exact cinv_move hc t _ _ _ _ _ (Nat.le_refl _) nofun nofun nofun
  | parked k => rw [hp] at h; cases h
  | own => rw [hp] at h; cases h; exact cinv_move hc t _ _ _ _ _ (Nat.le_refl _) nofun nofun nofun
  | «try» a =>
    rw [hp] at h
    dsimp only at h
    split at h <;> (cases h; exact cinv_move hc t _ _ _ _ _ (Nat.le_refl _) nofun nofun nofun)
  | uchk a k =>
    rw [hp] at h
    dsimp only at h
    split at h
    · cases h
      exact cinv_move hc t _ _ _ _ _ (Nat.le_refl _) (fun k' h => hc.tick t k' (by rw [hp]; exact h)) nofun nofun
    · cases h; exact ⟨hc.1, hc.2, hc.3, hc.4, hc.5, hc.6⟩
  | uclr k =>
    rw [hp] at h; cases h
    exact cinv_move hc t _ _ _ _ _ (Nat.le_refl _) (fun k' h => hc.tick t k' (by rw [hp]; exact h)) nofun nofun
  | uxch k =>
    rw [hp] at h; cases h
    have hk := hc.tick t
    rw [hp] at hk
    split
    · exact cinv_move hc t _ _ _ _ _ (Nat.le_refl _) hk nofun nofun
    · refine cinv_move hc t _ _ _ _ _ (Nat.le_refl _) ?_ ?_ ?_ <;> cases k
      · nofun
      · exact hk
      all_goals nofun
  | uwake k =>
    rw [hp] at h
    have hk := hc.tick t
    rw [hp] at hk
    have hx : (∀ k', ticket (after k) = some k' → k' ≤ s.seq) ∧ (∀ m, Mutex.sent (after k) = some m → m ≤ s.seq) ∧
        ∀ k', after k = .cparked k' → s.bdone ≤ k' ∧ s.wasted ≤ k' := by
      cases k with
      | none => exact ⟨nofun, nofun, nofun⟩
      | some k => exact ⟨hk, nofun, nofun⟩
    cases w with
    | some u =>
      dsimp only at h
      split at h
      · rename_i hu
        cases h
        have h1 : CInv { s with pc := upd s.pc u (woken (s.pc u)) } := by
          refine cinv_move hc u _ s.seq s.word s.owner s.dead (Nat.le_refl _) ?_ ?_ ?_ <;> revert hu <;> cases s.pc u <;>
            first
            | (intro h; cases h; done)
            | (rename_i k; cases k <;> nofun)
        exact cinv_move h1 t _ s.seq s.word s.owner s.dead (Nat.le_refl _) hx.1 hx.2.1 hx.2.2
      · cases h
    | none =>
      dsimp only at h
      split at h
      · cases h
      · cases h; exact cinv_move hc t _ s.seq s.word s.owner s.dead (Nat.le_refl _) hx.1 hx.2.1 hx.2.2
  | cread a =>
    rw [hp] at h; cases h
    exact cinv_move hc t _ _ _ _ _ (Nat.le_refl _) (fun k h => by cases h; exact Nat.le_refl _) nofun nofun
  | cwait k =>
    rw [hp] at h; cases h
    have hk : k ≤ s.seq := hc.tick t k (by rw [hp]; rfl)
    split
    · rename_i he
      have hks : s.seq = k := by omega
      refine cinv_move hc t _ _ _ _ _ (Nat.le_refl _) (fun k' h => by cases h; exact hk) nofun (fun k' h => ?_)
      cases h
      have := hc.bd; have := hc.ws
      omega
    · exact cinv_move hc t _ _ _ _ _ (Nat.le_refl _) nofun nofun nofun
  | cparked k => rw [hp] at h; cases h
  | sig1 a =>
    rw [hp] at h; cases h
    exact cinv_move hc t _ _ _ _ _ (Nat.le_succ _) nofun (fun m h => by cases h; exact Nat.le_refl _) nofun
  | sig2 a m =>
    rw [hp] at h
    have hm : m ≤ s.seq := hc.sent t m (by rw [hp]; rfl)
    cases w with
    | some u =>
      dsimp only at h
      split at h
      · cases h
        have h1 : CInv { s with pc := upd s.pc u (.chk false true) } :=
          cinv_move hc u _ s.seq s.word s.owner s.dead (Nat.le_refl _) nofun nofun nofun
        exact cinv_move h1 t _ s.seq s.word s.owner s.dead (Nat.le_refl _) nofun nofun nofun
      · cases h
    | none =>
      dsimp only at h
      split at h
      · cases h
      · rename_i hn
        cases h
        have h1 := cinv_empty hc (fun u k e => hn ⟨u, by rw [e]; rfl⟩) s.bdone (max s.wasted m) hc.bd (by have := hc.ws; omega)
        exact cinv_move h1 t _ s.seq s.word s.owner s.dead (Nat.le_refl _) nofun nofun nofun
  | bc1 a =>
    rw [hp] at h; cases h
    exact cinv_move hc t _ _ _ _ _ (Nat.le_succ _) nofun (fun m h => by cases h; exact Nat.le_refl _) nofun
  | bc2 a m =>
    rw [hp] at h
    have hm : m ≤ s.seq := hc.sent t m (by rw [hp]; rfl)
    cases w with
    | some u =>
      dsimp only at h
      split at h
      · cases h
        have h1 := cinv_requeue hc u
        have h2 := cinv_empty h1 (fun v k => by
          dsimp only
          by_cases hv : v = u
          · subst hv; rw [upd_same]; intro h; cases h
          · rw [upd_ne _ _ hv]; cases s.pc v <;> simp [requeue]) (max s.bdone m) s.wasted (by dsimp only; have := hc.bd; omega) hc.ws
        exact cinv_move h2 t _ s.seq s.word s.owner s.dead (Nat.le_refl _) nofun nofun nofun
      · cases h
    | none =>
      dsimp only at h
      split at h
      · cases h
      · rename_i hn
        cases h
        have h1 := cinv_empty hc (fun u k e => hn ⟨u, by rw [e]; rfl⟩) (max s.bdone m) s.wasted (by have := hc.bd; omega) hc.ws
        exact cinv_move h1 t _ s.seq s.word s.owner s.dead (Nat.le_refl _) nofun nofun nofun

theorem seq_go {n : Nat} {s s' : St n} {t : Fin n} {w : Option (Fin n)} (h : go s t w = some s') : s.seq ≤ s'.seq := by
  unfold go at h
  repeat' (split at h)
  all_goals first
    | (cases h; done)
    | (cases h; first | exact Nat.le_refl _ | exact Nat.le_succ _)

theorem cinv_step {n : Nat} {s s' : St n} {e : Ev n} (hq : s.seq < 2 ^ 32) (hc : CInv s) (h : step s e = some s') : CInv s' := by
  unfold step at h
  split at h
  · cases h
  cases e with
  | call t c =>
    dsimp only at h
    cases hp : s.pc t with
    | out a =>
      rw [hp] at h
      cases h
      cases c <;> exact cinv_move hc t _ _ _ _ _ (Nat.le_refl _) nofun nofun nofun
    | _ => rw [hp] at h; cases h
  | go t w => exact cinv_go hq hc h
  | spurious t again =>
    dsimp only at h
    have hk := hc.tick t
    cases hp : s.pc t with
    | parked k =>
      rw [hp] at h hk
      cases k <;> cases h <;> cases again
      · exact cinv_move hc t _ _ _ _ _ (Nat.le_refl _) nofun nofun nofun
      · exact cinv_move hc t _ _ _ _ _ (Nat.le_refl _) nofun nofun nofun
      · exact cinv_move hc t _ _ _ _ _ (Nat.le_refl _) nofun nofun nofun
      · exact cinv_move hc t _ _ _ _ _ (Nat.le_refl _) hk nofun nofun
    | cparked k =>
      rw [hp] at h hk
      cases h
      cases again
      · exact cinv_move hc t _ _ _ _ _ (Nat.le_refl _) nofun nofun nofun
      · exact cinv_move hc t _ _ _ _ _ (Nat.le_refl _) hk nofun nofun
    | _ => rw [hp] at h; cases h

theorem seq_step {n : Nat} {s s' : St n} {e : Ev n} (h : step s e = some s') : s.seq ≤ s'.seq := by
  unfold step at h
  split at h
  · cases h
  cases e with
  | call t c =>
    dsimp only at h
    split at h <;> cases h
    exact Nat.le_refl _
  | go t w => exact seq_go h
  | spurious t again =>
    dsimp only at h
    split at h <;> cases h <;> exact Nat.le_refl _

theorem seq_run {n : Nat} : ∀ {es : List (Ev n)} {s s' : St n}, run step s es = some s' → s.seq ≤ s'.seq
  | [], s, s', h => by cases h; exact Nat.le_refl _
  | e :: es, s, s', h => by
    rw [run] at h
    cases he : step s e with
    | none => rw [he] at h; cases h
    | some s1 => rw [he] at h; exact Nat.le_trans (seq_step he) (seq_run h)

theorem cinv_run {n : Nat} : ∀ {es : List (Ev n)} {s s' : St n}, CInv s → run step s es = some s' → s'.seq < 2 ^ 32 → CInv s'
  | [], s, s', hc, h, _ => by cases h; exact hc
  | e :: es, s, s', hc, h, hq => by
    rw [run] at h
    cases he : step s e with
    | none => rw [he] at h; cases h
    | some s1 =>
      rw [he] at h
      have h1 := seq_step he
      have h2 := seq_run h
      exact cinv_run (cinv_step (by omega) hc he) h hq

theorem cinv_init (n : Nat) : CInv (init n) := ⟨nofun, nofun, Nat.le_refl _, Nat.le_refl _, nofun, nofun⟩

/-- **C74**: a thread asleep on the condition variable began to wait after every finished broadcast was sent: a broadcast
sent after it began to wait has moved it on by the time the broadcast ends. Fewer than `2 ^ 32` signals. -/
theorem cond_broadcast_partial {n : Nat} {es : List (Ev n)} {s : St n} (hr : run step (init n) es = some s) (hq : s.seq < 2 ^ 32) {t : Fin n}
    {k : Nat} (ht : s.pc t = .cparked k) : s.bdone ≤ k :=
  (cinv_run (cinv_init n) hr hq).bc t k ht

/-- **C74**: a signal sent after the sleeper began to wait was not wasted: it woke a sleeper. Fewer than `2 ^ 32`
signals. -/
theorem cond_signal_partial {n : Nat} {es : List (Ev n)} {s : St n} (hr : run step (init n) es = some s) (hq : s.seq < 2 ^ 32) {t : Fin n}
    {k : Nat} (ht : s.pc t = .cparked k) : s.wasted ≤ k :=
  (cinv_run (cinv_init n) hr hq).sg t k ht

/-- The claim without the bound. -/
def FullClaim74 : Prop := ∀ (n : Nat) (es : List (Ev n)) (s : St n), run step (init n) es = some s → ∀ t k, s.pc t = .cparked k → s.wasted ≤ k

/-- Thread 0 has read the sequence number and released the mutex; thread 1 has signalled `q` times. -/
def lull (q : Nat) : St 2 := ⟨0, none, q, fun u => if u = 0 then .cwait 0 else .out false, 0, q, false⟩

def ring : List (Ev 2) := [.call 1 .condsignal, .go 1 none, .go 1 none]

theorem ring_once (q : Nat) : run step (lull q) ring = some (lull (q + 1)) := by
  have e1 : step (lull q) (.call 1 .condsignal) = some { lull q with pc := upd (lull q).pc 1 (.sig1 false) } := rfl
  have e2 : step { lull q with pc := upd (lull q).pc 1 (.sig1 false) } (.go 1 none) =
      some { lull q with seq := q + 1, pc := upd (upd (lull q).pc 1 (.sig1 false)) 1 (.sig2 false (q + 1)) } := rfl
  have hpc : upd (upd (upd (lull q).pc 1 (.sig1 false)) 1 (.sig2 false (q + 1))) 1 (.out false) = (lull (q + 1)).pc := by
    funext u
    match u with
    | 0 => rfl
    | 1 => rfl
  have hn : ¬∃ u, isCparked ((upd (upd (lull q).pc 1 (.sig1 false)) 1 (.sig2 false (q + 1))) u) = true := by
    rintro ⟨u, hu⟩
    match u with
    | 0 => cases hu
    | 1 => cases hu
  rw [ring, run, e1]
  dsimp only
  rw [run, e2]
  dsimp only
  rw [run]
  have e3 : step { lull q with seq := q + 1, pc := upd (upd (lull q).pc 1 (.sig1 false)) 1 (.sig2 false (q + 1)) } (.go 1 none) =
      some (lull (q + 1)) := by
    show (if ∃ u, isCparked ((upd (upd (lull q).pc 1 (.sig1 false)) 1 (.sig2 false (q + 1))) u) = true then none else some _) = _
    rw [if_neg hn, hpc]
    have hm : max (lull q).wasted (q + 1) = q + 1 := Nat.max_eq_right (Nat.le_succ q)
    dsimp only
    rw [hm]
    rfl
  rw [e3]
  rfl

theorem ring_many : ∀ q m : Nat, run step (lull q) (List.replicate m ring).flatten = some (lull (q + m))
  | q, 0 => rfl
  | q, m + 1 => by
    rw [List.replicate_succ, List.flatten_cons, run_append (ring_once q), ring_many (q + 1) m]
    congr 2
    omega

/-- Thread 0 begins to wait. -/
def begin0 : List (Ev 2) := lock0 ++ [.call 0 .condwait, .go 0 none, .go 0 none, .go 0 none, .go 0 none]

theorem begin0_ok : ∃ s, run step (init 2) begin0 = some s ∧ s.word = 0 ∧ s.owner = none ∧ s.seq = 0 ∧ s.pc 0 = .cwait 0 ∧ s.pc 1 = .out false ∧
    s.bdone = 0 ∧ s.wasted = 0 ∧ s.dead = false := ⟨_, rfl, rfl, rfl, rfl, rfl, rfl, rfl, rfl, rfl⟩

/-- **C74** fails without the bound: if the mutex is released, `2 ^ 32` signals are sent before the thread gets to sleep,
the sequence word is back where it was, and the thread sleeps though all of them were for it. -/
theorem cond_signal_violated : ¬FullClaim74 := by
  intro h
  obtain ⟨s, hs, h1, h2, h3, h4, h5, h6, h7, h8⟩ := begin0_ok
  have hl : s = lull 0 := by
    have hpc : s.pc = (lull 0).pc := by
      funext u
      match u with
      | 0 => exact h4
      | 1 => exact h5
    cases s
    simp only at h1 h2 h3 h6 h7 h8 hpc
    subst h1 h2 h3 h6 h7 h8 hpc
    rfl
  subst hl
  have hr : run step (init 2) (begin0 ++ ((List.replicate (2 ^ 32) ring).flatten ++ [.go 0 none])) =
      run step (lull (0 + 2 ^ 32)) [.go 0 none] := by
    rw [run_append hs, run_append (ring_many 0 (2 ^ 32))]
  have hg : run step (lull (0 + 2 ^ 32)) [.go 0 none] = some { lull (0 + 2 ^ 32) with pc := upd (lull (0 + 2 ^ 32)).pc 0 (.cparked 0) } := rfl
  have := h 2 _ _ (hr.trans hg) 0 0 rfl
  exact absurd this (by decide)

/-- A broadcast and a signal that meet the hypotheses: thread 1 sleeps after a broadcast of thread 0 has ended. -/
example : (run step (init 2) ([.call 0 .condbroadcast, .go 0 none, .go 0 none, .call 1 .lock, .go 1 none, .go 1 none, .go 1 none,
    .call 1 .condwait] ++ List.replicate 5 (.go 1 none))).map (fun s => (s.pc 1, s.bdone, s.seq)) = some (.cparked 1, 1, 1) := by decide

/-- A broadcast wakes one sleeper and moves the other to the mutex. -/
example : (run step (init 3) ([.call 1 .lock, .go 1 none, .go 1 none, .go 1 none, .call 1 .condwait] ++ List.replicate 5 (.go 1 none) ++
    [.call 2 .lock, .go 2 none, .go 2 none, .go 2 none, .call 2 .condwait] ++ List.replicate 5 (.go 2 none) ++
    [.call 0 .condbroadcast, .go 0 none, .go 0 (some 2)])).map (fun s => (s.pc 1, s.pc 2, s.bdone)) =
    some (.parked (some 0), .chk false true, 1) := by decide

end Verif.Thread.Mutex
