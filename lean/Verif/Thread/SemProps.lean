import Verif.Thread.Sem

/-!
# C22: the semaphore

lib/thread/sem+futex.myr.
-/

namespace Verif.Thread.Sem

/-! ## Invariant -/

/-- Counted in `_nwaiters`. -/
def inWait : Loc → Bool
  | .wget | .wcas _ | .wdec | .wwait | .parked => true
  | _ => false

/-- Will try to take a permit before it sleeps. -/
def trying : Loc → Bool
  | .wget | .wcas _ | .wwait => true
  | _ => false

/-- Will wake a sleeper. -/
def waking : Loc → Bool
  | .pchk _ hi => decide (0 < hi)
  | .pwake => true
  | _ => false

/-- A post made the value pass its maximum; the thread is about to kill the process. -/
def fatal : Loc → Bool
  | .pchk lo _ => lo == 2 ^ 32 - 1
  | _ => false

/-- What is known at each place. -/
def locOk : Loc → Prop
  | .wcas v | .tcas v => 0 < v
  | _ => True

structure Inv {n : Nat} (v : Nat) (s : St n) : Prop where
  bnd : s.val < 2 ^ 32
  le : s.waits + s.val ≤ v + s.posts
  mod : (s.waits + s.val) % 2 ^ 32 = (v + s.posts) % 2 ^ 32
  loc : ∀ t, locOk (s.pc t)

/-- As long as no post has passed the maximum. -/
structure Live {n : Nat} (v : Nat) (s : St n) : Prop where
  eq : s.waits + s.val = v + s.posts
  nw : s.nw = cnt inWait s.pc
  wake : (∃ t, s.pc t = .parked) → s.val ≤ cnt waking s.pc + cnt trying s.pc

def Over {n : Nat} (s : St n) : Prop := s.dead = true ∨ ∃ t, fatal (s.pc t) = true

theorem locOk_upd {n : Nat} {f : Fin n → Loc} (h : ∀ t, locOk (f t)) (t : Fin n) {x : Loc} (hx : locOk x) : ∀ u, locOk (upd f t x u) := by
  intro u
  by_cases hu : u = t
  · subst hu; rw [upd_same]; exact hx
  · rw [upd_ne _ _ hu]; exact h u

theorem inv_step {n v : Nat} (s : St n) (e : Ev n) (s' : St n) (hi : Inv v s) (h : step s e = some s') : Inv v s' := by
  obtain ⟨h1, h2, h3, h4⟩ := hi
  unfold step at h
  split at h
  · cases h
  cases e with
  | call t c =>
    dsimp only at h
    split at h <;> cases h
    exact ⟨h1, h2, h3, locOk_upd h4 t (by cases c <;> trivial)⟩
  | spurious t again =>
    dsimp only at h
    split at h <;> cases h
    exact ⟨h1, h2, h3, locOk_upd h4 t (by cases again <;> trivial)⟩
  | go t w =>
    dsimp only at h
    unfold go at h
    cases hp : s.pc t with
    | out => rw [hp] at h; cases h
    | winc => rw [hp] at h; cases h; exact ⟨h1, h2, h3, locOk_upd h4 t trivial⟩
    | wget =>
      rw [hp] at h; cases h
      refine ⟨h1, h2, h3, locOk_upd h4 t ?_⟩
      split
      · trivial
      · exact Nat.pos_of_ne_zero ‹_›
    | wcas x =>
      have hx : 0 < x := by have := h4 t; rw [hp] at this; exact this
      rw [hp] at h
      dsimp only at h
      split at h
      · rw [Option.some.injEq] at h; subst h
        have hd := dec32_pos hx
        refine ⟨?_, ?_, ?_, locOk_upd h4 t trivial⟩ <;> simp only [St.at] <;> omega
      · cases h; exact ⟨h1, h2, h3, locOk_upd h4 t trivial⟩
    | wdec =>
      rw [hp] at h
      dsimp only at h
      rw [Option.some.injEq] at h; subst h
      exact ⟨h1, h2, h3, locOk_upd h4 t trivial⟩
    | wwait =>
      rw [hp] at h; cases h
      refine ⟨h1, h2, h3, locOk_upd h4 t ?_⟩
      split <;> trivial
    | parked => rw [hp] at h; cases h
    | tget =>
      rw [hp] at h; cases h
      refine ⟨h1, h2, h3, locOk_upd h4 t ?_⟩
      split
      · trivial
      · exact Nat.pos_of_ne_zero ‹_›
    | tcas x =>
      have hx : 0 < x := by have := h4 t; rw [hp] at this; exact this
      rw [hp] at h
      dsimp only at h
      split at h
      · rw [Option.some.injEq] at h; subst h
        have hd := dec32_pos hx
        refine ⟨?_, ?_, ?_, locOk_upd h4 t trivial⟩ <;> simp only [St.at] <;> omega
      · cases h; exact ⟨h1, h2, h3, locOk_upd h4 t trivial⟩
    | padd =>
      rw [hp] at h; cases h
      refine ⟨?_, ?_, ?_, locOk_upd h4 t trivial⟩ <;> simp only [St.at] <;> omega
    | pchk lo hi =>
      rw [hp] at h
      dsimp only at h
      split at h
      · cases h; exact ⟨h1, h2, h3, h4⟩
      · cases h
        refine ⟨h1, h2, h3, locOk_upd h4 t ?_⟩
        split <;> trivial
    | pwake =>
      rw [hp] at h
      cases w with
      | some u =>
        dsimp only at h
        split at h <;> cases h
        exact ⟨h1, h2, h3, locOk_upd (locOk_upd h4 u (x := .wget) trivial) t (x := .out) trivial⟩
      | none =>
        dsimp only at h
        split at h <;> cases h
        exact ⟨h1, h2, h3, locOk_upd h4 t trivial⟩

/-- One thread goes from `s.pc t` to `x`. -/
theorem live_upd {n v : Nat} {s : St n} (hl : Live v s) (t : Fin n) (x : Loc) (val nw posts waits : Nat)
    (he : waits + val = v + posts)
    (hn : nw + (if inWait (s.pc t) = true then 1 else 0) = s.nw + (if inWait x = true then 1 else 0))
    (hw : (∃ u, upd s.pc t x u = .parked) → val + (if waking (s.pc t) = true then 1 else 0) + (if trying (s.pc t) = true then 1 else 0) ≤
      cnt waking s.pc + cnt trying s.pc + (if waking x = true then 1 else 0) + (if trying x = true then 1 else 0)) :
    Live v { s with pc := upd s.pc t x, val := val, nw := nw, posts := posts, waits := waits } := by
  have e1 := cnt_upd inWait s.pc t x
  have e2 := cnt_upd waking s.pc t x
  have e3 := cnt_upd trying s.pc t x
  have := hl.nw
  refine ⟨he, by dsimp only; omega, ?_⟩
  intro h
  have := hw h
  dsimp only
  omega

/-- A thread that does not fall asleep. -/
theorem parked_of_upd {n : Nat} {f : Fin n → Loc} {t : Fin n} {x : Loc} (h : ∃ u, upd f t x u = .parked) (hx : x ≠ .parked) : ∃ u, f u = .parked := by
  obtain ⟨u, hu⟩ := h
  by_cases e : u = t
  · subst e; rw [upd_same] at hu; exact absurd hu hx
  · rw [upd_ne _ _ e] at hu; exact ⟨u, hu⟩

theorem live_go {n v : Nat} {s s' : St n} {t : Fin n} {w : Option (Fin n)} (hn : n < 2 ^ 32) (hi : Inv v s) (hl : Live v s)
    (h : go s t w = some s') : Over s' ∨ Live v s' := by
  have heq := hl.eq
  have hw := hl.wake
  have hnw := hl.nw
  have hc := cnt_le inWait s.pc
  unfold go at h
  cases hp : s.pc t with
  | out => rw [hp] at h; cases h
  | winc =>
    rw [hp] at h; cases h
    have hlt : cnt inWait s.pc < 2 ^ 32 - 1 ∨ cnt inWait s.pc + 1 ≤ 2 ^ 32 - 1 ∨ n = 2 ^ 32 - 1 := by omega
    have hlt2 : cnt inWait s.pc + 1 ≤ n := by
      have e1 := cnt_upd inWait s.pc t .wget
      have e2 := cnt_le inWait (upd s.pc t .wget)
      rw [hp] at e1
      simp only [inWait, Bool.false_eq_true, if_false, if_true] at e1
      omega
    refine .inr (live_upd hl t .wget s.val ((s.nw + 1) % 2 ^ 32) s.posts s.waits heq ?_ (fun hx => ?_))
    · rw [hp]; simp only [inWait, Bool.false_eq_true, if_false, if_true]; omega
    · have := hw (parked_of_upd hx nofun)
      rw [hp]; simp only [waking, trying, Bool.false_eq_true, if_false, if_true]; omega
  | wget =>
    rw [hp] at h; cases h
    refine .inr ?_
    split
    · refine live_upd hl t .wwait s.val s.nw s.posts s.waits heq (by rw [hp]; rfl) (fun hx => ?_)
      have := hw (parked_of_upd hx nofun)
      rw [hp]; simp only [waking, trying, Bool.false_eq_true, if_false, if_true]; omega
    · refine live_upd hl t (.wcas s.val) s.val s.nw s.posts s.waits heq (by rw [hp]; rfl) (fun hx => ?_)
      have := hw (parked_of_upd hx nofun)
      rw [hp]; simp only [waking, trying, Bool.false_eq_true, if_false, if_true]; omega
  | wcas x =>
    have hx : 0 < x := by have := hi.loc t; rw [hp] at this; exact this
    have hb := hi.bnd
    rw [hp] at h
    dsimp only at h
    split at h
    · rename_i hv
      rw [Option.some.injEq] at h; subst h
      have hd := dec32_pos hx
      refine .inr (live_upd hl t .wdec (dec32 x) s.nw s.posts (s.waits + 1) (by omega) (by rw [hp]; rfl) (fun hx => ?_))
      have := hw (parked_of_upd hx nofun)
      rw [hp]; simp only [waking, trying, Bool.false_eq_true, if_false, if_true]; omega
    · cases h
      refine .inr (live_upd hl t .wget s.val s.nw s.posts s.waits heq (by rw [hp]; rfl) (fun hx => ?_))
      have := hw (parked_of_upd hx nofun)
      rw [hp]; simp only [waking, trying, Bool.false_eq_true, if_false, if_true]; omega
  | wdec =>
    rw [hp] at h
    dsimp only at h
    rw [Option.some.injEq] at h; subst h
    have hpos : 0 < cnt inWait s.pc := cnt_pos.mpr ⟨t, by rw [hp]; rfl⟩
    have hd := dec32_pos (v := s.nw) (by omega)
    refine .inr (live_upd hl t .out s.val (dec32 s.nw) s.posts s.waits heq ?_ (fun hx => ?_))
    · rw [hp]; simp only [inWait, Bool.false_eq_true, if_false, if_true]; omega
    · have := hw (parked_of_upd hx nofun)
      rw [hp]; simp only [waking, trying, Bool.false_eq_true, if_false]; omega
  | wwait =>
    rw [hp] at h; cases h
    have hpos : 0 < cnt trying s.pc := cnt_pos.mpr ⟨t, by rw [hp]; rfl⟩
    refine .inr ?_
    split
    · rename_i hz
      refine live_upd hl t .parked s.val s.nw s.posts s.waits heq (by rw [hp]; rfl) (fun hx => ?_)
      rw [hp]; simp only [waking, trying, Bool.false_eq_true, if_false, if_true]; omega
    · refine live_upd hl t .wget s.val s.nw s.posts s.waits heq (by rw [hp]; rfl) (fun hx => ?_)
      have := hw (parked_of_upd hx nofun)
      rw [hp]; simp only [waking, trying, Bool.false_eq_true, if_false, if_true]; omega
  | parked => rw [hp] at h; cases h
  | tget =>
    rw [hp] at h; cases h
    refine .inr ?_
    split
    · refine live_upd hl t .out s.val s.nw s.posts s.waits heq (by rw [hp]; rfl) (fun hx => ?_)
      have := hw (parked_of_upd hx nofun)
      rw [hp]; simp only [waking, trying, Bool.false_eq_true, if_false]; omega
    · refine live_upd hl t (.tcas s.val) s.val s.nw s.posts s.waits heq (by rw [hp]; rfl) (fun hx => ?_)
      have := hw (parked_of_upd hx nofun)
      rw [hp]; simp only [waking, trying, Bool.false_eq_true, if_false]; omega
  | tcas x =>
    have hx : 0 < x := by have := hi.loc t; rw [hp] at this; exact this
    have hb := hi.bnd
    rw [hp] at h
    dsimp only at h
    split at h
    · rename_i hv
      rw [Option.some.injEq] at h; subst h
      have hd := dec32_pos hx
      refine .inr (live_upd hl t .out (dec32 x) s.nw s.posts (s.waits + 1) (by omega) (by rw [hp]; rfl) (fun hx => ?_))
      have := hw (parked_of_upd hx nofun)
      rw [hp]; simp only [waking, trying, Bool.false_eq_true, if_false]; omega
    · cases h
      refine .inr (live_upd hl t .tget s.val s.nw s.posts s.waits heq (by rw [hp]; rfl) (fun hx => ?_))
      have := hw (parked_of_upd hx nofun)
      rw [hp]; simp only [waking, trying, Bool.false_eq_true, if_false]; omega
  | padd =>
    have hb := hi.bnd
    rw [hp] at h; cases h
    by_cases hov : s.val = 2 ^ 32 - 1
    · refine .inl (.inr ⟨t, ?_⟩)
      simp only [St.at, upd_same, fatal, hov]
      rfl
    · refine .inr (live_upd hl t (.pchk s.val s.nw) ((s.val + 1) % 2 ^ 32) ((s.nw + (s.val + 1) / 2 ^ 32) % 2 ^ 32) (s.posts + 1) s.waits (by omega) ?_ (fun hx => ?_))
      · rw [hp]; simp only [inWait, Bool.false_eq_true, if_false]; omega
      · have hx' := parked_of_upd hx nofun
        have := hw hx'
        obtain ⟨u, hu⟩ := hx'
        have hpos : 0 < cnt inWait s.pc := cnt_pos.mpr ⟨u, by rw [hu]; rfl⟩
        have hwk : waking (.pchk s.val s.nw) = true := by simp only [waking, decide_eq_true_eq]; omega
        rw [hp, hwk]; simp only [waking, trying, Bool.false_eq_true, if_false, if_true]; omega
  | pchk lo hi' =>
    rw [hp] at h
    dsimp only at h
    split at h
    · cases h; exact .inl (.inl rfl)
    · cases h
      refine .inr ?_
      split
      · rename_i hz
        refine live_upd hl t .pwake s.val s.nw s.posts s.waits heq (by rw [hp]; rfl) (fun hx => ?_)
        have := hw (parked_of_upd hx nofun)
        rw [hp]; simp only [waking, trying, Bool.false_eq_true, if_false, if_true, decide_eq_true_eq, hz]; omega
      · rename_i hz
        refine live_upd hl t .out s.val s.nw s.posts s.waits heq (by rw [hp]; rfl) (fun hx => ?_)
        have := hw (parked_of_upd hx nofun)
        rw [hp]; simp only [waking, trying, Bool.false_eq_true, if_false, decide_eq_true_eq, hz]; omega
  | pwake =>
    rw [hp] at h
    cases w with
    | some u =>
      dsimp only at h
      split at h
      · rename_i hu
        cases h
        have hne : t ≠ u := by intro e; subst e; rw [hp] at hu; cases hu
        have e1 := cnt_upd inWait s.pc u .wget
        have e2 := cnt_upd waking s.pc u .wget
        have e3 := cnt_upd trying s.pc u .wget
        rw [hu] at e1 e2 e3
        simp only [inWait, waking, trying, Bool.false_eq_true, if_false, if_true] at e1 e2 e3
        have f1 := cnt_upd inWait (upd s.pc u .wget) t .out
        have f2 := cnt_upd waking (upd s.pc u .wget) t .out
        have f3 := cnt_upd trying (upd s.pc u .wget) t .out
        rw [upd_ne _ _ hne, hp] at f1 f2 f3
        simp only [inWait, waking, trying, Bool.false_eq_true, if_false, if_true] at f1 f2 f3
        refine .inr ⟨heq, by dsimp only; omega, fun _ => ?_⟩
        have := hw ⟨u, hu⟩
        dsimp only
        omega
      · cases h
    | none =>
      dsimp only at h
      split at h
      · cases h
      · rename_i hno
        cases h
        refine .inr (live_upd hl t .out s.val s.nw s.posts s.waits heq (by rw [hp]; rfl) (fun hx => ?_))
        exact absurd (parked_of_upd hx nofun) hno

theorem over_step {n : Nat} {s s' : St n} {e : Ev n} (ho : Over s) (h : step s e = some s') : Over s' := by
  unfold step at h
  split at h
  · cases h
  rename_i hd
  rcases ho with ho | ⟨t, ht⟩
  · exact absurd ho hd
  have hlo : ∃ hi, s.pc t = .pchk (2 ^ 32 - 1) hi := by
    revert ht
    cases s.pc t with
    | pchk lo hi => simp only [fatal, beq_iff_eq]; intro h; rw [h]; exact ⟨hi, rfl⟩
    | _ => intro h; cases h
  obtain ⟨hi, hlo⟩ := hlo
  have keep : ∀ u x, u ≠ t → fatal (upd s.pc u x t) = true := fun u x hu => by rw [upd_ne _ _ (Ne.symm hu)]; exact ht
  cases e with
  | call u c =>
    dsimp only at h
    split at h <;> cases h
    rename_i hu
    exact .inr ⟨t, keep u _ (by intro e; subst e; rw [hlo] at hu; cases hu)⟩
  | spurious u again =>
    dsimp only at h
    split at h <;> cases h
    rename_i hu
    exact .inr ⟨t, keep u _ (by intro e; subst e; rw [hlo] at hu; cases hu)⟩
  | go u w =>
    dsimp only at h
    by_cases hut : u = t
    · subst hut
      unfold go at h
      rw [hlo] at h
      dsimp only at h
      rw [if_pos rfl] at h
      cases h; exact .inl rfl
    · unfold go at h
      cases hp : s.pc u with
      | pwake =>
        rw [hp] at h
        cases w with
        | some v =>
          dsimp only at h
          split at h <;> cases h
          rename_i hv
          refine .inr ⟨t, ?_⟩
          have hvt : v ≠ t := by intro e; subst e; rw [hlo] at hv; cases hv
          dsimp only
          rw [upd_ne _ _ (Ne.symm hut), upd_ne _ _ (Ne.symm hvt)]
          exact ht
        | none =>
          dsimp only at h
          split at h <;> cases h
          exact .inr ⟨t, keep u _ hut⟩
      | out => rw [hp] at h; cases h
      | parked => rw [hp] at h; cases h
      | _ =>
        rw [hp] at h
        dsimp only at h
        repeat' (split at h)
        all_goals
          rw [Option.some.injEq] at h
          subst h
          first
          | exact .inr ⟨t, keep u _ hut⟩
          | exact .inl rfl

theorem live_step {n v : Nat} (hn : n < 2 ^ 32) (s : St n) (e : Ev n) (s' : St n) (hi : Inv v s ∧ (Over s ∨ Live v s)) (h : step s e = some s') :
    Inv v s' ∧ (Over s' ∨ Live v s') := by
  refine ⟨inv_step s e s' hi.1 h, ?_⟩
  rcases hi.2 with ho | hl
  · exact .inl (over_step ho h)
  unfold step at h
  split at h
  · cases h
  cases e with
  | call t c =>
    dsimp only at h
    split at h <;> cases h
    rename_i hp
    refine .inr (live_upd hl t _ s.val s.nw s.posts s.waits hl.eq ?_ (fun hx => ?_))
    · rw [hp]; cases c <;> rfl
    · have := hl.wake (parked_of_upd hx (by cases c <;> nofun))
      rw [hp]; cases c <;> simp only [enter, waking, trying, Bool.false_eq_true, if_false] <;> omega
  | spurious t again =>
    dsimp only at h
    split at h <;> cases h
    rename_i hp
    refine .inr (live_upd hl t _ s.val s.nw s.posts s.waits hl.eq ?_ (fun hx => ?_))
    · rw [hp]; cases again <;> rfl
    · have := hl.wake ⟨t, hp⟩
      rw [hp]; cases again <;> simp only [waking, trying, Bool.false_eq_true, if_false, if_true] <;> omega
  | go t w => exact live_go hn hi.1 hl h

theorem inv_init (n : Nat) {v : Nat} (hv : v < 2 ^ 32) : Inv v (init n v) :=
  ⟨hv, by simp [init], by simp [init], fun _ => trivial⟩

theorem live_init (n v : Nat) : Live v (init n v) :=
  ⟨by simp [init], (cnt_zero fun _ => rfl).symm, fun ⟨_, h⟩ => by cases h⟩

/-! ## C22 -/

/-- **C22**: the waits that took a permit, and the permits left, never exceed the initial value and the posts; any number
of threads, any schedule. -/
theorem sem_bounded {n v : Nat} (hv : v < 2 ^ 32) {es : List (Ev n)} {s : St n} (hr : run step (init n v) es = some s) :
    s.waits + s.val ≤ v + s.posts :=
  (run_inv inv_step (inv_init n hv) hr).le

/-- **C22**: the value is the initial value plus the posts minus the waits, unless a post passed `2 ^ 32 - 1`, which ends
the process at the next step of the poster. -/
theorem sem_conserved {n v : Nat} (hn : n < 2 ^ 32) (hv : v < 2 ^ 32) {es : List (Ev n)} {s : St n} (hr : run step (init n v) es = some s)
    (hd : s.dead = false) (hf : ∀ t hi, s.pc t ≠ .pchk (2 ^ 32 - 1) hi) : s.val + s.waits = v + s.posts := by
  have h := run_inv (live_step hn) ⟨inv_init n hv, .inr (live_init n v)⟩ hr
  rcases h.2 with (h | ⟨t, h⟩) | h
  · rw [hd] at h; cases h
  · exfalso
    revert h
    have := hf t
    cases hp : s.pc t with
    | pchk lo hi =>
      simp only [fatal, beq_iff_eq]
      intro e
      rw [hp, e] at this
      exact this hi rfl
    | _ => intro h; cases h
  · have := h.eq; omega

/-- **C22**: a thread does not sleep while there is a permit for it: if the value is positive, some thread is on its way
to wake a sleeper or to take a permit. -/
theorem sem_no_lost_wakeup {n v : Nat} (hn : n < 2 ^ 32) (hv : v < 2 ^ 32) {es : List (Ev n)} {s : St n}
    (hr : run step (init n v) es = some s) (hd : s.dead = false) (hf : ∀ t hi, s.pc t ≠ .pchk (2 ^ 32 - 1) hi) {t : Fin n}
    (ht : s.pc t = .parked) (hp : 0 < s.val) :
    ∃ u, (s.pc u = .pwake ∨ ∃ lo hi, s.pc u = .pchk lo hi ∧ 0 < hi) ∨ s.pc u = .wget ∨ s.pc u = .wwait ∨ ∃ x, s.pc u = .wcas x := by
  have h := run_inv (live_step hn) ⟨inv_init n hv, .inr (live_init n v)⟩ hr
  rcases h.2 with (h | ⟨t, h⟩) | h
  · rw [hd] at h; cases h
  · exfalso
    revert h
    have := hf t
    cases hp : s.pc t with
    | pchk lo hi =>
      simp only [fatal, beq_iff_eq]
      intro e
      rw [hp, e] at this
      exact this hi rfl
    | _ => intro h; cases h
  · have hw := h.wake ⟨t, ht⟩
    by_cases h1 : 0 < cnt waking s.pc
    · obtain ⟨u, hu⟩ := cnt_pos.mp h1
      refine ⟨u, .inl ?_⟩
      revert hu
      cases s.pc u <;> simp [waking]
    · obtain ⟨u, hu⟩ := cnt_pos.mp (show 0 < cnt trying s.pc by omega)
      refine ⟨u, .inr ?_⟩
      revert hu
      cases s.pc u <;> simp [trying]

/-- A wait that ends took a permit: the count of waits goes up by one between the call and the return. -/
example : (run step (init 2 0) [.call 0 .wait, .go 0 none, .go 0 none, .go 0 none]).map (fun s => (s.pc 0, s.nw, s.waits)) = some (.parked, 1, 0) := by
  decide +kernel
example : (run step (init 2 0) [.call 0 .wait, .go 0 none, .go 0 none, .go 0 none, .call 1 .post, .go 1 none]).map (fun s => (s.pc 0, s.pc 1, s.val)) =
    some (.parked, .pchk 0 1, 1) := by decide +kernel
example : (run step (init 2 0) [.call 0 .wait, .go 0 none, .go 0 none, .go 0 none, .call 1 .post, .go 1 none, .go 1 none, .go 1 (some 0),
    .go 0 none, .go 0 none, .go 0 none]).map (fun s => (s.pc 0, s.pc 1, s.val, s.nw, s.posts, s.waits)) = some (.out, .out, 0, 0, 1, 1) := by decide +kernel
/-- Passing the maximum. -/
example : (run step (init 1 (2 ^ 32 - 1)) [.call 0 .post, .go 0 none, .go 0 none]).map (fun s => (s.val, s.dead)) = some (0, true) := by decide +kernel

end Verif.Thread.Sem
