import Verif.Thread.QueueLemmas

/-!
# C23: the queue

lib/thread/queue.myr.
-/

namespace Verif.Thread.Queue

/-! ## Sleepers -/

/-- Sure to wake a sleeper, if there is one. -/
def pend : Loc → Bool
  | .psig | .pwake => true
  | _ => false

/-- Sure to look at the queue before sleeping. -/
def act : Loc → Bool
  | .glock | .gtest | .gtake | .crelock => true
  | _ => false

/-- The sequence number read by a waiter. -/
def seqno : Loc → Option Nat
  | .cunlock k | .cwait k | .parked k => some k
  | _ => none

/-- Asleep, or about to sleep. -/
def sleepy (sigs : Nat) : Loc → Bool
  | .parked _ => true
  | .cwait k => k == sigs
  | _ => false

/-- As long as there were less than `2 ^ 32` signals. -/
structure Live {n : Nat} (s : St n) : Prop where
  k1 : ∀ t k, seqno (s.pc t) = some k → k ≤ s.sigs
  k2 : ∀ t u k, s.pc t = .pwake → seqno (s.pc u) = some k → k < s.sigs
  wake : ∀ t, sleepy s.sigs (s.pc t) = true → s.enq.length ≤ s.deq.length + cnt pend s.pc + cnt act s.pc

theorem sigs_mono {n : Nat} {s s' : St n} {e : Ev n} (h : step s e = some s') : s.sigs ≤ s'.sigs := by
  cases e <;> unfold step at h
  case go t a w =>
    unfold go link at h
    dsimp only at h
    repeat' split at h
    all_goals first
      | cases h; done
      | (rw [Option.some.injEq] at h; subst h; simp)
  all_goals
    dsimp only at h
    repeat' split at h
    all_goals first
      | cases h; done
      | (rw [Option.some.injEq] at h; subst h; simp)

/-- A step of thread `t` to `x`; `e`, `d`: the histories. -/
theorem live_move {n : Nat} {s : St n} (hl : Live s) (t : Fin n) (x : Loc) (sg : Nat) (s' : St n) (hpc : s'.pc = upd s.pc t x) (hsg : s'.sigs = sg)
    (h1 : sg = s.sigs)
    (h2 : ∀ k, seqno x = some k → k ≤ sg ∧ (seqno (s.pc t) = some k ∨ ∀ u, s.pc u ≠ .pwake))
    (h3 : x ≠ .pwake)
    (h4 : s'.enq.length + s.deq.length + (if pend (s.pc t) = true then 1 else 0) + (if act (s.pc t) = true then 1 else 0) ≤
      s'.deq.length + s.enq.length + (if pend x = true then 1 else 0) + (if act x = true then 1 else 0) ∨ s'.enq.length ≤ s'.deq.length)
    (h5 : sleepy sg x = true → sleepy sg (s.pc t) = true ∨ s'.enq.length ≤ s'.deq.length) : Live s' := by
  obtain ⟨k1, k2, wk⟩ := hl
  subst hsg
  refine ⟨?_, ?_, ?_⟩
  · intro u k hu
    rw [hpc] at hu
    by_cases e : u = t
    · subst e; rw [upd_same] at hu; exact (h2 k hu).1
    · rw [upd_ne _ _ e] at hu; rw [h1]; exact k1 u k hu
  · intro a u k ha hu
    rw [hpc] at ha hu
    replace ha : s.pc a = .pwake := by
      by_cases e : a = t
      · subst e; rw [upd_same] at ha; exact absurd ha h3
      · rwa [upd_ne _ _ e] at ha
    rw [h1]
    by_cases e : u = t
    · subst e
      rw [upd_same] at hu
      rcases (h2 k hu).2 with h | h
      · exact k2 a u k ha h
      · exact absurd ha (h a)
    · rw [upd_ne _ _ e] at hu; exact k2 a u k ha hu
  · intro u hu
    by_cases hz : s'.enq.length ≤ s'.deq.length
    · omega
    have hs : ∃ v, sleepy s.sigs (s.pc v) = true := by
      rw [hpc] at hu
      by_cases e : u = t
      · subst e
        rw [upd_same] at hu
        rcases h5 hu with h | h
        · exact ⟨u, by rw [← h1]; exact h⟩
        · exact absurd h hz
      · rw [upd_ne _ _ e, h1] at hu; exact ⟨u, hu⟩
    obtain ⟨v, hv⟩ := hs
    have := wk v hv
    have c1 := cnt_upd pend s.pc t x
    have c2 := cnt_upd act s.pc t x
    rw [hpc]
    rcases h4 with h4 | h4 <;> omega

theorem link_enq {n : Nat} {s : St n} {q : List (Nat × Nat)} (hi : Inv s q) {t : Fin n} {a v : Nat} (hp : s.pc t = .plink a v) :
    (link s a v).enq = s.enq ++ [v] ∧ (link s a v).deq = s.deq ∧ (link s a v).sigs = s.sigs := by
  have hub := (inv_link hi hp).ub
  unfold link at hub ⊢
  repeat' split at hub
  all_goals first
    | cases hub
    | skip
  all_goals exact ⟨rfl, rfl, rfl⟩

theorem live_step {n : Nat} (s : St n) (e : Ev n) (s' : St n) (hi : (∃ q, Inv s q) ∧ (s.sigs < 2 ^ 32 → Live s)) (h : step s e = some s') :
    (∃ q, Inv s' q) ∧ (s'.sigs < 2 ^ 32 → Live s') := by
  refine ⟨inv_step s e s' hi.1 h, fun h32 => ?_⟩
  have hl := hi.2 (by have := sigs_mono h; omega)
  obtain ⟨q, hi⟩ := hi.1
  have hlen : s.enq.length = s.deq.length + q.length := by rw [hi.hist]; simp
  have hmutex : ∀ t u, crit (s.pc t) = true → crit (s.pc u) = true → t = u := by
    intro t u h1 h2
    rw [hi.hold] at h1 h2
    rw [h1] at h2
    exact Option.some.inj h2
  have nowake : ∀ t, crit (s.pc t) = true → s.pc t ≠ .pwake → ∀ u, s.pc u ≠ .pwake := by
    intro t h1 h2 u h3
    have := hmutex t u h1 (by rw [h3]; rfl)
    subst this
    exact h2 h3
  have move := fun t x (s' : St n) (hpc : s'.pc = upd s.pc t x) (hsg : s'.sigs = s.sigs) => live_move hl t x s.sigs s' hpc hsg rfl
  cases e with
  | put t v =>
    unfold step at h
    dsimp only at h
    split at h <;> cases h
    rename_i hp
    exact move t _ _ rfl rfl nofun nofun (by rw [hp]; left; simp [pend, act]; omega) nofun
  | get t =>
    unfold step at h
    dsimp only at h
    split at h <;> cases h
    rename_i hp
    exact move t _ _ rfl rfl nofun nofun (by rw [hp]; left; simp only [pend, act]; simp; omega) nofun
  | spurious t again =>
    unfold step at h
    dsimp only at h
    cases hp : s.pc t <;> rw [hp] at h <;> cases h
    rename_i k
    have h1 := hl.k1 t k (by rw [hp]; rfl)
    cases again
    · exact move t _ _ rfl rfl nofun nofun (by rw [hp]; left; simp [pend, act]; omega) nofun
    · refine move t _ _ rfl rfl ?_ nofun (by rw [hp]; left; simp [pend, act]; omega) ?_
      · intro k' hk
        rw [hp]
        cases hk
        exact ⟨h1, .inl rfl⟩
      · intro _; left; rw [hp]; rfl
  | go t a w =>
    unfold step go at h
    dsimp only at h
    have ht := hi.test t
    cases hp : s.pc t with
    | out => rw [hp] at h; cases h
    | palloc v =>
      rw [hp] at h
      dsimp only at h
      split at h <;> cases h
      exact move t _ _ rfl rfl nofun nofun (by rw [hp]; left; simp [pend, act]; omega) nofun
    | plock b v =>
      rw [hp] at h
      dsimp only at h
      split at h <;> cases h
      exact move t _ _ rfl rfl nofun nofun (by rw [hp]; left; simp [pend, act]; omega) nofun
    | plink b v =>
      rw [hp] at h; cases h
      obtain ⟨e1, e2, e3⟩ := link_enq hi hp
      refine move t .psig _ (by dsimp only; rw [link_pc]) e3 nofun nofun ?_ nofun
      dsimp only
      rw [hp, e1, e2]; left; simp [pend, act]; omega
    | psig =>
      rw [hp] at h; cases h
      have hold := nowake t (by rw [hp]; rfl) (by rw [hp]; nofun)
      dsimp only at h32
      refine ⟨?_, ?_, ?_⟩ <;> dsimp only
      · intro u k hu
        by_cases e : u = t
        · subst e; rw [upd_same] at hu; cases hu
        · rw [upd_ne _ _ e] at hu; have := hl.k1 u k hu; omega
      · intro _ u k _ hu
        by_cases e : u = t
        · subst e; rw [upd_same] at hu; cases hu
        · rw [upd_ne _ _ e] at hu; have := hl.k1 u k hu; omega
      · intro u hu
        have hs : sleepy s.sigs (s.pc u) = true := by
          by_cases e : u = t
          · subst e; rw [upd_same] at hu; cases hu
          · rw [upd_ne _ _ e] at hu
            cases hq : s.pc u <;> rw [hq] at hu <;> first
              | cases hu; done
              | rfl
              | skip
            rename_i k
            have := hl.k1 u k (by rw [hq]; rfl)
            simp only [sleepy, beq_iff_eq] at hu
            omega
        have := hl.wake u hs
        have c1 := cnt_upd pend s.pc t .pwake
        have c2 := cnt_upd act s.pc t .pwake
        rw [hp] at c1 c2
        simp [pend, act] at c1 c2
        omega
    | pwake =>
      rw [hp] at h
      dsimp only at h
      have nosleep : ∀ u, isParked (s.pc u) = false → sleepy s.sigs (s.pc u) = false := by
        intro u hu
        cases hq : s.pc u <;> first | rfl | skip
        · rename_i k
          have := hl.k2 t u k hp (by rw [hq]; rfl)
          show (k == s.sigs) = false
          rw [beq_eq_false_iff_ne]; omega
        · rw [hq] at hu; cases hu
      cases w with
      | none =>
        dsimp only at h
        split at h <;> cases h
        rename_i hnp
        refine ⟨?_, ?_, ?_⟩ <;> dsimp only
        · intro u k hu
          by_cases e : u = t
          · subst e; rw [upd_same] at hu; cases hu
          · rw [upd_ne _ _ e] at hu; exact hl.k1 u k hu
        · intro a u k ha hu
          exfalso
          by_cases e : a = t
          · subst e; rw [upd_same] at ha; cases ha
          · rw [upd_ne _ _ e] at ha
            exact e (hmutex a t (by rw [ha]; rfl) (by rw [hp]; rfl))
        · intro u hu
          by_cases e : u = t
          · subst e; rw [upd_same] at hu; cases hu
          · rw [upd_ne _ _ e, nosleep u (hnp u)] at hu; cases hu
      | some z =>
        dsimp only at h
        cases hz : s.pc z <;> rw [hz] at h <;> cases h
        rename_i kz
        have hne : t ≠ z := by intro e; rw [e] at hp; rw [hp] at hz; cases hz
        refine ⟨?_, ?_, ?_⟩ <;> dsimp only
        · intro u k hu
          by_cases e : u = t
          · subst e; rw [upd_same] at hu; cases hu
          · rw [upd_ne _ _ e] at hu
            by_cases e' : u = z
            · subst e'; rw [upd_same] at hu; cases hu
            · rw [upd_ne _ _ e'] at hu; exact hl.k1 u k hu
        · intro a u k ha hu
          exfalso
          by_cases e : a = t
          · subst e; rw [upd_same] at ha; cases ha
          · rw [upd_ne _ _ e] at ha
            by_cases e' : a = z
            · subst e'; rw [upd_same] at ha; cases ha
            · rw [upd_ne _ _ e'] at ha
              exact e (hmutex a t (by rw [ha]; rfl) (by rw [hp]; rfl))
        · intro u hu
          have := hl.wake z (by rw [hz]; rfl)
          have c1 := cnt_upd pend s.pc z .crelock
          have c2 := cnt_upd act s.pc z .crelock
          have c3 := cnt_upd pend (upd s.pc z .crelock) t .punlock
          have c4 := cnt_upd act (upd s.pc z .crelock) t .punlock
          rw [hz] at c1 c2
          rw [upd_ne _ _ hne, hp] at c3 c4
          simp [pend, act] at c1 c2 c3 c4
          omega
    | punlock =>
      rw [hp] at h; cases h
      exact move t _ _ rfl rfl nofun nofun (by rw [hp]; left; simp [pend, act]; omega) nofun
    | glock =>
      rw [hp] at h
      dsimp only at h
      split at h <;> cases h
      exact move t _ _ rfl rfl nofun nofun (by rw [hp]; left; simp [pend, act]; omega) nofun
    | gtest =>
      rw [hp] at h; cases h
      cases q with
      | nil =>
        have : s.hd = none := hi.hd
        rw [this, if_pos rfl]
        exact move t _ _ rfl rfl nofun nofun (.inr (by dsimp only; simp at hlen; omega)) nofun
      | cons c r =>
        have : s.hd = some c.1 := hi.hd
        rw [this, if_neg nofun]
        exact move t _ _ rfl rfl nofun nofun (by rw [hp]; left; simp [pend, act]; omega) nofun
    | cseq =>
      rw [hp] at h; cases h
      have hold := nowake t (by rw [hp]; rfl) (by rw [hp]; nofun)
      refine move t _ _ rfl rfl ?_ nofun (by rw [hp]; left; simp [pend, act]; omega) nofun
      intro k hk
      cases hk
      exact ⟨Nat.mod_le _ _, .inr hold⟩
    | cunlock k =>
      rw [hp] at h ht; cases h
      have hold := nowake t (by rw [hp]; rfl) (by rw [hp]; nofun)
      have hq : q = [] := ht
      have hz : s.enq.length ≤ s.deq.length := by rw [hlen, hq]; simp
      refine move t _ _ rfl rfl ?_ nofun (.inr hz) (fun _ => .inr hz)
      intro k' hk
      cases hk
      exact ⟨hl.k1 t k (by rw [hp]; rfl), .inr hold⟩
    | cwait k =>
      rw [hp] at h; cases h
      split
      · rename_i hk
        have : s.sigs < 2 ^ 32 := h32
        refine move t _ _ rfl rfl ?_ nofun (by rw [hp]; left; simp [pend, act]; omega) ?_
        · intro k' hk'
          rw [hp]
          cases hk'
          exact ⟨hl.k1 t k (by rw [hp]; rfl), .inl rfl⟩
        · intro _; left; rw [hp]; simp only [sleepy, beq_iff_eq]; omega
      · exact move t _ _ rfl rfl nofun nofun (by rw [hp]; left; simp [pend, act]; omega) nofun
    | parked k => rw [hp] at h; cases h
    | crelock =>
      rw [hp] at h
      dsimp only at h
      split at h <;> cases h
      exact move t _ _ rfl rfl nofun nofun (by rw [hp]; left; simp [pend, act]; omega) nofun
    | gtake =>
      rw [hp] at h ht
      cases q with
      | nil => exact absurd rfl ht
      | cons c r =>
        obtain ⟨b, v⟩ := c
        have hd : s.hd = some b := hi.hd
        dsimp only at h
        rw [hd] at h
        dsimp only at h
        rw [hi.lnk.1] at h
        cases h
        exact move t _ _ rfl rfl nofun nofun (by rw [hp]; left; simp [pend, act]; omega) nofun
    | gunlock b =>
      rw [hp] at h; cases h
      exact move t _ _ rfl rfl nofun nofun (by rw [hp]; left; simp [pend, act]; omega) nofun
    | gread b =>
      rw [hp] at h
      dsimp only at h
      obtain ⟨v, nx, hb, _⟩ : ∃ v nx, s.heap b = some (v, nx) ∧ _ := by have := hi.val t; rw [hp] at this; exact this
      rw [hb] at h
      cases h
      exact move t _ _ rfl rfl nofun nofun (by rw [hp]; left; simp [pend, act]; omega) nofun
    | gfree b v =>
      rw [hp] at h
      dsimp only at h
      cases hb : s.heap b with
      | none => have := hi.val t; rw [hp] at this; exact absurd hb this.1
      | some x =>
        rw [hb] at h
        cases h
        exact move t _ _ rfl rfl nofun nofun (by rw [hp]; left; simp [pend, act]; omega) nofun

theorem inv_run {n : Nat} {es : List (Ev n)} {s : St n} (hr : run step (init n) es = some s) :
    (∃ q, Inv s q) ∧ (s.sigs < 2 ^ 32 → Live s) :=
  run_inv (I := fun s => (∃ q, Inv s q) ∧ (s.sigs < 2 ^ 32 → Live s)) live_step
    ⟨⟨[], inv_init n⟩, fun _ => ⟨nofun, nofun, nofun⟩⟩ hr

/-! ## Properties -/

/-- **C23**: for any number of threads and any schedule no node is used after it was freed, freed twice or lost from the
list under the feet of another thread. -/
theorem queue_memory_safe {n : Nat} {es : List (Ev n)} {s : St n} (hr : run step (init n) es = some s) : s.ub = false := by
  obtain ⟨q, hi⟩ := (inv_run hr).1
  exact hi.ub

/-- **C23**: the values come out in the order in which they went in, none lost, none twice: what was taken is a prefix
of what was put. -/
theorem queue_fifo {n : Nat} {es : List (Ev n)} {s : St n} (hr : run step (init n) es = some s) : s.deq.map Prod.snd <+: s.enq := by
  obtain ⟨q, hi⟩ := (inv_run hr).1
  exact ⟨_, hi.hist.symm⟩

/-- **C23**: each `qget` returns the value it took from the queue: the values returned to a thread are those it took. -/
theorem queue_returns {n : Nat} {es : List (Ev n)} {s : St n} (hr : run step (init n) es = some s) {t : Fin n} (ht : s.pc t = .out) :
    s.ret t = (s.deq.filter fun x => x.1 = t).map Prod.snd := by
  obtain ⟨q, hi⟩ := (inv_run hr).1
  have := hi.val t
  rw [ht] at this
  exact Eq.symm this

/-- **C23**: no wake-up is lost: if all threads are outside of all calls or asleep in `qget`, and some thread is asleep,
then the queue is empty. Precondition: less than `2 ^ 32` calls of `qput` (see `cond_signal_violated`). -/
theorem queue_no_lost_wakeup {n : Nat} {es : List (Ev n)} {s : St n} (hr : run step (init n) es = some s) (h32 : s.sigs < 2 ^ 32)
    (hq : ∀ t, s.pc t = .out ∨ isParked (s.pc t) = true) {t : Fin n} (ht : isParked (s.pc t) = true) : s.enq = s.deq.map Prod.snd := by
  obtain ⟨⟨q, hi⟩, hl⟩ := inv_run hr
  have hw := (hl h32).wake t (by cases h : s.pc t <;> rw [h] at ht <;> first | rfl | cases ht)
  have h1 : cnt pend s.pc = 0 := cnt_zero fun u => by
    rcases hq u with h | h
    · rw [h]; rfl
    · cases e : s.pc u <;> rw [e] at h <;> first | rfl | cases h
  have h2 : cnt act s.pc = 0 := cnt_zero fun u => by
    rcases hq u with h | h
    · rw [h]; rfl
    · cases e : s.pc u <;> rw [e] at h <;> first | rfl | cases h
  have hlen := congrArg List.length hi.hist
  have : q = [] := by
    apply List.eq_nil_of_length_eq_zero
    simp at hlen
    omega
  rw [hi.hist, this]
  simp

/-- **C23**: no deadlock: while a value is in the queue and some thread is inside a call, some thread can take a step. -/
theorem queue_no_deadlock {n : Nat} {es : List (Ev n)} {s : St n} (hr : run step (init n) es = some s) (h32 : s.sigs < 2 ^ 32)
    (hne : s.enq ≠ s.deq.map Prod.snd) {t : Fin n} (ht : s.pc t ≠ .out) : ∃ u a w s', step s (.go u a w) = some s' := by
  obtain ⟨⟨q, hi⟩, hl⟩ := inv_run hr
  have nolock : ∀ u, s.pc u ≠ .out → isParked (s.pc u) = false → (s.holder = none ∨ crit (s.pc u) = true) → ∃ a w s', step s (.go u a w) = some s' := by
    intro u h1 h2 h3
    obtain ⟨b, hb⟩ := hi.fin
    show ∃ a w s', go s u a w = some s'
    unfold go
    cases hp : s.pc u with
    | out => exact absurd hp h1
    | palloc v => exact ⟨b, none, _, if_pos (hb b (Nat.le_refl _))⟩
    | plock a v => rcases h3 with h3 | h3; · exact ⟨0, none, _, if_pos h3⟩
                   · rw [hp] at h3; cases h3
    | pwake =>
      by_cases hw : ∀ z, isParked (s.pc z) = false
      · exact ⟨0, none, _, if_pos hw⟩
      · have hw : ∃ z, isParked (s.pc z) = true := by
          by_cases e : ∃ z, isParked (s.pc z) = true
          · exact e
          · exact absurd (fun z => by cases hz : isParked (s.pc z); · rfl
                                      · exact absurd ⟨z, hz⟩ e) hw
        obtain ⟨z, hz⟩ := hw
        cases e : s.pc z <;> rw [e] at hz <;> first | cases hz; done | skip
        exact ⟨0, some z, { s with pc := upd (upd s.pc z .crelock) u .punlock }, by dsimp only; rw [e]⟩
    | glock => rcases h3 with h3 | h3; · exact ⟨0, none, _, if_pos h3⟩
               · rw [hp] at h3; cases h3
    | crelock => rcases h3 with h3 | h3; · exact ⟨0, none, _, if_pos h3⟩
                 · rw [hp] at h3; cases h3
    | parked k => rw [hp] at h2; cases h2
    | gtake => dsimp only; repeat' split
               all_goals exact ⟨0, none, _, rfl⟩
    | gread b => dsimp only; repeat' split
                 all_goals exact ⟨0, none, _, rfl⟩
    | gfree b v => dsimp only; repeat' split
                   all_goals exact ⟨0, none, _, rfl⟩
    | _ => exact ⟨0, none, _, rfl⟩
  cases hh : s.holder with
  | some u =>
    have hc := (hi.hold u).mpr hh
    obtain ⟨a, w, s', h⟩ := nolock u (by intro e; rw [e] at hc; cases hc) (by cases e : s.pc u <;> rw [e] at hc <;> first | rfl | cases hc) (.inr hc)
    exact ⟨u, a, w, s', h⟩
  | none =>
    by_cases hall : ∀ u, s.pc u = .out ∨ isParked (s.pc u) = true
    · rcases hall t with h | h
      · exact absurd h ht
      · exact absurd (queue_no_lost_wakeup hr h32 hall h) hne
    · have : ∃ u, s.pc u ≠ .out ∧ isParked (s.pc u) = false := by
        classical
        by_cases e : ∃ u, s.pc u ≠ .out ∧ isParked (s.pc u) = false
        · exact e
        · refine absurd (fun u => ?_) hall
          by_cases e1 : s.pc u = .out
          · exact .inl e1
          · cases e2 : isParked (s.pc u)
            · exact absurd ⟨u, e1, e2⟩ e
            · exact .inr rfl
      obtain ⟨u, h1, h2⟩ := this
      obtain ⟨a, w, s', h⟩ := nolock u h1 h2 (.inl hh)
      exact ⟨u, a, w, s', h⟩

/-- Thread 1 sleeps; thread 0 puts 7 and 8; thread 2 steals 7; thread 1 gets 8. The address of 7 is used again. -/
example : (run step (init 3) ([.get 1] ++ List.replicate 5 (.go 1 0 none) ++ [.put 0 7] ++ List.replicate 4 (.go 0 5 none) ++
    [.go 0 0 (some 1), .go 0 0 none, .get 2, .go 2 0 none, .go 2 0 none, .go 2 0 none, .go 2 0 none, .go 2 0 none, .go 2 0 none, .put 0 8] ++
    List.replicate 6 (.go 0 5 none) ++ List.replicate 6 (.go 1 0 none))).map
    (fun s => ([s.pc 0, s.pc 1, s.pc 2], [s.enq, s.ret 1, s.ret 2], s.ub)) = some ([.out, .out, .out], [[7, 8], [8], [7]], false) := by decide

end Verif.Thread.Queue
