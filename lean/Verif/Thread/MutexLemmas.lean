import Verif.Thread.Mutex

/-! # The invariant of the mutex -/

namespace Verif.Thread.Mutex

/-- The thread holds the mutex. -/
def crit : PC → Bool
  | .out h | .chk h _ | .try h | .uchk h _ | .cread h | .sig1 h | .sig2 h _ | .bc1 h | .bc2 h _ => h
  | .own | .uclr _ | .uxch _ => true
  | _ => false

/-- The thread is recorded as the owner. -/
def owning : PC → Bool
  | .own | .uxch _ => false
  | p => crit p

/-- The thread will exchange or wake before it sleeps or returns. -/
def pending : PC → Bool
  | .uwake _ | .xch | .chk _ true => true
  | _ => false

structure Inv {n : Nat} (s : St n) : Prop where
  one : ∀ t u, crit (s.pc t) = true → crit (s.pc u) = true → t = u
  free : s.word = 0 → ∀ t, crit (s.pc t) = false
  held : s.word ≠ 0 → ∃ t, crit (s.pc t) = true
  own1 : ∀ t, owning (s.pc t) = true → s.owner = some t
  own2 : ∀ t, s.owner = some t → owning (s.pc t) = true
  two : s.word ≤ 2
  wake : ∀ t, isParked (s.pc t) = true → s.word = 2 ∨ ∃ u, pending (s.pc u) = true

theorem inv_init (n : Nat) : Inv (init n) :=
  ⟨by simp [init, crit], by simp [init, crit], by simp [init], by simp [init, owning, crit], by simp [init], by simp [init],
    by simp [init, isParked]⟩

/-- A thread moves and the mutex word stays. -/
theorem inv_move {n : Nat} {s : St n} (hi : Inv s) (t : Fin n) (x : PC) (hc : crit x = crit (s.pc t))
    (ho : owning x = owning (s.pc t)) (hx : isParked x = true → s.word = 2)
    (hp : pending (s.pc t) = true → pending x = true ∨ s.word = 2 ∨ (∀ u, isParked (s.pc u) = false) ∨ ∃ v, v ≠ t ∧ pending (s.pc v) = true) (q b v : Nat) :
    Inv { s with pc := upd s.pc t x, seq := q, bdone := b, wasted := v } := by
  obtain ⟨h1, h2, h3, h4, h5, h6, h7⟩ := hi
  have e1 : ∀ u, crit (upd s.pc t x u) = crit (s.pc u) := by
    intro u; by_cases hu : u = t
    · subst hu; rw [upd_same]; exact hc
    · rw [upd_ne _ _ hu]
  have e2 : ∀ u, owning (upd s.pc t x u) = owning (s.pc u) := by
    intro u; by_cases hu : u = t
    · subst hu; rw [upd_same]; exact ho
    · rw [upd_ne _ _ hu]
  refine ⟨?_, ?_, ?_, ?_, ?_, h6, ?_⟩
  · simpa only [e1] using h1
  · simpa only [e1] using h2
  · simpa only [e1] using h3
  · simpa only [e2] using h4
  · simpa only [e2] using h5
  · intro u hu
    dsimp only at hu ⊢
    by_cases hut : u = t
    · subst hut
      rw [upd_same] at hu
      exact .inl (hx hu)
    · rw [upd_ne _ _ hut] at hu
      rcases h7 u hu with h | ⟨v, hv⟩
      · exact .inl h
      · by_cases hvt : v = t
        · subst hvt
          rcases hp hv with h | h | h | ⟨v', hn, h⟩
          · exact .inr ⟨v, by rw [upd_same]; exact h⟩
          · exact .inl h
          · rw [h u] at hu; cases hu
          · exact .inr ⟨v', by rw [upd_ne _ _ hn]; exact h⟩
        · exact .inr ⟨v, by rw [upd_ne _ _ hvt]; exact hv⟩

/-- A thread takes the free mutex. -/
theorem inv_acq {n : Nat} {s : St n} (hi : Inv s) (hw : s.word = 0) (t : Fin n) (w' : Nat) (hw' : w' = 1 ∨ w' = 2)
    (hp : pending (s.pc t) = true → w' = 2) : Inv { s with word := w', pc := upd s.pc t .own } := by
  obtain ⟨h1, h2, h3, h4, h5, h6, h7⟩ := hi
  have hf := h2 hw
  have hown : ∀ u, owning (s.pc u) = false := by
    intro u
    cases ho : owning (s.pc u) with
    | false => rfl
    | true =>
      have := hf u
      revert ho this
      cases s.pc u <;> simp [owning, crit]
  refine ⟨?_, ?_, ?_, ?_, ?_, ?_, ?_⟩ <;> dsimp only
  · intro a b ha hb
    by_cases hat : a = t
    · by_cases hbt : b = t
      · rw [hat, hbt]
      · rw [upd_ne _ _ hbt, hf b] at hb; cases hb
    · rw [upd_ne _ _ hat, hf a] at ha; cases ha
  · omega
  · intro _; exact ⟨t, by rw [upd_same]; rfl⟩
  · intro u hu
    by_cases hut : u = t
    · subst hut; rw [upd_same] at hu; cases hu
    · rw [upd_ne _ _ hut, hown u] at hu; cases hu
  · intro u hu
    have := h5 u hu
    rw [hown u] at this; cases this
  · omega
  · intro u hu
    by_cases hut : u = t
    · subst hut; rw [upd_same] at hu; cases hu
    · rw [upd_ne _ _ hut] at hu
      rcases h7 u hu with h | ⟨v, hv⟩
      · omega
      · by_cases hvt : v = t
        · subst hvt; exact .inl (hp hv)
        · exact .inr ⟨v, by rw [upd_ne _ _ hvt]; exact hv⟩

/-- A thread marks the mutex it did not get. -/
theorem inv_mark {n : Nat} {s : St n} (hi : Inv s) (hw : s.word ≠ 0) : Inv { s with word := 2 } := by
  obtain ⟨h1, h2, h3, h4, h5, h6, h7⟩ := hi
  exact ⟨h1, by simp, fun _ => h3 hw, h4, h5, by simp, fun _ _ => .inl rfl⟩

/-- The owner is recorded. -/
theorem inv_own {n : Nat} {s : St n} (hi : Inv s) (t : Fin n) (ht : s.pc t = .own) :
    Inv { s with owner := some t, pc := upd s.pc t (.out true) } := by
  obtain ⟨h1, h2, h3, h4, h5, h6, h7⟩ := hi
  have hct : crit (s.pc t) = true := by rw [ht]; rfl
  have e1 : ∀ u, crit (upd s.pc t (.out true) u) = crit (s.pc u) := by
    intro u; by_cases hu : u = t
    · subst hu; rw [upd_same, ht]; rfl
    · rw [upd_ne _ _ hu]
  have hoc : ∀ p, owning p = true → crit p = true := by
    intro p; cases p <;> simp [owning, crit]
  refine ⟨?_, ?_, ?_, ?_, ?_, h6, ?_⟩ <;> dsimp only
  · simpa only [e1] using h1
  · simpa only [e1] using h2
  · simpa only [e1] using h3
  · intro u hu
    by_cases hut : u = t
    · rw [hut]
    · rw [upd_ne _ _ hut] at hu
      exact absurd (h1 u t (hoc _ hu) hct) hut
  · intro u hu
    cases hu
    rw [upd_same]; rfl
  · intro u hu
    by_cases hut : u = t
    · subst hut; rw [upd_same] at hu; cases hu
    · rw [upd_ne _ _ hut] at hu
      rcases h7 u hu with h | ⟨v, hv⟩
      · exact .inl h
      · refine .inr ⟨v, ?_⟩
        by_cases hvt : v = t
        · subst hvt; rw [ht] at hv; cases hv
        · rw [upd_ne _ _ hvt]; exact hv

/-- The owner is cleared. -/
theorem inv_clr {n : Nat} {s : St n} (hi : Inv s) (t : Fin n) (k : Option Nat) (ht : s.pc t = .uclr k) :
    Inv { s with owner := none, pc := upd s.pc t (.uxch k) } := by
  obtain ⟨h1, h2, h3, h4, h5, h6, h7⟩ := hi
  have hct : crit (s.pc t) = true := by rw [ht]; rfl
  have e1 : ∀ u, crit (upd s.pc t (.uxch k) u) = crit (s.pc u) := by
    intro u; by_cases hu : u = t
    · subst hu; rw [upd_same, ht]; rfl
    · rw [upd_ne _ _ hu]
  have hoc : ∀ p, owning p = true → crit p = true := by
    intro p; cases p <;> simp [owning, crit]
  refine ⟨?_, ?_, ?_, ?_, by simp, h6, ?_⟩ <;> dsimp only
  · simpa only [e1] using h1
  · simpa only [e1] using h2
  · simpa only [e1] using h3
  · intro u hu
    by_cases hut : u = t
    · subst hut; rw [upd_same] at hu; cases hu
    · rw [upd_ne _ _ hut] at hu
      exact absurd (h1 u t (hoc _ hu) hct) hut
  · intro u hu
    by_cases hut : u = t
    · subst hut; rw [upd_same] at hu; cases hu
    · rw [upd_ne _ _ hut] at hu
      rcases h7 u hu with h | ⟨v, hv⟩
      · exact .inl h
      · refine .inr ⟨v, ?_⟩
        by_cases hvt : v = t
        · subst hvt; rw [ht] at hv; cases hv
        · rw [upd_ne _ _ hvt]; exact hv

theorem crit_after (k : Option Nat) : crit (after k) = false := by cases k <;> rfl
theorem owning_after (k : Option Nat) : owning (after k) = false := by cases k <;> rfl
theorem parked_after (k : Option Nat) : isParked (after k) = false := by cases k <;> rfl

/-- The mutex is released. -/
theorem inv_release {n : Nat} {s : St n} (hi : Inv s) (t : Fin n) (k : Option Nat) (ht : s.pc t = .uxch k) :
    Inv { s with word := 0, pc := upd s.pc t (if s.word = 2 then .uwake k else after k) } := by
  obtain ⟨h1, h2, h3, h4, h5, h6, h7⟩ := hi
  have hct : crit (s.pc t) = true := by rw [ht]; rfl
  have hot : owning (s.pc t) = false := by rw [ht]; rfl
  have hoc : ∀ p, owning p = true → crit p = true := by
    intro p; cases p <;> simp [owning, crit]
  have hx : crit (if s.word = 2 then PC.uwake k else after k) = false ∧
      owning (if s.word = 2 then PC.uwake k else after k) = false ∧
      isParked (if s.word = 2 then PC.uwake k else after k) = false ∧
      (s.word = 2 → pending (if s.word = 2 then PC.uwake k else after k) = true) := by
    split
    · exact ⟨rfl, rfl, rfl, fun _ => rfl⟩
    · exact ⟨crit_after k, owning_after k, parked_after k, fun h => by omega⟩
  generalize hxe : (if s.word = 2 then PC.uwake k else after k) = x at hx ⊢
  obtain ⟨x1, x2, x3, x4⟩ := hx
  have hall : ∀ u, crit (upd s.pc t x u) = false := by
    intro u
    by_cases hut : u = t
    · subst hut; rw [upd_same]; exact x1
    · rw [upd_ne _ _ hut]
      cases hc : crit (s.pc u) with
      | false => rfl
      | true => exact absurd (h1 u t hc hct) hut
  refine ⟨?_, fun _ => hall, by simp, ?_, ?_, by simp, ?_⟩ <;> dsimp only
  · intro a b ha _
    rw [hall a] at ha; cases ha
  · intro u hu
    have := hoc _ hu
    rw [hall u] at this; cases this
  · intro u hu
    by_cases hut : u = t
    · subst hut
      have := h5 u hu
      rw [hot] at this; cases this
    · rw [upd_ne _ _ hut]; exact h5 u hu
  · intro u hu
    by_cases hut : u = t
    · subst hut; rw [upd_same, x3] at hu; cases hu
    · rw [upd_ne _ _ hut] at hu
      rcases h7 u hu with h | ⟨v, hv⟩
      · exact .inr ⟨t, by rw [upd_same]; exact x4 h⟩
      · refine .inr ⟨v, ?_⟩
        by_cases hvt : v = t
        · subst hvt; rw [ht] at hv; cases hv
        · rw [upd_ne _ _ hvt]; exact hv

/-- A sleeper is woken, so that it will exchange; another thread goes on. -/
theorem inv_wake {n : Nat} {s : St n} (hi : Inv s) (u : Fin n) (x : PC) (hu : isParked (s.pc u) = true ∨ isCparked (s.pc u) = true)
    (hx : pending x = true) (hc : crit x = false) : Inv { s with pc := upd s.pc u x } := by
  have hp : crit (s.pc u) = false ∧ owning (s.pc u) = false := by
    revert hu; cases s.pc u <;> simp [isParked, isCparked, crit, owning]
  have hx2 : owning x = false ∧ isParked x = false := by
    revert hx hc; cases x <;> simp [pending, crit, owning, isParked]
  exact inv_move hi u x (by rw [hc, hp.1]) (by rw [hx2.1, hp.2]) (by rw [hx2.2]; intro h; cases h) (fun _ => .inl hx) s.seq s.bdone s.wasted

/-- A broadcast. -/
theorem inv_requeue {n : Nat} {s : St n} (hi : Inv s) (u : Fin n) (hu : isCparked (s.pc u) = true) :
    Inv { s with pc := upd (fun v => requeue (s.pc v)) u (.chk false true) } := by
  obtain ⟨h1, h2, h3, h4, h5, h6, h7⟩ := hi
  have hp : crit (s.pc u) = false ∧ owning (s.pc u) = false := by
    revert hu; cases s.pc u <;> simp [isCparked, crit, owning]
  have e1 : ∀ v, crit (upd (fun v => requeue (s.pc v)) u (.chk false true) v) = crit (s.pc v) := by
    intro v; by_cases hv : v = u
    · subst hv; rw [upd_same, hp.1]; rfl
    · rw [upd_ne _ _ hv]; cases s.pc v <;> rfl
  have e2 : ∀ v, owning (upd (fun v => requeue (s.pc v)) u (.chk false true) v) = owning (s.pc v) := by
    intro v; by_cases hv : v = u
    · subst hv; rw [upd_same, hp.2]; rfl
    · rw [upd_ne _ _ hv]; cases s.pc v <;> rfl
  refine ⟨?_, ?_, ?_, ?_, ?_, h6, ?_⟩ <;> dsimp only
  · simpa only [e1] using h1
  · simpa only [e1] using h2
  · simpa only [e1] using h3
  · simpa only [e2] using h4
  · simpa only [e2] using h5
  · intro v _
    exact .inr ⟨u, by rw [upd_same]; rfl⟩

theorem inv_go {n : Nat} {s s' : St n} {t : Fin n} {w : Option (Fin n)} (hi : Inv s) (h : go s t w = some s') : Inv s' := by
  have dead : Inv { s with dead := true } := ⟨hi.1, hi.2, hi.3, hi.4, hi.5, hi.6, hi.7⟩
  unfold go at h
  cases hp : s.pc t with
  | out a => rw [hp] at h; cases h
  | chk a c =>
    rw [hp] at h
    dsimp only at h
    split at h
    · cases h; exact dead
    · rename_i ho
      cases h
      have ha : a = false := by
        cases a with
        | false => rfl
        | true => exact absurd (hi.own1 t (by rw [hp]; rfl)) ho
      subst ha
      cases c with
      | true => exact inv_move hi t .xch (by rw [hp]; rfl) (by rw [hp]; rfl) (by intro h; cases h) (fun _ => .inl rfl) s.seq s.bdone s.wasted
      | false => exact inv_move hi t (.spin 0) (by rw [hp]; rfl) (by rw [hp]; rfl) (by intro h; cases h) (by rw [hp]; intro h; cases h) s.seq s.bdone s.wasted
  | spin i =>
    rw [hp] at h
    dsimp only at h
    split at h
    · rename_i hw
      cases h
      exact inv_acq hi hw t 1 (.inl rfl) (by rw [hp]; intro h; cases h)
    split at h
    · cases h
      exact inv_move hi t _ (by rw [hp]; rfl) (by rw [hp]; rfl) (by intro h; cases h) (by rw [hp]; intro h; cases h) s.seq s.bdone s.wasted
    split at h
    · cases h
      exact inv_move hi t _ (by rw [hp]; rfl) (by rw [hp]; rfl) (by intro h; cases h) (by rw [hp]; intro h; cases h) s.seq s.bdone s.wasted
    · cases h
      exact inv_move hi t _ (by rw [hp]; rfl) (by rw [hp]; rfl) (by intro h; cases h) (by rw [hp]; intro h; cases h) s.seq s.bdone s.wasted
  | xch =>
    rw [hp] at h
    cases h
    by_cases hw : s.word = 0
    · rw [if_pos hw]
      exact inv_acq hi hw t 2 (.inr rfl) (fun _ => rfl)
    · rw [if_neg hw]
      exact inv_move (inv_mark hi hw) t .wait (by rw [hp]; rfl) (by rw [hp]; rfl) (by intro h; cases h) (fun _ => .inr (.inl rfl)) s.seq s.bdone s.wasted
  | wait =>
    rw [hp] at h
    cases h
    by_cases hw : s.word = 2
    · rw [if_pos hw]
      exact inv_move hi t _ (by rw [hp]; rfl) (by rw [hp]; rfl) (fun _ => hw) (by rw [hp]; intro h; cases h) s.seq s.bdone s.wasted
    · rw [if_neg hw]
      exact inv_move hi t _ (by rw [hp]; rfl) (by rw [hp]; rfl) (by intro h; cases h) (by rw [hp]; intro h; cases h) s.seq s.bdone s.wasted
  | parked k => rw [hp] at h; cases h
  | own =>
    rw [hp] at h
    cases h
    exact inv_own hi t hp
  | «try» a =>
    rw [hp] at h
    dsimp only at h
    split at h
    · rename_i hw
      cases h
      exact inv_acq hi hw t 1 (.inl rfl) (by rw [hp]; intro h; cases h)
    · cases h
      exact inv_move hi t _ (by rw [hp]; rfl) (by rw [hp]; rfl) (by intro h; cases h) (by rw [hp]; intro h; cases h) s.seq s.bdone s.wasted
  | uchk a k =>
    rw [hp] at h
    dsimp only at h
    split at h
    · rename_i ho
      cases h
      have ha : a = true := by
        have := hi.own2 t ho
        rw [hp] at this
        exact this
      subst ha
      exact inv_move hi t _ (by rw [hp]; rfl) (by rw [hp]; rfl) (by intro h; cases h) (by rw [hp]; intro h; cases h) s.seq s.bdone s.wasted
    · cases h; exact dead
  | uclr k =>
    rw [hp] at h
    cases h
    exact inv_clr hi t k hp
  | uxch k =>
    rw [hp] at h
    cases h
    exact inv_release hi t k hp
  | uwake k =>
    rw [hp] at h
    dsimp only at h
    cases w with
    | some u =>
      dsimp only at h
      split at h
      · rename_i hu
        cases h
        have hne : u ≠ t := by
          intro e; subst e; rw [hp] at hu; cases hu
        have hw : pending (woken (s.pc u)) = true ∧ crit (woken (s.pc u)) = false := by
          revert hu
          cases s.pc u with
          | parked k => intro _; cases k <;> exact ⟨rfl, rfl⟩
          | _ => intro h; cases h
        have hi' := inv_wake hi u (woken (s.pc u)) (.inl hu) hw.1 hw.2
        exact inv_move hi' t (after k) (by dsimp only; rw [upd_ne _ _ hne.symm, hp, crit_after]; rfl)
          (by dsimp only; rw [upd_ne _ _ hne.symm, hp, owning_after]; rfl) (by rw [parked_after]; intro h; cases h)
          (fun _ => .inr (.inr (.inr ⟨u, hne, by dsimp only; rw [upd_same]; exact hw.1⟩))) s.seq s.bdone s.wasted
      · cases h
    | none =>
      dsimp only at h
      split at h
      · cases h
      · rename_i hu
        cases h
        have hu' : ∀ u, isParked (s.pc u) = false := by
          intro u
          cases hq : isParked (s.pc u) with
          | false => rfl
          | true => exact absurd ⟨u, hq⟩ hu
        exact inv_move hi t (after k) (by rw [hp, crit_after]; rfl) (by rw [hp, owning_after]; rfl) (by rw [parked_after]; intro h; cases h)
          (fun _ => .inr (.inr (.inl hu'))) s.seq s.bdone s.wasted
  | cread a =>
    rw [hp] at h
    cases h
    exact inv_move hi t _ (by rw [hp]; rfl) (by rw [hp]; rfl) (by intro h; cases h) (by rw [hp]; intro h; cases h) s.seq s.bdone s.wasted
  | cwait k =>
    rw [hp] at h
    cases h
    split
    · exact inv_move hi t _ (by rw [hp]; rfl) (by rw [hp]; rfl) (by intro h; cases h) (by rw [hp]; intro h; cases h) s.seq s.bdone s.wasted
    · exact inv_move hi t _ (by rw [hp]; rfl) (by rw [hp]; rfl) (by intro h; cases h) (by rw [hp]; intro h; cases h) s.seq s.bdone s.wasted
  | cparked k => rw [hp] at h; cases h
  | sig1 a =>
    rw [hp] at h
    cases h
    exact inv_move hi t _ (by rw [hp]; rfl) (by rw [hp]; rfl) (by intro h; cases h) (by rw [hp]; intro h; cases h) _ s.bdone s.wasted
  | sig2 a m =>
    rw [hp] at h
    dsimp only at h
    cases w with
    | some u =>
      dsimp only at h
      split at h
      · rename_i hu
        cases h
        have hne : u ≠ t := by
          intro e; subst e; rw [hp] at hu; cases hu
        have hi' := inv_wake hi u (.chk false true) (.inr hu) rfl rfl
        exact inv_move hi' t (.out a) (by dsimp only; rw [upd_ne _ _ hne.symm, hp]; rfl)
          (by dsimp only; rw [upd_ne _ _ hne.symm, hp]; rfl) (by intro h; cases h)
          (fun _ => .inr (.inr (.inr ⟨u, hne, by dsimp only; rw [upd_same]; rfl⟩))) s.seq s.bdone s.wasted
      · cases h
    | none =>
      dsimp only at h
      split at h
      · cases h
      · cases h
        exact inv_move hi t _ (by rw [hp]; rfl) (by rw [hp]; rfl) (by intro h; cases h) (by rw [hp]; intro h; cases h) s.seq s.bdone _
  | bc1 a =>
    rw [hp] at h
    cases h
    exact inv_move hi t _ (by rw [hp]; rfl) (by rw [hp]; rfl) (by intro h; cases h) (by rw [hp]; intro h; cases h) _ s.bdone s.wasted
  | bc2 a m =>
    rw [hp] at h
    dsimp only at h
    cases w with
    | some u =>
      dsimp only at h
      split at h
      · rename_i hu
        cases h
        have hne : u ≠ t := by
          intro e; subst e; rw [hp] at hu; cases hu
        have hi' := inv_requeue hi u hu
        exact inv_move hi' t (.out a) (by dsimp only; rw [upd_ne _ _ hne.symm, hp]; rfl)
          (by dsimp only; rw [upd_ne _ _ hne.symm, hp]; rfl) (by intro h; cases h)
          (fun _ => .inr (.inr (.inr ⟨u, hne, by dsimp only; rw [upd_same]; rfl⟩))) s.seq _ s.wasted
      · cases h
    | none =>
      dsimp only at h
      split at h
      · cases h
      · cases h
        exact inv_move hi t _ (by rw [hp]; rfl) (by rw [hp]; rfl) (by intro h; cases h) (by rw [hp]; intro h; cases h) s.seq _ s.wasted

theorem inv_step {n : Nat} (s : St n) (e : Ev n) (s' : St n) (hi : Inv s) (h : step s e = some s') : Inv s' := by
  unfold step at h
  split at h
  · cases h
  cases e with
  | call t c =>
    dsimp only at h
    cases hp : s.pc t with
    | out a =>
      rw [hp] at h
      cases h
      have : crit (enter a c) = a ∧ owning (enter a c) = a ∧ isParked (enter a c) = false := by
        cases c <;> exact ⟨rfl, rfl, rfl⟩
      exact inv_move hi t _ (by rw [hp, this.1]; rfl) (by rw [hp, this.2.1]; rfl) (by rw [this.2.2]; intro h; cases h)
        (by rw [hp]; intro h; cases h) s.seq s.bdone s.wasted
    | _ => rw [hp] at h; cases h
  | go t w => exact inv_go hi h
  | spurious t again =>
    dsimp only at h
    cases hp : s.pc t with
    | parked k =>
      rw [hp] at h
      cases k with
      | none =>
        cases h
        split <;> exact inv_move hi t _ (by rw [hp]; rfl) (by rw [hp]; rfl) (by intro h; cases h) (by rw [hp]; intro h; cases h) s.seq s.bdone s.wasted
      | some k =>
        cases h
        split <;> exact inv_move hi t _ (by rw [hp]; rfl) (by rw [hp]; rfl) (by intro h; cases h) (by rw [hp]; intro h; cases h) s.seq s.bdone s.wasted
    | cparked k =>
      rw [hp] at h
      cases h
      split <;> exact inv_move hi t _ (by rw [hp]; rfl) (by rw [hp]; rfl) (by intro h; cases h) (by rw [hp]; intro h; cases h) s.seq s.bdone s.wasted
    | _ => rw [hp] at h; cases h

theorem inv_run {n : Nat} {es : List (Ev n)} {s : St n} (h : run step (init n) es = some s) : Inv s :=
  run_inv inv_step (inv_init n) h

end Verif.Thread.Mutex
