import Verif.Thread.Rwlock

/-! # The invariant of the read/write lock -/

namespace Verif.Thread.Rwlock

def wr (p : PC) : Nat := if p.w then 1 else 0

/-- What is known at each place. -/
def locOk (p : PC) : Prop :=
  match p.loc with
  | .rcas _ v => nr v < Nrmask - 1 ∧ v < 2 ^ 32
  | .rmark v => nr v = Nrmask ∧ v < 2 ^ 32
  | .wmark v => v ≠ 0 ∧ v < 2 ^ 32
  | .rdec => 0 < p.r
  | .wown | .uclr | .uxch => p.w = true
  | _ => True

/-- Recorded as the owner. -/
def owning (p : PC) : Bool := p.w && p.loc != .wown && p.loc != .uxch

structure Inv {n : Nat} (s : St n) : Prop where
  bnd : s.word < 2 ^ 32
  one : tot wr s.pc ≤ 1
  w1 : tot wr s.pc = 1 → tot PC.r s.pc = 0 ∧ nr s.word = Nrmask
  w0 : tot wr s.pc = 0 → nr s.word = tot PC.r s.pc ∧ tot PC.r s.pc ≤ Nrmask - 1
  own1 : ∀ t, owning (s.pc t) = true → s.owner = some t
  own2 : ∀ t, s.owner = some t → owning (s.pc t) = true
  loc : ∀ t, locOk (s.pc t)
  wait : s.word = Waitbit → ∃ u, (s.pc u).loc = .rclr

theorem inv_init (n : Nat) : Inv (init n) := by
  have h1 : tot wr (init n).pc = 0 := tot_zero fun _ => rfl
  have h2 : tot PC.r (init n).pc = 0 := tot_zero fun _ => rfl
  refine ⟨show 0 < 2 ^ 32 by decide, by omega, by omega, fun _ => ⟨?_, ?_⟩, nofun, nofun, fun t => trivial,
    fun h => absurd (show 0 = Waitbit from h) (by decide)⟩
  · rw [h2]; rfl
  · omega

/-- One thread changes, and the word. -/
theorem inv_upd {n : Nat} {s : St n} (hi : Inv s) (t : Fin n) (x : PC) (v : Nat) (o : Option (Fin n)) (hv : v < 2 ^ 32)
    (hw : tot wr s.pc + wr x ≤ 1 + wr (s.pc t))
    (h1 : tot wr s.pc + wr x = 1 + wr (s.pc t) → tot PC.r s.pc + x.r = (s.pc t).r ∧ nr v = Nrmask)
    (h0 : tot wr s.pc + wr x = wr (s.pc t) → nr v + (s.pc t).r = tot PC.r s.pc + x.r ∧ tot PC.r s.pc + x.r ≤ Nrmask - 1 + (s.pc t).r)
    (ho : (o = s.owner ∧ owning x = owning (s.pc t)) ∨ (o = some t ∧ owning x = true ∧ ∀ u, owning (s.pc u) = true → u = t) ∨
      (o = none ∧ owning x = false ∧ ∀ u, owning (s.pc u) = true → u = t))
    (hl : locOk x) (hwt : v = Waitbit → x.loc = .rclr ∨ s.word = Waitbit ∧ (s.pc t).loc ≠ .rclr) :
    Inv { s with word := v, owner := o, pc := upd s.pc t x } := by
  obtain ⟨i1, i2, i3, i4, i5, i6, i7, i8⟩ := hi
  have e1 := tot_upd wr s.pc t x
  have e2 := tot_upd PC.r s.pc t x
  have e3 := le_tot wr s.pc t
  have e4 := le_tot PC.r s.pc t
  refine ⟨hv, by dsimp only; omega, ?_, ?_, ?_, ?_, ?_, ?_⟩ <;> dsimp only
  · intro h
    have := h1 (by omega)
    exact ⟨by omega, this.2⟩
  · intro h
    have := h0 (by omega)
    exact ⟨by omega, by omega⟩
  · intro u hu
    by_cases hut : u = t
    · subst hut
      rw [upd_same] at hu
      rcases ho with ⟨a, b⟩ | ⟨a, b, c⟩ | ⟨a, b, c⟩
      · rw [a]; exact i5 u (by rw [← b]; exact hu)
      · exact a
      · rw [b] at hu; cases hu
    · rw [upd_ne _ _ hut] at hu
      rcases ho with ⟨a, b⟩ | ⟨a, b, c⟩ | ⟨a, b, c⟩
      · rw [a]; exact i5 u hu
      · exact absurd (c u hu) hut
      · exact absurd (c u hu) hut
  · intro u hu
    by_cases hut : u = t
    · subst hut
      rw [upd_same]
      rcases ho with ⟨a, b⟩ | ⟨a, b, c⟩ | ⟨a, b, c⟩
      · rw [b]; exact i6 u (by rw [← a]; exact hu)
      · exact b
      · rw [a] at hu; cases hu
    · rw [upd_ne _ _ hut]
      rcases ho with ⟨a, b⟩ | ⟨a, b, c⟩ | ⟨a, b, c⟩
      · exact i6 u (by rw [← a]; exact hu)
      · rw [a] at hu; cases hu; exact absurd rfl hut
      · rw [a] at hu; cases hu
  · intro u
    by_cases hut : u = t
    · subst hut; rw [upd_same]; exact hl
    · rw [upd_ne _ _ hut]; exact i7 u
  · intro h
    rcases hwt h with h | ⟨h, hn⟩
    · exact ⟨t, by rw [upd_same]; exact h⟩
    · obtain ⟨u, hu⟩ := i8 h
      have : u ≠ t := by intro e; subst e; exact hn hu
      exact ⟨u, by rw [upd_ne _ _ this]; exact hu⟩

/-- One thread goes on. -/
theorem inv_at {n : Nat} {s : St n} (hi : Inv s) (t : Fin n) (l : Loc) (ho : owning { s.pc t with loc := l } = owning (s.pc t))
    (hl : locOk { s.pc t with loc := l }) (hc : (s.pc t).loc ≠ .rclr ∨ s.word ≠ Waitbit) : Inv (s.at t l) := by
  have := hi.one
  have hw1 := hi.w1
  have hw0 := hi.w0
  refine inv_upd hi t { s.pc t with loc := l } s.word s.owner hi.bnd ?_ ?_ ?_ (.inl ⟨rfl, ho⟩) hl ?_
  · show tot wr s.pc + wr (s.pc t) ≤ _; omega
  · show tot wr s.pc + wr (s.pc t) = _ → tot PC.r s.pc + (s.pc t).r = _ ∧ _
    intro h
    have := hw1 (by omega)
    exact ⟨by omega, this.2⟩
  · show tot wr s.pc + wr (s.pc t) = _ → _ = tot PC.r s.pc + (s.pc t).r ∧ tot PC.r s.pc + (s.pc t).r ≤ _
    intro h
    have := hw0 (by omega)
    omega
  · intro h
    rcases hc with hc | hc
    · exact .inr ⟨h, hc⟩
    · exact absurd h hc

theorem inv_dead {n : Nat} {s : St n} (hi : Inv s) : Inv { s with dead := true } := ⟨hi.1, hi.2, hi.3, hi.4, hi.5, hi.6, hi.7, hi.8⟩

/-- A writer gets in. -/
theorem inv_wr {n : Nat} {s : St n} (hi : Inv s) (t : Fin n) (hw : s.word = 0) :
    Inv { s with word := Nrmask, pc := upd s.pc t ⟨.wown, (s.pc t).r, true⟩ } := by
  have h1 := hi.one
  have hw1 := hi.w1
  have hw0 := hi.w0
  have hz : nr s.word = 0 := by rw [hw]; rfl
  have hN : Nrmask = 2147483647 := rfl
  have hW : tot wr s.pc = 0 := by
    by_cases h : tot wr s.pc = 1
    · have := (hw1 h).2; omega
    · omega
  have hr := (hw0 hW).1
  have e1 := le_tot wr s.pc t
  have e2 := le_tot PC.r s.pc t
  have hx : wr ⟨.wown, (s.pc t).r, true⟩ = 1 := rfl
  have hnw : ∀ u, owning (s.pc u) = false := by
    intro u
    have := le_tot wr s.pc u
    cases ho : owning (s.pc u) with
    | false => rfl
    | true =>
      have : (s.pc u).w = true := by
        revert ho; simp only [owning, Bool.and_eq_true]; intro h; exact h.1.1
      have : wr (s.pc u) = 1 := by simp [wr, this]
      omega
  refine inv_upd hi t ⟨.wown, (s.pc t).r, true⟩ Nrmask s.owner (by decide) (by omega) ?_ (by omega) (.inl ⟨rfl, ?_⟩) rfl (fun h => absurd h (by decide))
  · intro _; exact ⟨by dsimp only; omega, rfl⟩
  · rw [hnw t]; rfl

theorem owning_w {p : PC} (h : owning p = true) : p.w = true := by
  revert h; simp only [owning, Bool.and_eq_true]; intro h; exact h.1.1

theorem wr_w {p : PC} (h : p.w = true) : wr p = 1 := by simp [wr, h]
theorem wr_nw {p : PC} (h : p.w = false) : wr p = 0 := by simp [wr, h]

/-- The writer is alone. -/
theorem inv_alone {n : Nat} {s : St n} (hi : Inv s) {t u : Fin n} (ht : (s.pc t).w = true) (hu : (s.pc u).w = true) : t = u := by
  by_cases h : t = u
  · exact h
  · have := add_le_tot wr s.pc h ⟨.out, 0, false⟩ rfl
    have := hi.one
    have := wr_w ht
    have := wr_w hu
    omega

theorem inv_go {n : Nat} {s s' : St n} {t : Fin n} (hi : Inv s) (h : go s t = some s') : Inv s' := by
  have hlo := hi.loc t
  have hone := hi.one
  have hw1 := hi.w1
  have hw0 := hi.w0
  have hb := hi.bnd
  have e1 := le_tot wr s.pc t
  have e2 := le_tot PC.r s.pc t
  have hN : Nrmask = 2147483647 := rfl
  have hW : Waitbit = 2147483648 := rfl
  have hown : ∀ l, (s.pc t).loc ≠ .wown → (s.pc t).loc ≠ .uxch → l ≠ Loc.wown → l ≠ .uxch → owning { s.pc t with loc := l } = owning (s.pc t) := by
    intro l a b c d
    simp only [owning, bne, show ((s.pc t).loc == Loc.wown) = false from by simpa using a, show ((s.pc t).loc == Loc.uxch) = false from by simpa using b,
      show (l == Loc.wown) = false from by simpa using c, show (l == Loc.uxch) = false from by simpa using d]
  unfold go at h
  cases hp : (s.pc t).loc with
  | out => rw [hp] at h; cases h
  | rget y =>
    rw [hp] at h
    dsimp only at h
    have ho : ∀ l, l ≠ Loc.wown → l ≠ .uxch → owning { s.pc t with loc := l } = owning (s.pc t) := fun l =>
      hown l (by rw [hp]; nofun) (by rw [hp]; nofun)
    split at h
    · cases h; exact inv_dead hi
    rename_i n1
    split at h
    · rename_i n2
      cases h
      cases y
      · exact inv_at hi t _ (ho _ nofun nofun) ⟨n2, hb⟩ (.inl (by rw [hp]; nofun))
      · exact inv_at hi t _ (ho _ nofun nofun) trivial (.inl (by rw [hp]; nofun))
    · rename_i n2
      cases h
      refine inv_at hi t _ (ho _ nofun nofun) ⟨?_, hb⟩ (.inl (by rw [hp]; nofun))
      unfold nr at *
      omega
  | rcas y v =>
    rw [hp] at h
    dsimp only at h
    simp only [locOk, hp] at hlo
    split at h
    · rename_i hv
      cases h
      have hw : tot wr s.pc = 0 := by
        by_cases h : tot wr s.pc = 1
        · have := (hw1 h).2; rw [hv] at this; omega
        · omega
      have hr := hw0 hw
      rw [hv] at hr
      have hx : wr ⟨.out, (s.pc t).r + 1, (s.pc t).w⟩ = wr (s.pc t) := rfl
      have hnv : nr ((v + 1) % 2 ^ 32) = nr v + 1 := by unfold nr at *; omega
      refine inv_upd hi t ⟨.out, (s.pc t).r + 1, (s.pc t).w⟩ _ s.owner (by omega) (by omega) (by omega) (fun _ => ?_) (.inl ⟨rfl, ?_⟩) trivial ?_
      · dsimp only; omega
      · exact hown .out (by rw [hp]; nofun) (by rw [hp]; nofun) nofun nofun
      · intro hq; rw [hq] at hnv; rw [show nr Waitbit = 0 from rfl] at hnv; omega
    · cases h
      exact inv_at hi t _ (hown _ (by rw [hp]; nofun) (by rw [hp]; nofun) nofun nofun) trivial (.inl (by rw [hp]; nofun))
  | rmark v =>
    rw [hp] at h
    dsimp only at h
    simp only [locOk, hp] at hlo
    split at h
    · rename_i hv
      cases h
      have hw : tot wr s.pc = 1 := by
        by_cases h : tot wr s.pc = 0
        · have := hw0 h; rw [hv] at this; omega
        · omega
      have hr := (hw1 hw).1
      have hx : wr { s.pc t with loc := .rwait } = wr (s.pc t) := rfl
      refine inv_upd hi t { s.pc t with loc := .rwait } (Nrmask + Waitbit) s.owner (by decide) (by omega) (fun _ => ⟨?_, rfl⟩) (by omega)
        (.inl ⟨rfl, hown _ (by rw [hp]; nofun) (by rw [hp]; nofun) nofun nofun⟩) trivial (fun h => absurd h (by decide))
      dsimp only; omega
    · cases h
      exact inv_at hi t _ (hown _ (by rw [hp]; nofun) (by rw [hp]; nofun) nofun nofun) trivial (.inl (by rw [hp]; nofun))
  | rwait =>
    rw [hp] at h; cases h
    exact inv_at hi t _ (hown _ (by rw [hp]; nofun) (by rw [hp]; nofun) nofun nofun) trivial (.inl (by rw [hp]; nofun))
  | wchk =>
    rw [hp] at h
    dsimp only at h
    split at h
    · cases h; exact inv_dead hi
    · cases h
      exact inv_at hi t _ (hown _ (by rw [hp]; nofun) (by rw [hp]; nofun) nofun nofun) trivial (.inl (by rw [hp]; nofun))
  | wcas =>
    rw [hp] at h
    dsimp only at h
    split at h
    · rename_i hv; cases h; exact inv_wr hi t hv
    · rename_i hv; cases h
      exact inv_at hi t _ (hown _ (by rw [hp]; nofun) (by rw [hp]; nofun) nofun nofun) ⟨hv, hb⟩ (.inl (by rw [hp]; nofun))
  | wmark v =>
    rw [hp] at h
    dsimp only at h
    simp only [locOk, hp] at hlo
    split at h
    · rename_i hv
      cases h
      have hsw : setwait v < 2 ^ 32 ∧ nr (setwait v) = nr v := by
        unfold setwait waitbit nr
        split <;> rename_i hd <;> simp only [decide_eq_true_eq] at hd <;> omega
      have hx : wr { s.pc t with loc := .wwait } = wr (s.pc t) := rfl
      refine inv_upd hi t { s.pc t with loc := .wwait } (setwait v) s.owner hsw.1 (by omega) (fun h => ?_) (fun h => ?_)
        (.inl ⟨rfl, hown _ (by rw [hp]; nofun) (by rw [hp]; nofun) nofun nofun⟩) trivial ?_
      · have := hw1 (by omega)
        rw [hsw.2, ← hv]; dsimp only; omega
      · have := hw0 (by omega)
        rw [hsw.2, ← hv]; dsimp only; omega
      · intro hs
        refine .inr ⟨?_, by rw [hp]; nofun⟩
        rw [hv]
        unfold setwait waitbit at hs
        split at hs
        · exact hs
        · omega
    · cases h
      exact inv_at hi t _ (hown _ (by rw [hp]; nofun) (by rw [hp]; nofun) nofun nofun) trivial (.inl (by rw [hp]; nofun))
  | wwait =>
    rw [hp] at h; cases h
    exact inv_at hi t _ (hown _ (by rw [hp]; nofun) (by rw [hp]; nofun) nofun nofun) trivial (.inl (by rw [hp]; nofun))
  | wown =>
    rw [hp] at h; cases h
    simp only [locOk, hp] at hlo
    have hx : wr { s.pc t with loc := .out } = wr (s.pc t) := rfl
    refine inv_upd hi t { s.pc t with loc := .out } s.word (some t) hb (by omega) (fun h => ?_) (fun h => ?_)
      (.inr (.inl ⟨rfl, ?_, fun u hu => inv_alone hi (owning_w hu) hlo⟩)) trivial (fun hv => .inr ⟨hv, by rw [hp]; nofun⟩)
    · have := hw1 (by omega)
      dsimp only; omega
    · have := hw0 (by omega)
      dsimp only; omega
    · simp [owning, hlo]
  | wtry =>
    rw [hp] at h
    dsimp only at h
    split at h
    · rename_i hv; cases h; exact inv_wr hi t hv
    · cases h
      exact inv_at hi t _ (hown _ (by rw [hp]; nofun) (by rw [hp]; nofun) nofun nofun) trivial (.inl (by rw [hp]; nofun))
  | rdec =>
    rw [hp] at h
    dsimp only at h
    simp only [locOk, hp] at hlo
    have hw : tot wr s.pc = 0 := by
      by_cases h : tot wr s.pc = 1
      · have := (hw1 h).1; omega
      · omega
    have hr := hw0 hw
    rw [if_neg (by omega), Option.some.injEq] at h
    subst h
    have hx : wr ⟨dec s.word, (s.pc t).r - 1, (s.pc t).w⟩ = wr (s.pc t) := rfl
    have hnv : nr ((s.word + (2 ^ 32 - 1)) % 2 ^ 32) + 1 = nr s.word := by unfold nr at *; omega
    have hd : dec s.word = .rclr ∨ dec s.word = .out := by unfold dec; split <;> simp
    refine inv_upd hi t ⟨dec s.word, (s.pc t).r - 1, (s.pc t).w⟩ _ s.owner (by omega) (by omega) (by omega) (fun _ => ?_) (.inl ⟨rfl, ?_⟩) ?_ ?_
    · dsimp only; omega
    · refine hown (dec s.word) (by rw [hp]; nofun) (by rw [hp]; nofun) ?_ ?_
      · rcases hd with h | h <;> rw [h] <;> nofun
      · rcases hd with h | h <;> rw [h] <;> nofun
    · unfold locOk; dsimp only; rcases hd with h | h <;> rw [h] <;> exact trivial
    · intro hv
      refine .inl ?_
      show dec s.word = .rclr
      unfold dec
      rw [if_pos]
      unfold nr waitbit at *
      rw [decide_eq_true_eq]
      omega
  | rclr =>
    rw [hp] at h
    dsimp only at h
    split at h
    · rename_i hv
      cases h
      have hx : wr { s.pc t with loc := .rwake } = wr (s.pc t) := rfl
      have hnz : nr s.word = 0 := by rw [hv]; rfl
      refine inv_upd hi t { s.pc t with loc := .rwake } 0 s.owner (by decide) (by omega) (fun h => ?_) (fun h => ?_)
        (.inl ⟨rfl, hown _ (by rw [hp]; nofun) (by rw [hp]; nofun) nofun nofun⟩) trivial (fun h => absurd h (by decide))
      · have := hw1 (by omega); omega
      · have := hw0 (by omega)
        rw [show nr 0 = 0 from rfl]; dsimp only; omega
    · rename_i hv
      cases h
      exact inv_at hi t _ (hown _ (by rw [hp]; nofun) (by rw [hp]; nofun) nofun nofun) trivial (.inr hv)
  | rwake =>
    rw [hp] at h; cases h
    exact inv_at hi t _ (hown _ (by rw [hp]; nofun) (by rw [hp]; nofun) nofun nofun) trivial (.inl (by rw [hp]; nofun))
  | uchk =>
    rw [hp] at h
    dsimp only at h
    split at h
    · rename_i ho
      cases h
      exact inv_at hi t _ (hown _ (by rw [hp]; nofun) (by rw [hp]; nofun) nofun nofun) (show (s.pc t).w = true from owning_w (hi.own2 t ho)) (.inl (by rw [hp]; nofun))
    · cases h; exact inv_dead hi
  | uclr =>
    rw [hp] at h; cases h
    simp only [locOk, hp] at hlo
    have hx : wr { s.pc t with loc := .uxch } = wr (s.pc t) := rfl
    refine inv_upd hi t { s.pc t with loc := .uxch } s.word none hb (by omega) (fun h => ?_) (fun h => ?_)
      (.inr (.inr ⟨rfl, ?_, fun u hu => inv_alone hi (owning_w hu) hlo⟩)) hlo (fun hv => .inr ⟨hv, by rw [hp]; nofun⟩)
    · have := hw1 (by omega)
      dsimp only; omega
    · have := hw0 (by omega)
      dsimp only; omega
    · simp [owning]
  | uxch =>
    rw [hp] at h; cases h
    simp only [locOk, hp] at hlo
    have hx : wr ⟨if waitbit s.word then .uwake else .out, (s.pc t).r, false⟩ = 0 := rfl
    have hwt := wr_w hlo
    have hr := (hw1 (by omega)).1
    refine inv_upd hi t ⟨if waitbit s.word then .uwake else .out, (s.pc t).r, false⟩ 0 s.owner (by decide) (by omega) (by omega) (fun h => ?_)
      (.inl ⟨rfl, ?_⟩) ?_ (fun h => absurd h (by decide))
    · rw [show nr 0 = 0 from rfl]; dsimp only; omega
    · simp [owning, hp]
    · cases waitbit s.word <;> trivial
  | uwake =>
    rw [hp] at h; cases h
    exact inv_at hi t _ (hown _ (by rw [hp]; nofun) (by rw [hp]; nofun) nofun nofun) trivial (.inl (by rw [hp]; nofun))

theorem inv_step {n : Nat} (s : St n) (e : Ev n) (s' : St n) (hi : Inv s) (h : step s e = some s') : Inv s' := by
  cases e with
  | call t c =>
    unfold step at h
    dsimp only at h
    split at h
    · cases h
    split at h
    · rename_i hc
      cases h
      refine inv_at hi t _ ?_ ?_ (.inl (by rw [hc.1]; nofun))
      · simp only [owning, hc.1]
        cases c <;> rfl
      · cases c with
        | rdunlock => exact hc.2 rfl
        | _ => trivial
    · cases h
  | go t =>
    unfold step at h
    dsimp only at h
    split at h
    · cases h
    · exact inv_go hi h

theorem inv_run {n : Nat} {es : List (Ev n)} {s : St n} (h : run step (init n) es = some s) : Inv s :=
  run_inv inv_step (inv_init n) h

end Verif.Thread.Rwlock
