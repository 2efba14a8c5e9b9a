import Verif.Ra.LiveSpec

/-!
# Liveness
-/

namespace Verif.Ra

open Verif

/-! ## Instructions -/

theorem opregs_ok {args : List Opnd} : ∀ (ks : List Nat), (∀ k ∈ ks, k - 1 < args.length) → (∀ o, .reg o ∈ args → o.fix = false) →
    ∃ l, opregs args ks = .ok l ∧ ∀ r, r ∈ l ↔ ∃ k ∈ ks, ∃ o, args[k - 1]? = some (.reg o) ∧ o.id = r := by
  intro ks
  induction ks with
  | nil => intro _ _; exact ⟨[], rfl, by simp⟩
  | cons k ks ih =>
    intro h1 h2
    obtain ⟨t, h3, h4⟩ := ih (fun k hk => h1 k (List.mem_cons_of_mem _ hk)) h2
    obtain ⟨a, h5⟩ : ∃ a, args[k - 1]? = some a := ⟨_, List.getElem?_eq_getElem (h1 k List.mem_cons_self)⟩
    rw [opregs, h3, Res.bind_ok, h5]
    cases ha : a with
    | reg o =>
      have h6 : Opnd.reg o ∈ args := ha ▸ List.mem_of_getElem? h5
      refine ⟨o.id :: t, by simp [h2 o h6], fun r => ?_⟩
      simp only [List.mem_cons, h4, exists_eq_or_imp, h5, ha, Option.some.injEq, Opnd.reg.injEq, exists_eq_left']
      constructor
      · rintro (h | h)
        · exact .inl h.symm
        · exact .inr h
      · rintro (h | h)
        · exact .inl h.symm
        · exact .inr h
    | mem b x =>
      refine ⟨t, rfl, fun r => ?_⟩
      simp [h4, h5, ha]
    | other =>
      refine ⟨t, rfl, fun r => ?_⟩
      simp [h4, h5, ha]

theorem memregs_ok : ∀ (args : List Opnd), (∀ x, .mem none (some x) ∉ args) → (∀ b x, .mem b x ∈ args → ∀ o, b = some o → o.fix = false) →
    ∃ l, memregs args = .ok l ∧ ∀ r, r ∈ l ↔ ∃ b x, .mem b x ∈ args ∧ ((∃ o, b = some o ∧ o.id = r) ∨ ∃ o, x = some o ∧ o.id = r) := by
  intro args
  induction args with
  | nil => intro _ _; exact ⟨[], rfl, by simp⟩
  | cons a args ih =>
    intro h1 h2
    obtain ⟨t, h3, h4⟩ := ih (fun x hx => h1 x (List.mem_cons_of_mem _ hx)) (fun b x hx => h2 b x (List.mem_cons_of_mem _ hx))
    cases a with
    | reg o => exact ⟨t, by rw [memregs]; exact h3; simp, fun r => by simp [h4]⟩
    | other => exact ⟨t, by rw [memregs]; exact h3; simp, fun r => by simp [h4]⟩
    | mem b x =>
      have key : ∀ r, (∃ b' x', Opnd.mem b' x' ∈ Opnd.mem b x :: args ∧ ((∃ o, b' = some o ∧ o.id = r) ∨ ∃ o, x' = some o ∧ o.id = r)) ↔
          ((∃ o, b = some o ∧ o.id = r) ∨ ∃ o, x = some o ∧ o.id = r) ∨ r ∈ t := by
        intro r
        rw [h4]
        constructor
        · rintro ⟨b', x', hm, h⟩
          rcases List.mem_cons.1 hm with hm | hm
          · cases hm; exact .inl h
          · exact .inr ⟨b', x', hm, h⟩
        · rintro (h | ⟨b', x', hm, h⟩)
          · exact ⟨b, x, List.mem_cons_self, h⟩
          · exact ⟨b', x', List.mem_cons_of_mem _ hm, h⟩
      rw [memregs, h3, Res.bind_ok]
      cases b with
      | none =>
        cases x with
        | none => exact ⟨t, rfl, fun r => by rw [key]; simp⟩
        | some x => exact absurd List.mem_cons_self (h1 x)
      | some b =>
        have hb := h2 (some b) x List.mem_cons_self b rfl
        cases x with
        | none => exact ⟨b.id :: t, by simp [hb], fun r => by rw [key]; simp [eq_comm]⟩
        | some x => exact ⟨b.id :: x.id :: t, by simp [hb], fun r => by rw [key]; simp [eq_comm, or_assoc]⟩

theorem uses_ok {i : Insn} (h : i.Fits) (p : i.Plain) : ∃ u, uses i = .ok u ∧ ∀ r, r ∈ u ↔ Reads i r := by
  obtain ⟨a, h1, h2⟩ := opregs_ok i.usel (fun k hk => h.1 k (.inl hk)) p.1
  obtain ⟨b, h3, h4⟩ := memregs_ok i.args h.2 p.2
  refine ⟨a ++ i.user ++ b, by simp [uses, h1, h3], fun r => ?_⟩
  simp only [List.mem_append, h2, h4, Reads, or_assoc]

theorem defs_ok {i : Insn} (h : i.Fits) (p : i.Plain) : ∃ d, defs i = .ok d ∧ ∀ r, r ∈ d ↔ Writes i r := by
  obtain ⟨a, h1, h2⟩ := opregs_ok i.defl (fun k hk => h.1 k (.inr hk)) p.1
  refine ⟨a ++ i.defr, by simp [defs, h1], fun r => ?_⟩
  simp only [List.mem_append, h2, Writes]

/-! ## Blocks -/

/-- `r` is live before the instructions if `P` holds behind them. -/
def Lv (r : Nat) (P : Prop) : List Insn → Prop
  | [] => P
  | i :: is => Reads i r ∨ (¬ Writes i r ∧ Lv r P is)

/-- Some instruction writes `r`. -/
def Kills (r : Nat) (l : List Insn) : Prop := ∃ i ∈ l, Writes i r

theorem Lv_split (r : Nat) (P : Prop) (l : List Insn) : Lv r P l ↔ Lv r False l ∨ (P ∧ ¬ Kills r l) := by
  induction l with
  | nil => simp [Lv, Kills]
  | cons i l ih =>
    simp only [Lv, ih, Kills, List.mem_cons, exists_eq_or_imp, not_or]
    tauto

theorem udcalc_ok {l : List Insn} (h : ∀ i ∈ l, i.Fits ∧ i.Plain) (U D : Finset Nat) : ∃ p, udcalc l (U, D) = .ok p ∧
    (∀ r, r ∈ p.1 ↔ r ∈ U ∨ (r ∉ D ∧ Lv r False l)) ∧ ∀ r, r ∈ p.2 ↔ r ∈ D ∨ Kills r l := by
  induction l generalizing U D with
  | nil => exact ⟨(U, D), rfl, by simp [Lv], by simp [Kills]⟩
  | cons i l ih =>
    obtain ⟨h1, h2⟩ := h i List.mem_cons_self
    obtain ⟨u, u1, u2⟩ := uses_ok h1 h2
    obtain ⟨d, d1, d2⟩ := defs_ok h1 h2
    obtain ⟨p, p1, p2, p3⟩ := ih (fun j hj => h j (List.mem_cons_of_mem _ hj)) (U ∪ (u.toFinset \ D)) (D ∪ d.toFinset)
    refine ⟨p, ?_, fun r => ?_, fun r => ?_⟩
    · rw [udcalc, udstep, u1, d1]; simp only [Res.bind_ok]; exact p1
    · rw [p2]
      simp only [Finset.mem_union, Finset.mem_sdiff, List.mem_toFinset, u2, d2, Lv, not_or]
      tauto
    · rw [p3]
      simp only [Finset.mem_union, List.mem_toFinset, d2, Kills, List.mem_cons, exists_eq_or_imp]
      tauto

/-- The sets of a block are those of its instructions. -/
structure Ud (c : Code) (ud : UD) : Prop where
  use : ∀ b blk, At c b blk → ∀ r, r ∈ (ud b).1 ↔ Lv r False blk.il
  kill : ∀ b blk, At c b blk → ∀ r, r ∈ (ud b).2 ↔ Kills r blk.il

theorem udall_ok {c : Code} {k : Nat} (h : ∀ b blk, At c b blk → ∀ i ∈ blk.il, i.Fits ∧ i.Plain) : ∃ ud, udall c k = .ok ud ∧
    ∀ b blk, At c b blk → (∀ r, r ∈ (ud (b + k)).1 ↔ Lv r False blk.il) ∧ ∀ r, r ∈ (ud (b + k)).2 ↔ Kills r blk.il := by
  induction c generalizing k with
  | nil => exact ⟨_, rfl, fun b blk hb => by simp [At] at hb⟩
  | cons o c ih =>
    have h' : ∀ b blk, At c b blk → ∀ i ∈ blk.il, i.Fits ∧ i.Plain := fun b blk hb => h (b + 1) blk hb
    obtain ⟨ud, h1, h2⟩ := ih (k := k + 1) h'
    cases o with
    | none =>
      refine ⟨ud, h1, fun b blk hb => ?_⟩
      cases b with
      | zero => simp [At] at hb
      | succ b =>
        have := h2 b blk hb
        rwa [show b + (k + 1) = b + 1 + k by omega] at this
    | some o =>
      obtain ⟨p, p1, p2, p3⟩ := udcalc_ok (h 0 o rfl) ∅ ∅
      refine ⟨upd ud k p, by rw [udall, h1, Res.bind_ok, p1]; rfl, fun b blk hb => ?_⟩
      cases b with
      | zero =>
        simp only [At, List.getElem?_cons_zero, Option.some.injEq] at hb
        subst hb
        have e : upd ud k p (0 + k) = p := by simp [upd]
        rw [e]
        exact ⟨fun r => by rw [p2]; simp, fun r => by rw [p3]; simp⟩
      | succ b =>
        have := h2 b blk hb
        have e : upd ud k p (b + 1 + k) = ud (b + 1 + k) := by
          unfold upd; rw [if_neg (by omega)]
        rw [e]
        rwa [show b + (k + 1) = b + 1 + k by omega] at this

/-! ## Rounds -/

/-- Pointwise inclusion. -/
def Le (x y : Live) : Prop := ∀ i, (x i).1 ⊆ (y i).1 ∧ (x i).2 ⊆ (y i).2

theorem Le.refl (x : Live) : Le x x := fun _ => ⟨Finset.Subset.refl _, Finset.Subset.refl _⟩

theorem Le.trans {x y z : Live} (h : Le x y) (k : Le y z) : Le x z := fun i => ⟨(h i).1.trans (k i).1, (h i).2.trans (k i).2⟩

/-- The live-in set computed from a live-out set. -/
def thru (ud : UD) (b : Nat) (o : Finset Nat) : Finset Nat := (o \ (ud b).2) ∪ (ud b).1

theorem thru_mono (ud : UD) (b : Nat) {o o' : Finset Nat} (h : o ⊆ o') : thru ud b o ⊆ thru ud b o' := by
  intro r hr
  simp only [thru, Finset.mem_union, Finset.mem_sdiff] at hr ⊢
  rcases hr with ⟨h1, h2⟩ | h1
  · exact .inl ⟨h h1, h2⟩
  · exact .inr h1

/-- The invariant of the rounds: sets are sound for `I` and `O`. -/
structure Rd (ud : UD) (I O : Nat → Nat → Prop) (x : Live) : Prop where
  thru : ∀ b, (x b).1 ⊆ thru ud b (x b).2
  inn : ∀ b r, r ∈ (x b).1 → I b r
  out : ∀ b r, r ∈ (x b).2 → O b r

/-- The relations are closed under the equations. -/
structure Sound (c : Code) (ud : UD) (I O : Nat → Nat → Prop) : Prop where
  out : ∀ b blk s r, At c b blk → s ∈ blk.succ → I s r → O b r
  inn : ∀ b blk r, At c b blk → (O b r ∧ r ∉ (ud b).2) ∨ r ∈ (ud b).1 → I b r

theorem succin_ok {c : Code} {x : Live} {l : List Nat} (h : ∀ s ∈ l, ∃ blk, At c s blk) :
    ∃ t, succin c x l = .ok t ∧ ∀ r, r ∈ t ↔ ∃ s ∈ l, r ∈ (x s).1 := by
  induction l with
  | nil => exact ⟨∅, rfl, by simp⟩
  | cons j l ih =>
    obtain ⟨t, h1, h2⟩ := ih fun s hs => h s (List.mem_cons_of_mem _ hs)
    obtain ⟨blk, hb⟩ := h j List.mem_cons_self
    unfold At at hb
    refine ⟨(x j).1 ∪ t, by rw [succin, h1, Res.bind_ok, hb], fun r => ?_⟩
    simp [h2]

section
variable {c : Code} {ud : UD} {I O : Nat → Nat → Prop}

theorem liveone_ok (hs : ∀ b blk, At c b blk → ∀ s ∈ blk.succ, ∃ blk', At c s blk') (k : Sound c ud I O) {x : Live} (h : Rd ud I O x) (i : Nat) :
    ∃ y ch, liveone c ud x i = .ok (y, ch) ∧ Rd ud I O y ∧ Le x y ∧ (∀ j, j ≠ i → y j = x j) ∧
      (∀ blk, At c i blk → (y i).1 = thru ud i (y i).2 ∧ ∀ s ∈ blk.succ, (x s).1 ⊆ (y i).2) ∧
      (ch = false → (y i).2 = (x i).2) ∧ (ch = true → (y i).2 ≠ (x i).2) := by
  unfold liveone
  split
  · next b hb =>
    obtain ⟨t, h1, h2⟩ := succin_ok (x := x) (hs i b hb)
    simp only [h1, Res.bind_ok]
    have hsub : (x i).2 ⊆ (x i).2 ∪ t := Finset.subset_union_left
    have hin : (x i).1 ⊆ thru ud i ((x i).2 ∪ t) := (h.thru i).trans (thru_mono ud i hsub)
    have ho : ∀ r, r ∈ (x i).2 ∪ t → O i r := by
      intro r hr
      rcases Finset.mem_union.1 hr with hr | hr
      · exact h.out i r hr
      · obtain ⟨s, s1, s2⟩ := (h2 r).1 hr
        exact k.out i b s r hb s1 (h.inn s r s2)
    refine ⟨_, _, rfl, ⟨?_, ?_, ?_⟩, ?_, ?_, ?_, ?_, ?_⟩
    · intro j
      by_cases e : j = i
      · subst e; simp [upd, thru]
      · simp only [upd, if_neg e]; exact h.thru j
    · intro j r hr
      by_cases e : j = i
      · subst e
        simp only [upd, if_true] at hr
        refine k.inn j b r hb ?_
        simp only [Finset.mem_union, Finset.mem_sdiff] at hr
        rcases hr with ⟨hr, hd⟩ | hr
        · exact .inl ⟨ho r (Finset.mem_union.2 hr), hd⟩
        · exact .inr hr
      · simp only [upd, if_neg e] at hr; exact h.inn j r hr
    · intro j r hr
      by_cases e : j = i
      · subst e; simp only [upd, if_true] at hr; exact ho r hr
      · simp only [upd, if_neg e] at hr; exact h.out j r hr
    · intro j
      by_cases e : j = i
      · subst e; simp only [upd, if_true]; exact ⟨hin, hsub⟩
      · simp only [upd, if_neg e]; exact ⟨Finset.Subset.refl _, Finset.Subset.refl _⟩
    · intro j e; simp [upd, e]
    · intro blk hblk
      unfold At at hblk
      rw [hb] at hblk; cases hblk
      simp only [upd, if_true]
      refine ⟨rfl, fun s hs r hr => Finset.mem_union_right _ ((h2 r).2 ⟨s, hs, hr⟩)⟩
    · intro hc; simpa [upd] using hc
    · intro hc; simpa [upd] using hc
  · next hb =>
    refine ⟨x, false, rfl, h, Le.refl x, fun _ _ => rfl, fun blk hblk => absurd hblk (hb blk), fun _ => rfl, fun h => nomatch h⟩

/-- The sum of the sizes of the live-out sets. -/
def osize (x : Live) : Nat → Nat
  | 0 => 0
  | n + 1 => osize x n + (x n).2.card

theorem osize_mono {x y : Live} (h : Le x y) (n : Nat) : osize x n ≤ osize y n := by
  induction n with
  | zero => exact Nat.le_refl _
  | succ n ih =>
    have h2 := Finset.card_le_card (h n).2
    unfold osize; omega

theorem osize_lt {x y : Live} (h : Le x y) {n i : Nat} (hi : i < n) (hne : (y i).2 ≠ (x i).2) : osize x n < osize y n := by
  induction n with
  | zero => omega
  | succ n ih =>
    have h2 := Finset.card_le_card (h n).2
    unfold osize
    by_cases e : i = n
    · subst e
      have := osize_mono h i
      have := Finset.card_lt_card (Finset.ssubset_iff_subset_ne.2 ⟨(h i).2, hne.symm⟩); omega
    · have := ih (by omega); omega

theorem liveround_ok (hs : ∀ b blk, At c b blk → ∀ s ∈ blk.succ, ∃ blk', At c s blk') (k : Sound c ud I O) (n : Nat) {x : Live} (h : Rd ud I O x) :
    ∃ y ch, liveround c ud n x = .ok (y, ch) ∧ Rd ud I O y ∧ Le x y ∧ (∀ j, n ≤ j → y j = x j) ∧
      (∀ b blk, b < n → At c b blk → (y b).1 = thru ud b (y b).2 ∧ ∀ s ∈ blk.succ, (x s).1 ⊆ (y b).2 ∧ (b < s → (y s).1 ⊆ (y b).2)) ∧
      (ch = false → ∀ b, (y b).2 = (x b).2) ∧ (ch = true → ∀ m, n ≤ m → osize x m < osize y m) := by
  induction n generalizing x with
  | zero =>
    exact ⟨x, false, rfl, h, Le.refl x, fun _ _ => rfl, fun _ _ hb => absurd hb (by omega), fun _ _ => rfl, fun h => nomatch h⟩
  | succ n ih =>
    obtain ⟨y, ch, h1, h2, h3, h4, h5, h6, h7⟩ := liveone_ok hs k h n
    obtain ⟨z, ch', g1, g2, g3, g4, g5, g6, g7⟩ := ih h2
    refine ⟨z, ch || ch', by rw [liveround, h1, Res.bind_ok, g1, Res.bind_ok], g2, h3.trans g3, ?_, ?_, ?_, ?_⟩
    · intro j hj; rw [g4 j (by omega), h4 j (by omega)]
    · intro b blk hb hat
      by_cases e : b = n
      · subst e
        rw [g4 b (Nat.le_refl _)]
        obtain ⟨k1, k2⟩ := h5 blk hat
        refine ⟨k1, fun s hs => ⟨k2 s hs, fun hlt => ?_⟩⟩
        rw [g4 s (by omega), h4 s (by omega)]; exact k2 s hs
      · obtain ⟨k1, k2⟩ := g5 b blk (by omega) hat
        exact ⟨k1, fun s hs => ⟨(h3 s).1.trans (k2 s hs).1, (k2 s hs).2⟩⟩
    · intro hc b
      simp only [Bool.or_eq_false_iff] at hc
      rw [g6 hc.2 b]
      by_cases e : b = n
      · subst e; exact h6 hc.1
      · rw [h4 b e]
    · intro hc m hm
      simp only [Bool.or_eq_true] at hc
      rcases hc with hc | hc
      · exact Nat.lt_of_lt_of_le (osize_lt h3 (by omega) (h7 hc)) (osize_mono g3 m)
      · exact Nat.lt_of_le_of_lt (osize_mono h3 m) (g7 hc m (by omega))

/-- The sets satisfy the equations, up to inclusion. -/
structure Closed (c : Code) (ud : UD) (x : Live) : Prop where
  inn : ∀ b blk, At c b blk → (x b).1 = thru ud b (x b).2
  out : ∀ b blk, At c b blk → ∀ s ∈ blk.succ, (x s).1 ⊆ (x b).2

theorem at_lt {b : Nat} {blk : Blk} (h : At c b blk) : b < c.length := (List.getElem?_eq_some_iff.1 h).1

theorem liveloop_ok (hs : ∀ b blk, At c b blk → ∀ s ∈ blk.succ, ∃ blk', At c s blk') (k : Sound c ud I O) {f : Nat} {x y : Live} (h : Rd ud I O x)
    (hx : ∀ b blk, At c b blk → (x b).1 = thru ud b (x b).2) (hr : liveloop c ud f x = .ok y) : Rd ud I O y ∧ Closed c ud y := by
  induction f generalizing x with
  | zero => cases hr
  | succ f ih =>
    obtain ⟨z, ch, h1, h2, h3, h4, h5, h6, h7⟩ := liveround_ok hs k c.length h
    rw [liveloop, h1, Res.bind_ok] at hr
    simp only at hr
    split at hr
    · exact ih h2 (fun b blk hb => (h5 b blk (at_lt hb) hb).1) hr
    · next hc =>
      cases hr
      have h6 := h6 (by simpa using hc)
      refine ⟨h2, fun b blk hb => (h5 b blk (at_lt hb) hb).1, fun b blk hb s hsb => ?_⟩
      obtain ⟨blk', hb'⟩ := hs b blk hb s hsb
      have := ((h5 b blk (at_lt hb) hb).2 s hsb).1
      rw [hx s blk' hb', ← h6 s, ← (h5 s blk' (at_lt hb') hb').1] at this
      exact this

theorem liveloop_total (hs : ∀ b blk, At c b blk → ∀ s ∈ blk.succ, ∃ blk', At c s blk') (k : Sound c ud I O) {N : Nat}
    (hN : ∀ x, Rd ud I O x → osize x c.length ≤ N) : ∀ (f : Nat) (x : Live), Rd ud I O x → N < osize x c.length + f → ∃ y, liveloop c ud f x = .ok y := by
  intro f
  induction f with
  | zero => intro x h hf; have := hN x h; omega
  | succ f ih =>
    intro x h hf
    obtain ⟨z, ch, h1, h2, h3, h4, h5, h6, h7⟩ := liveround_ok hs k c.length h
    rw [liveloop, h1, Res.bind_ok]
    simp only
    split
    · next hc =>
      have := h7 hc c.length (Nat.le_refl _)
      exact ih z h2 (by omega)
    · exact ⟨z, rfl⟩
end

/-! ## The paths -/

theorem liveAt_iff {c : Code} {r b : Nat} {blk : Blk} (hb : At c b blk) : ∀ (n k : Nat), k + n = blk.il.length →
    (LiveAt c r b k ↔ Lv r (∃ s ∈ blk.succ, LiveAt c r s 0) (blk.il.drop k)) := by
  intro n
  induction n with
  | zero =>
    intro k hk
    rw [List.drop_eq_nil_of_le (by omega)]
    simp only [Lv]
    constructor
    · intro h
      cases h with
      | read h1 h2 h3 => unfold At at h1 hb; rw [h1] at hb; cases hb; rw [List.getElem?_eq_none (by omega)] at h2; cases h2
      | skip h1 h2 h3 => unfold At at h1 hb; rw [h1] at hb; cases hb; rw [List.getElem?_eq_none (by omega)] at h2; cases h2
      | edge h1 h2 h3 h4 => unfold At at h1 hb; rw [h1] at hb; cases hb; exact ⟨_, h3, h4⟩
    · rintro ⟨s, h1, h2⟩
      exact .edge hb (by omega) h1 h2
  | succ n ih =>
    intro k hk
    have hlt : k < blk.il.length := by omega
    rw [List.drop_eq_getElem_cons hlt]
    have hg : blk.il[k]? = some blk.il[k] := List.getElem?_eq_getElem hlt
    simp only [Lv]
    rw [← ih (k + 1) (by omega)]
    constructor
    · intro h
      cases h with
      | read h1 h2 h3 => unfold At at h1 hb; rw [h1] at hb; cases hb; rw [hg] at h2; cases h2; exact .inl h3
      | skip h1 h2 h3 h4 => unfold At at h1 hb; rw [h1] at hb; cases hb; rw [hg] at h2; cases h2; exact .inr ⟨h3, h4⟩
      | edge h1 h2 h3 h4 => unfold At at h1 hb; rw [h1] at hb; cases hb; omega
    · rintro (h | ⟨h1, h2⟩)
      · exact .read hb hg h
      · exact .skip hb hg h1 h2

theorem liveAt_block {c : Code} {r b : Nat} {blk : Blk} (hb : At c b blk) :
    LiveAt c r b 0 ↔ Lv r (∃ s ∈ blk.succ, LiveAt c r s 0) blk.il := by
  have := liveAt_iff (r := r) hb blk.il.length 0 (by omega)
  simpa using this

theorem exposed_iff {c : Code} {r b : Nat} {blk : Blk} (hb : At c b blk) : Exposed c r b ↔ Lv r False blk.il := by
  have gen : ∀ l : List Insn, Lv r False l ↔ ∃ (k : Nat) (i : Insn), l[k]? = some i ∧ Reads i r ∧ ∀ (j : Nat) (i' : Insn), j < k → l[j]? = some i' → ¬ Writes i' r := by
    intro l
    induction l with
    | nil => simp [Lv]
    | cons a l ih =>
      simp only [Lv, ih]
      constructor
      · rintro (h | ⟨h1, k, i, h2, h3, h4⟩)
        · exact ⟨0, a, rfl, h, fun j _ hj => absurd hj (by omega)⟩
        · refine ⟨k + 1, i, h2, h3, fun j i' hj hi => ?_⟩
          cases j with
          | zero => simp only [List.getElem?_cons_zero, Option.some.injEq] at hi; subst hi; exact h1
          | succ j => exact h4 j i' (by omega) hi
      · rintro ⟨k, i, h2, h3, h4⟩
        cases k with
        | zero => simp only [List.getElem?_cons_zero, Option.some.injEq] at h2; subst h2; exact .inl h3
        | succ k => exact .inr ⟨h4 0 a (by omega) rfl, k, i, h2, h3, fun j i' hj hi => h4 (j + 1) i' (by omega) hi⟩
  rw [gen]
  constructor
  · rintro ⟨blk', k, i, h1, h⟩
    unfold At at h1 hb; rw [h1] at hb; cases hb
    exact ⟨k, i, h⟩
  · rintro ⟨k, i, h⟩
    exact ⟨blk, k, i, hb, h⟩

theorem liveOut_iff {c : Code} {r b : Nat} {blk : Blk} (hb : At c b blk) : LiveOut c r b ↔ ∃ s ∈ blk.succ, LiveAt c r s 0 := by
  constructor
  · rintro ⟨blk', s, h1, h2, h3⟩
    unfold At at h1 hb; rw [h1] at hb; cases hb
    exact ⟨s, h2, h3⟩
  · rintro ⟨s, h2, h3⟩; exact ⟨blk, s, hb, h2, h3⟩

theorem sound_live {c : Code} {ud : UD} (hu : Ud c ud) : Sound c ud (fun b r => LiveAt c r b 0) (fun b r => LiveOut c r b) where
  out b blk s r hb hs h := ⟨blk, s, hb, hs, h⟩
  inn b blk r hb h := by
    rw [liveAt_block hb, Lv_split, ← liveOut_iff hb, ← hu.use b blk hb, ← hu.kill b blk hb]
    rcases h with h | h
    · exact .inr h
    · exact .inl h

theorem closed_live {c : Code} {ud : UD} {x : Live} (hu : Ud c ud) (h : Closed c ud x) {r b k : Nat} (hl : LiveAt c r b k) :
    ∀ blk, At c b blk → Lv r (r ∈ (x b).2) (blk.il.drop k) := by
  induction hl with
  | @read b k blk i h1 h2 h3 =>
    intro blk' hb
    unfold At at h1 hb; rw [h1] at hb; cases hb
    obtain ⟨h4, h5⟩ := List.getElem?_eq_some_iff.1 h2
    rw [List.drop_eq_getElem_cons h4, h5]
    exact .inl h3
  | @skip b k blk i h1 h2 h3 h4 ih =>
    intro blk' hb
    have := ih blk' hb
    unfold At at h1 hb; rw [h1] at hb; cases hb
    obtain ⟨h5, h6⟩ := List.getElem?_eq_some_iff.1 h2
    rw [List.drop_eq_getElem_cons h5, h6]
    exact .inr ⟨h3, this⟩
  | @edge b k s blk h1 h2 h3 h4 ih =>
    intro blk' hb
    have hb' := hb
    unfold At at h1 hb; rw [h1] at hb; cases hb
    rw [List.drop_eq_nil_of_le (by omega)]
    show r ∈ (x b).2
    have hex : ∃ blk', At c s blk' := by
      cases h4 with
      | read h _ _ => exact ⟨_, h⟩
      | skip h _ _ _ => exact ⟨_, h⟩
      | edge h _ _ _ => exact ⟨_, h⟩
    obtain ⟨blk', hs⟩ := hex
    apply h.out b blk hb' s h3
    rw [h.inn s blk' hs]
    have := ih blk' hs
    simp only [List.drop_zero] at this
    rw [Lv_split, ← hu.use s blk' hs, ← hu.kill s blk' hs] at this
    simp only [thru, Finset.mem_union, Finset.mem_sdiff]
    tauto

/-- Liveness comes from a read in this block, or from one in a block some edge leads to. -/
theorem live_exposed {c : Code} {r b k : Nat} (hl : LiveAt c r b k) : (∀ blk, At c b blk → Lv r False (blk.il.drop k)) ∨
    ∃ b' blk' s, At c b' blk' ∧ s ∈ blk'.succ ∧ Exposed c r s := by
  induction hl with
  | @read b k blk i h1 h2 h3 =>
    left
    intro blk' hb
    unfold At at h1 hb; rw [h1] at hb; cases hb
    obtain ⟨h4, h5⟩ := List.getElem?_eq_some_iff.1 h2
    rw [List.drop_eq_getElem_cons h4, h5]
    exact .inl h3
  | @skip b k blk i h1 h2 h3 h4 ih =>
    refine ih.imp (fun ih => ?_) id
    intro blk' hb
    have := ih blk' hb
    unfold At at h1 hb; rw [h1] at hb; cases hb
    obtain ⟨h5, h6⟩ := List.getElem?_eq_some_iff.1 h2
    rw [List.drop_eq_getElem_cons h5, h6]
    exact .inr ⟨h3, this⟩
  | @edge b k s blk h1 h2 h3 h4 ih =>
    right
    rcases ih with ih | ih
    · have hex : ∃ blk', At c s blk' := by
        cases h4 with
        | read h _ _ => exact ⟨_, h⟩
        | skip h _ _ _ => exact ⟨_, h⟩
        | edge h _ _ _ => exact ⟨_, h⟩
      obtain ⟨blk', hs⟩ := hex
      exact ⟨b, blk, s, h1, h3, (exposed_iff hs).2 (by simpa using ih blk' hs)⟩
    · exact ih

/-! ## The result -/

theorem liveness_exact {c : Code} (ok : c.Ok) {f : Nat} {x : Live} (hr : liveness f c = .ok x)
    (hf : (∃ b blk s r, At c b blk ∧ s ∈ blk.succ ∧ Exposed c r s) → ∃ b blk s r, At c b blk ∧ s ∈ blk.succ ∧ b < s ∧ Exposed c r s) :
    (∀ b r, r ∈ (x b).2 → LiveOut c r b) ∧ ∀ b r, LiveOut c r b → r ∈ (x b).2 := by
  obtain ⟨ud, u1, u2⟩ := udall_ok (k := 0) ok.fits
  have hu : Ud c ud := ⟨fun b blk hb => (u2 b blk hb).1, fun b blk hb => (u2 b blk hb).2⟩
  have hsd := sound_live hu
  have h0 : Rd ud (fun b r => LiveAt c r b 0) (fun b r => LiveOut c r b) (fun _ => (∅, ∅)) :=
    ⟨fun b r hr => absurd hr (Finset.notMem_empty r), fun b r hr => absurd hr (Finset.notMem_empty r),
      fun b r hr => absurd hr (Finset.notMem_empty r)⟩
  rw [liveness, u1, Res.bind_ok] at hr
  cases f with
  | zero => cases hr
  | succ f =>
    obtain ⟨z, ch, h1, h2, h3, h4, h5, h6, h7⟩ := liveround_ok ok.succ hsd c.length h0
    rw [liveloop, h1, Res.bind_ok] at hr
    simp only at hr
    split at hr
    · obtain ⟨k1, k2⟩ := liveloop_ok ok.succ hsd h2 (fun b blk hb => (h5 b blk (at_lt hb) hb).1) hr
      refine ⟨k1.out, ?_⟩
      rintro b r ⟨blk, s, g1, g2, g3⟩
      have hle : blk.il.length + 0 = blk.il.length := rfl
      have := closed_live hu k2 (.edge g1 rfl g2 g3) blk g1
      rw [List.drop_eq_nil_of_le (Nat.le_refl _)] at this
      exact this
    · next hc =>
      cases hr
      refine ⟨h2.out, ?_⟩
      have h6 := h6 (by simpa using hc)
      have none : ¬ ∃ b blk s r, At c b blk ∧ s ∈ blk.succ ∧ Exposed c r s := by
        intro he
        obtain ⟨b, blk, s, r, g1, g2, g3, g4⟩ := hf he
        obtain ⟨blk', g5⟩ := ok.succ b blk g1 s g2
        have k1 := ((h5 b blk (at_lt g1) g1).2 s g2).2 g3
        rw [(h5 s blk' (at_lt g5) g5).1, h6 b] at k1
        have : r ∈ thru ud s (x s).2 := by
          simp only [thru, Finset.mem_union]
          right
          rw [hu.use s blk' g5]; exact (exposed_iff g5).1 g4
        exact absurd (k1 this) (Finset.notMem_empty r)
      rintro b r ⟨blk, s, g1, g2, g3⟩
      exfalso
      rcases live_exposed g3 with k | ⟨b', blk', s', k1, k2, k3⟩
      · obtain ⟨blk', g5⟩ := ok.succ b blk g1 s g2
        exact none ⟨b, blk, s, r, g1, g2, (exposed_iff g5).2 (by simpa using k blk' g5)⟩
      · exact none ⟨b', blk', s', r, k1, k2, k3⟩

/-- All registers the blocks read before writing them. -/
def regsof (ud : UD) : Nat → Finset Nat
  | 0 => ∅
  | n + 1 => regsof ud n ∪ (ud n).1

theorem mem_regsof {ud : UD} {n r : Nat} : r ∈ regsof ud n ↔ ∃ b, b < n ∧ r ∈ (ud b).1 := by
  induction n with
  | zero => simp [regsof]
  | succ n ih =>
    simp only [regsof, Finset.mem_union, ih]
    constructor
    · rintro (⟨b, h1, h2⟩ | h)
      · exact ⟨b, by omega, h2⟩
      · exact ⟨n, by omega, h⟩
    · rintro ⟨b, h1, h2⟩
      by_cases e : b = n
      · subst e; exact .inr h2
      · exact .inl ⟨b, by omega, h2⟩

theorem liveness_total {c : Code} (ok : c.Ok) : ∃ f x, liveness f c = .ok x := by
  obtain ⟨ud, u1, u2⟩ := udall_ok (k := 0) ok.fits
  let R := regsof ud c.length
  have hsd : Sound c ud (fun _ r => r ∈ R) (fun _ r => r ∈ R) := by
    refine ⟨fun _ _ _ _ _ _ h => h, fun b blk r hb h => ?_⟩
    rcases h with h | h
    · exact h.1
    · exact mem_regsof.2 ⟨b, at_lt hb, h⟩
  have h0 : Rd ud (fun _ r => r ∈ R) (fun _ r => r ∈ R) (fun _ => (∅, ∅)) :=
    ⟨fun b r hr => absurd hr (Finset.notMem_empty r), fun b r hr => absurd hr (Finset.notMem_empty r),
      fun b r hr => absurd hr (Finset.notMem_empty r)⟩
  have hN : ∀ x, Rd ud (fun _ r => r ∈ R) (fun _ r => r ∈ R) x → osize x c.length ≤ c.length * R.card := by
    intro x hx
    have : ∀ n, osize x n ≤ n * R.card := by
      intro n
      induction n with
      | zero => simp [osize]
      | succ n ih =>
        have h2 : (x n).2.card ≤ R.card := Finset.card_le_card fun r hr => hx.out n r hr
        rw [osize, Nat.succ_mul]; omega
    exact this _
  obtain ⟨y, hy⟩ := liveloop_total ok.succ hsd hN (c.length * R.card + 1) _ h0 (by omega)
  exact ⟨_, y, by rw [liveness, u1, Res.bind_ok]; exact hy⟩

end Verif.Ra
