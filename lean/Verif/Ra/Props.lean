import Verif.Ra.Spec
import Verif.Ra.Paint
import Verif.Ra.Build

/-!
# Properties of the register allocator (C39, C43, C76, C77)
-/

namespace Verif.Ra

open Verif

instance (r : Nat) : Decidable (Virtual r) := inferInstanceAs (Decidable (102 ≤ r))

/-! ## C39: liveness -/

/-- The analysis always ends, and finds each register some path reads before it writes it. -/
def FullClaim39 : Prop := ∀ c : Code, c.Ok → (∃ f x, liveness f c = .ok x) ∧
  ∀ f x, liveness f c = .ok x → ∀ b r, LiveOut c r b → r ∈ (x b).2

/-- An instruction which reads the first operand. -/
def rdi (r : Nat) : Insn := { args := [.reg ⟨r, false⟩], usel := [1], user := [], defl := [], defr := [], mov := false }
/-- An instruction which writes the first operand. -/
def wri (r : Nat) : Insn := { args := [.reg ⟨r, false⟩], usel := [], user := [], defl := [1], defr := [], mov := false }
/-- A move. -/
def mvi (a b : Nat) : Insn := { args := [.reg ⟨a, false⟩, .reg ⟨b, false⟩], usel := [1], user := [], defl := [2], defr := [], mov := true }
/-- An instruction which reads two operands and writes the second. -/
def add (a b : Nat) : Insn := { args := [.reg ⟨a, false⟩, .reg ⟨b, false⟩], usel := [1, 2], user := [], defl := [2], defr := [], mov := false }

theorem ok_of (c : Code) (h1 : ∀ o ∈ c, ∀ b, o = some b → ∀ i ∈ b.il, i.Fits ∧ i.Plain)
    (h2 : ∀ o ∈ c, ∀ b, o = some b → ∀ s ∈ b.succ, ∃ b', c[s]? = some (some b')) : c.Ok :=
  ⟨fun _ blk hb => h1 _ (List.mem_of_getElem? hb) blk rfl, fun _ blk hb => h2 _ (List.mem_of_getElem? hb) blk rfl⟩

theorem rdi_ok (r : Nat) : (rdi r).Fits ∧ (rdi r).Plain := by simp [rdi, Insn.Fits, Insn.Plain]
theorem wri_ok (r : Nat) : (wri r).Fits ∧ (wri r).Plain := by simp [wri, Insn.Fits, Insn.Plain]
theorem mvi_ok (a b : Nat) : (mvi a b).Fits ∧ (mvi a b).Plain := by simp [mvi, Insn.Fits, Insn.Plain]
theorem add_ok (a b : Nat) : (add a b).Fits ∧ (add a b).Plain := by simp [add, Insn.Fits, Insn.Plain]

/-- `x = f(); while true; g(x);;`: the body comes before the test, which reads no register. -/
def forever : Code := [some ⟨[wri 200], [2]⟩, some ⟨[rdi 200], [2]⟩, some ⟨[], [1]⟩]

theorem forever_ok : forever.Ok := by
  refine ok_of _ ?_ ?_
  · intro o ho b hb i hi
    subst hb
    simp only [forever, List.mem_cons, Option.some.injEq, List.not_mem_nil, or_false] at ho
    rcases ho with rfl | rfl | rfl
    · simp at hi; subst hi; exact wri_ok 200
    · simp at hi; subst hi; exact rdi_ok 200
    · simp at hi
  · intro o ho b hb s hs
    subst hb
    simp only [forever, List.mem_cons, Option.some.injEq, List.not_mem_nil, or_false] at ho
    rcases ho with rfl | rfl | rfl <;> (simp at hs; subst hs; exact ⟨_, rfl⟩)

/-- The loop stops too early: the first round changes no live-out set, although it changed live-in sets. -/
theorem liveness_violated : ¬ FullClaim39 := by
  intro h
  have h1 := (h forever forever_ok).2
  have h2 : ∃ x, liveness 1 forever = .ok x ∧ (x 0).2 = ∅ := by
    refine ⟨_, rfl, ?_⟩
    decide
  obtain ⟨x, h3, h4⟩ := h2
  have h5 : LiveOut forever 200 0 := by
    refine ⟨⟨[wri 200], [2]⟩, 2, rfl, by simp, .edge (b := 2) (s := 1) (blk := ⟨[], [1]⟩) rfl rfl (by simp) ?_⟩
    exact .read (blk := ⟨[rdi 200], [2]⟩) (i := rdi 200) rfl rfl (.inl ⟨1, by simp [rdi], ⟨200, false⟩, rfl, rfl⟩)
  have := h1 1 x h3 0 200 h5
  rw [h4] at this
  exact absurd this (Finset.notMem_empty _)

/-- C39 (partial): the analysis ends for every function. If some block that reads a register before writing it is entered by
a forward edge (or no such block is entered at all), the live-out sets are exactly the registers live on some path.
Missing: functions in which such blocks are entered by backward edges only (`liveness_violated`). -/
theorem liveness_partial (c : Code) (ok : c.Ok) : (∃ f x, liveness f c = .ok x) ∧
    (((∃ b blk s r, At c b blk ∧ s ∈ blk.succ ∧ Exposed c r s) → ∃ b blk s r, At c b blk ∧ s ∈ blk.succ ∧ b < s ∧ Exposed c r s) →
    ∀ f x, liveness f c = .ok x → ∀ b r, r ∈ (x b).2 ↔ LiveOut c r b) := by
  refine ⟨liveness_total ok, fun hf f x hr b r => ?_⟩
  obtain ⟨h1, h2⟩ := liveness_exact ok hr hf
  exact ⟨h1 b r, h2 b r⟩

/-- `x = f(); while c; g(x);;` with the test in a register. -/
def looping : Code := [some ⟨[wri 200, wri 201], [2]⟩, some ⟨[rdi 200], [2]⟩, some ⟨[rdi 201], [1, 3]⟩, some ⟨[], []⟩]

theorem looping_ok : looping.Ok := by
  refine ok_of _ ?_ ?_
  · intro o ho b hb i hi
    subst hb
    simp only [looping, List.mem_cons, Option.some.injEq, List.not_mem_nil, or_false] at ho
    rcases ho with rfl | rfl | rfl | rfl
    · simp at hi; rcases hi with rfl | rfl
      · exact wri_ok 200
      · exact wri_ok 201
    · simp at hi; subst hi; exact rdi_ok 200
    · simp at hi; subst hi; exact rdi_ok 201
    · simp at hi
  · intro o ho b hb s hs
    subst hb
    simp only [looping, List.mem_cons, Option.some.injEq, List.not_mem_nil, or_false] at ho
    rcases ho with rfl | rfl | rfl | rfl
    · simp at hs; subst hs; exact ⟨_, rfl⟩
    · simp at hs; subst hs; exact ⟨_, rfl⟩
    · simp at hs; rcases hs with rfl | rfl <;> exact ⟨_, rfl⟩
    · simp at hs

theorem looping_forward : ∃ b blk s r, At looping b blk ∧ s ∈ blk.succ ∧ b < s ∧ Exposed looping r s :=
  ⟨0, _, 2, 201, rfl, by simp, by omega, _, 0, rdi 201, rfl, rfl, .inl ⟨1, by simp [rdi], ⟨201, false⟩, rfl, rfl⟩, fun _ _ h => absurd h (by omega)⟩

example : ∃ x, liveness 3 looping = .ok x ∧ (x 0).2 = {200, 201} ∧ (x 3).2 = ∅ ∧ ∀ b r, r ∈ (x b).2 ↔ LiveOut looping r b := by
  refine ⟨_, rfl, by decide, by decide, ?_⟩
  exact (liveness_partial looping looping_ok).2 (fun _ => looping_forward) 3 _ rfl

/-! ## C76: the interference graph -/

theorem ismove_iff (i : Insn) (m : Nat × Nat) : ismove i = some m ↔ Copies i m.1 m.2 := by
  unfold ismove Copies
  split
  · next h =>
    split
    · next a b rest ha =>
      constructor
      · intro hm; cases hm; exact ⟨h, a, b, rest, ha, rfl, rfl⟩
      · rintro ⟨_, a', b', rest', h1, h2, h3⟩
        rw [ha] at h1
        cases h1
        rw [h2, h3]
    · next hn =>
      constructor
      · intro hm; cases hm
      · rintro ⟨_, a, b, rest, h1, _⟩
        exact absurd h1 (hn a b rest)
  · next h => simp [h]

theorem ismove_ne (i : Insn) : ismove i ≠ none ↔ ∃ a b, Copies i a b := by
  rw [Option.ne_none_iff_exists']
  constructor
  · rintro ⟨m, hm⟩; exact ⟨m.1, m.2, (ismove_iff i m).1 hm⟩
  · rintro ⟨a, b, h⟩; exact ⟨(a, b), (ismove_iff i (a, b)).2 h⟩

/-- The register is virtual, or no copy in the block reads another name of it. -/
def Quiet (blk : Blk) (r : Nat) : Prop :=
  Virtual r ∨ (r ≠ 0 ∧ ∀ i ∈ blk.il, (∃ a b, Copies i a b) → ∀ u, Reads i u → ¬ Virtual u → u = r ∨ (Usable u ∧ ¬ Overlap u r))

theorem rm_lt : ∀ i m, rm i m < Nreg := by
  intro i m
  by_cases h : rm i m = 0
  · rw [h]; decide
  · exact (usable_row _ (row_usable i m h).1).1

theorem Quiet.aside {blk : Blk} {r : Nat} (h : Quiet blk r) : ∀ i ∈ blk.il, Aside i r → Reads i r := by
  rintro i hi ⟨h1, u, h2, h3⟩
  unfold mvd at h3
  split at h3
  · next hu =>
    obtain ⟨a, _, h4⟩ := h3
    rcases h with h | ⟨h0, h⟩
    · have := rm_lt (cm u) a
      rw [h4] at this
      have hv : Nreg ≤ r := h
      omega
    · rcases h i hi ((ismove_ne i).1 h1) u h2 (by rw [virtual_iff]; omega) with h5 | ⟨h5, h6⟩
      · rw [← h5]; exact h2
      · exfalso
        obtain ⟨k1, k2, _⟩ := row_usable (cm u) a (by rw [h4]; exact h0)
        rw [h4] at k1 k2
        exact h6 ((usable_overlap u r h5 k1).2 k2.symm)
  · rw [h3]; exact h2

/-- The lists of live-out registers `build` reads. -/
def Outs (c : Code) (out : Nat → List Nat) : Prop := ∀ b blk, At c b blk → ∀ r, r ∈ out b ↔ LiveOut c r b

theorem Lv_liveAt {c : Code} {out : Nat → List Nat} (ho : Outs c out) {b : Nat} {blk : Blk} (hb : At c b blk) {j r : Nat} (hj : j ≤ blk.il.length) :
    Lv r (r ∈ out b) (blk.il.drop j) ↔ LiveAt c r b j := by
  rw [liveAt_iff hb (blk.il.length - j) j (by omega), ← liveOut_iff hb, ho b blk hb r]

/-- C76: with exact live-out sets, two registers are joined if an instruction writes one while the other is live behind it, or
writes both; the source of a copy is not joined to its target. Only such registers are joined. All virtual registers and all
copies are recorded. -/
theorem build_spec (c : Code) (ok : c.Ok) (out : Nat → List Nat) (ho : Outs c out) : ∃ bl, build out c = .ok bl ∧
    (∀ b blk j i d r, At c b blk → blk.il[j]? = some i → Writes i d →
      (Writes i r ∨ (LiveAt c r b (j + 1) ∧ ¬ ((∃ x y, Copies i x y) ∧ Reads i r) ∧ Quiet blk r)) → (d, r) ∈ bl.edges) ∧
    (∀ d r, (d, r) ∈ bl.edges → ∃ b blk j i, At c b blk ∧ blk.il[j]? = some i ∧ Writes i d ∧
      (Writes i r ∨ (LiveAt c r b (j + 1) ∧ ¬ ((∃ x y, Copies i x y) ∧ Reads i r ∧ (Virtual r ∨ Usable r))))) ∧
    (∀ r, r ∈ bl.seen ↔ Virtual r ∧ ∃ b blk, At c b blk ∧ ∃ i ∈ blk.il, Reads i r ∨ Writes i r) ∧
    ∀ x y, (x, y) ∈ bl.moves ↔ ∃ b blk, At c b blk ∧ ∃ i ∈ blk.il, Copies i x y := by
  obtain ⟨bl, h1, _, h3, h4, h5, h6⟩ := scanall_ok out (k := 0) ok.fits { sparse := fun _ => 0, dense := fun _ => 0, n := 0 }
    { edges := [], moves := [], seen := [] }
  refine ⟨bl, h1, ?_, ?_, ?_, ?_⟩
  · intro b blk j i d r hb hj hd hr
    refine h4 b blk j i d r hb hj hd (hr.imp id ?_)
    rintro ⟨k1, k2, k3⟩
    refine ⟨fun ha => k2 ⟨(ismove_ne i).1 ha.1, k3.aside i (List.mem_of_getElem? hj) ha⟩, k3.aside, ?_⟩
    rw [Nat.add_zero, Lv_liveAt ho hb ((List.getElem?_eq_some_iff.1 hj).1)]; exact k1
  · intro d r hd
    rcases h3 d r hd with h | ⟨b, blk, j, i, k1, k2, k3, ⟨k4, _⟩, _⟩
    · cases h
    · refine ⟨b, blk, j, i, k1, k2, k3, k4.imp id fun k => ?_⟩
      rw [Nat.add_zero, Lv_liveAt ho k1 ((List.getElem?_eq_some_iff.1 k2).1)] at k
      refine ⟨k.2, fun ⟨q1, q2, q3⟩ => k.1 ⟨(ismove_ne i).2 q1, r, q2, ?_⟩⟩
      unfold mvd
      rcases q3 with q3 | q3
      · have : ¬ r < Nreg := by unfold Virtual at q3; unfold Nreg; omega
        rw [if_neg this]
      · obtain ⟨u1, _, _, u4⟩ := usable_row r q3
        rw [if_pos u1]
        exact u4
  · intro r
    rw [h5]
    simp only [List.not_mem_nil, false_or]
    constructor
    · rintro ⟨b, blk, k1, i, k2, k3, k4⟩; exact ⟨k4, b, blk, k1, i, k2, k3⟩
    · rintro ⟨k4, b, blk, k1, i, k2, k3⟩; exact ⟨b, blk, k1, i, k2, k3, k4⟩
  · intro x y
    rw [h6]
    simp only [List.not_mem_nil, false_or, ismove_iff]

/-- A block with interfering registers and a copy. -/
def small : Code := [some ⟨[wri 200, wri 201, mvi 200 202, add 201 202, add 200 202, rdi 202], []⟩]

theorem small_ok : small.Ok := by
  refine ok_of _ ?_ ?_
  · intro o ho b hb i hi
    subst hb
    simp only [small, List.mem_cons, Option.some.injEq, List.not_mem_nil, or_false] at ho
    subst ho
    simp only [List.mem_cons, List.not_mem_nil, or_false] at hi
    rcases hi with rfl | rfl | rfl | rfl | rfl | rfl
    · exact wri_ok _
    · exact wri_ok _
    · exact mvi_ok _ _
    · exact add_ok _ _
    · exact add_ok _ _
    · exact rdi_ok _
  · intro o ho b hb s hs
    subst hb
    simp only [small, List.mem_cons, Option.some.injEq, List.not_mem_nil, or_false] at ho
    subst ho
    simp at hs

theorem small_outs : Outs small fun _ => [] := by
  intro b blk hb r
  simp only [List.not_mem_nil, false_iff]
  rintro ⟨blk', s, h1, h2, _⟩
  unfold At small at h1
  cases b with
  | zero => simp at h1; subst h1; simp at h2
  | succ b => simp at h1

example : ∃ bl, build (fun _ => []) small = .ok bl ∧ bl.edges = [(202, 202), (202, 200), (202, 202), (202, 202), (202, 201), (201, 201), (201, 200), (200, 200)] ∧
    bl.moves = [(200, 202)] := ⟨_, rfl, by decide, by decide⟩

example : ∃ bl, build (fun _ => []) small = .ok bl ∧ (202, 201) ∈ bl.edges := by
  obtain ⟨bl, h1, h2, _⟩ := build_spec small small_ok _ small_outs
  refine ⟨bl, h1, h2 0 _ 2 (mvi 200 202) 202 201 rfl rfl (.inl ⟨2, by simp [mvi], ⟨202, false⟩, rfl, rfl⟩) (.inr ⟨?_, ?_, .inl (by decide)⟩)⟩
  · exact .read (i := add 201 202) rfl rfl (.inl ⟨1, by simp [add], ⟨201, false⟩, rfl, rfl⟩)
  · rintro ⟨_, ⟨k, h3, o, h4, h5⟩ | h | ⟨b, x, h3, _⟩⟩
    · simp [mvi] at h3; subst h3; simp [mvi] at h4; subst h4; simp at h5
    · simp [mvi] at h
    · simp [mvi] at h3

/-! ## C43: colours -/

/-- Registers joined by an edge never get overlapping machine registers. -/
def FullClaim43 : Prop := ∀ (e : Env) (edges : List (Nat × Nat)) (seen : List Nat) (fuel : Nat) (s : S) (p : Paint), seen.Nodup →
  (∀ a b, Joined edges a b → Virtual a → a ∈ seen) → (∀ q, q ∈ e.moves → (Virtual q.1 → q.1 ∈ seen) ∧ (Virtual q.2 → q.2 ∈ seen)) →
  colour e edges seen fuel = .ok (s, p) → p.spilled = [] →
  ∀ a b ca cb, Joined edges a b → a ≠ b → (Virtual a ∨ Virtual b) → finalcol e s p a = .ok ca → finalcol e s p b = .ok cb → ¬ Overlap ca cb

/-- `mov t, %eax` and `mov %ah, r` (the remainder of a byte division, `6/isel.c:944-956`), where `t` and `r` interfere. -/
def ahenv : Env where
  vmode r := if r = 201 then 1 else 3
  moves := [(200, 37), (17, 201)]
  should _ := false
  never _ := false
  fuel := 10

/-- The registers `t` and `r`, which interfere, are merged with `%eax` and `%ah`. -/
theorem colour_violated : ¬ FullClaim43 := by
  intro h
  have h1 : (match colour ahenv [(200, 201)] [200, 201] 30 with
      | .ok (s, p) => p.spilled.isEmpty && (match finalcol ahenv s p 200, finalcol ahenv s p 201 with
        | .ok a, .ok b => a == 37 && b == 17
        | _, _ => false)
      | _ => false) = true := by decide +kernel
  split at h1
  · next s p hr =>
    simp only [Bool.and_eq_true, List.isEmpty_iff] at h1
    obtain ⟨h2, h3⟩ := h1
    split at h3
    · next a b k1 k2 =>
      simp only [Bool.and_eq_true, beq_iff_eq] at h3
      obtain ⟨rfl, rfl⟩ := h3
      refine h ahenv [(200, 201)] [200, 201] 30 s p (by decide) ?_ (by decide) hr h2 200 201 37 17 (.inl (by simp)) (by decide) (.inl (by decide)) k1 k2
        (by decide)
      rintro a b (hj | hj) _
      · simp at hj; simp [hj.1]
      · simp at hj; simp [hj.2]
    · cases h3
  · cases h1

theorem usable_fixed : ∀ p q, Usable p → Fixed q → ¬ Overlap p q := by
  have h : ∀ p, p < 102 → ∀ q, q < 102 → Usable p → Fixed q → ¬ Overlap p q := by decide +kernel
  intro p q hp hq
  exact h p (by unfold Usable at hp; omega) q (by unfold Fixed at hq; omega) hp hq

/-- The register `w` which stands for `r` in the end is not spilled. -/
def Kept (s : S) (p : Paint) (r : Nat) : Prop := ∀ f w, getalias s.al f r = .ok w → w ∉ p.spilled

section
variable {e : Env} {edges : List (Nat × Nat)} {seen : List Nat} {fuel : Nat} {s : S} {p : Paint}

theorem final_root {r c : Nat} (h : finalcol e s p r = .ok c) : ∃ w, getalias s.al e.fuel r = .ok w ∧ Root s.al r w ∧ c = p.col w := by
  unfold finalcol at h
  obtain ⟨w, h1, h2⟩ := Res.bind_eq_ok.1 h
  cases h2
  exact ⟨w, h1, getalias_root h1, rfl⟩

theorem root_known (hi : Input e edges seen) (hr : colour e edges seen fuel = .ok (s, p)) {r w : Nat} (hs : Virtual r → r ∈ seen) (h : Root s.al r w) :
    w < Nreg ∨ w ∈ s.stk := by
  obtain ⟨_, _, _, h4⟩ := colour_inv hi hr
  by_cases hw : w < Nreg
  · exact .inl hw
  · right
    have hw : Nreg ≤ w := by omega
    refine h4 w ?_ hw h.none
    rcases h.last with k | k
    · left; rw [← k]; exact hs (by rw [k]; exact hw)
    · exact .inr k

theorem phys_root (hi : Input e edges seen) (hr : colour e edges seen fuel = .ok (s, p)) {r w : Nat} (hv : ¬ Virtual r) (h : Root s.al r w) : w = r := by
  obtain ⟨h1, _⟩ := colour_inv hi hr
  refine h.of_none ?_
  by_contra hc
  obtain ⟨y, hy⟩ := Option.ne_none_iff_exists'.1 hc
  exact hv (h1.alr.np r y hy)

theorem virt_col (hi : Input e edges seen) (hr : colour e edges seen fuel = .ok (s, p)) {r c : Nat} (hv : Virtual r) (hs : r ∈ seen)
    (hk : Kept s p r) (h : finalcol e s p r = .ok c) : Usable c ∧ physmode[c]?.getD 0 = e.mode r := by
  obtain ⟨h1, h2, h3, h4⟩ := colour_inv hi hr
  obtain ⟨w, g1, g2, g3⟩ := final_root h
  subst g3
  rw [root_mode h1.alr g2]
  rcases root_known hi hr (fun _ => hs) g2 with k | k
  · rw [h2.phys w k]
    rcases g2.last with k1 | ⟨y, k1⟩
    · subst k1; exact absurd hv (by rw [virtual_iff]; omega)
    · refine ⟨h1.alr.lst y w k1 k, ?_⟩
      simp only [Env.mode]
      rw [if_pos k]
  · exact h2.good w k (hk _ w g1)

/-- C43 (partial): on inputs in which moves and interference involve the high byte registers only together with the rest of their
family (`Input`), registers joined by an edge never get overlapping machine registers unless one is spilled. A virtual register
which is not spilled gets a machine register values may be put in, of its own width; machine registers stay what they are. Each
register stands for exactly one in the end.
Missing: moves from `%ah` (`colour_violated`); that the allocator ends. -/
theorem colour_partial (hi : Input e edges seen) (hr : colour e edges seen fuel = .ok (s, p)) :
    (∀ a b ca cb, Joined edges a b → a ≠ b → (Virtual a ∨ Virtual b) → Kept s p a → Kept s p b →
      finalcol e s p a = .ok ca → finalcol e s p b = .ok cb → ¬ Overlap ca cb) ∧
    (∀ r c, r ∈ seen → Virtual r → Kept s p r → finalcol e s p r = .ok c → Usable c ∧ physmode[c]?.getD 0 = e.mode r) ∧
    (∀ r c, ¬ Virtual r → finalcol e s p r = .ok c → c = r) ∧
    ∀ r, ∃ w f, ∀ g, f ≤ g → getalias s.al g r = .ok w := by
  obtain ⟨h1, h2, h3, h4⟩ := colour_inv hi hr
  have phys : ∀ r c, ¬ Virtual r → finalcol e s p r = .ok c → c = r := by
    intro r c hv h
    obtain ⟨w, g1, g2, g3⟩ := final_root h
    rw [phys_root hi hr hv g2] at g3
    rw [g3, h2.phys r (by rw [virtual_iff] at hv; omega)]
  have mode : ∀ a b, Joined edges a b ∨ Joined edges b a → ∀ c, Kept s p a → finalcol e s p a = .ok c → physmode[c]?.getD 0 = e.mode a ∧ c < Nreg ∧
      (Virtual a → Usable c) := by
    intro a b hj c hk hc
    have hj : Joined edges a b := hj.elim id fun h => h.symm
    by_cases hv : Virtual a
    · have := virt_col hi hr hv (hi.edge a b hj hv) hk hc
      exact ⟨this.2, (usable_row c this.1).1, fun _ => this.1⟩
    · have := phys a c hv hc
      subst this
      have hlt : c < Nreg := by rw [virtual_iff] at hv; omega
      refine ⟨?_, hlt, fun h => absurd h hv⟩
      simp only [Env.mode]; rw [if_pos hlt]
  refine ⟨?_, fun r c hs hv hk h => virt_col hi hr hv hs hk h, phys, ?_⟩
  · intro a b ca cb hj hne hv ka kb fa fb ho
    obtain ⟨ma, la, ua⟩ := mode a b (.inl hj) ca ka fa
    obtain ⟨mb, lb, ub⟩ := mode b a (.inr hj) cb kb fb
    have hfix : ∀ a b ca cb, (Virtual a → Usable ca) → (Virtual a ∨ Virtual b) → finalcol e s p b = .ok cb → Fixed b → Overlap ca cb → False := by
      intro a b ca cb ua hv fb hf ho
      have hb : ¬ Virtual b := by unfold Fixed at hf; unfold Virtual; omega
      have := phys b cb hb fb
      subst this
      exact usable_fixed ca cb (ua (hv.resolve_right hb)) hf ho
    by_cases f1 : Fixed b
    · exact hfix a b ca cb ua hv fb f1 ho
    by_cases f2 : Fixed a
    · exact hfix b a cb ca ub hv.symm fa f2 ho.symm
    have hcls : e.cls a = e.cls b := by
      simp only [Env.cls]
      rw [← ma, ← mb]
      exact overlap_cls ca cb la lb ho
    have hadd : Adds e a b := by
      refine ⟨hne, ?_, ?_, hcls, ?_⟩
      · rw [← fixed_iff] at f2; simpa using f2
      · rw [← fixed_iff] at f1; simpa using f1
      · simp only [virtual_iff] at hv; omega
    obtain ⟨wa, a1, a2, a3⟩ := final_root fa
    obtain ⟨wb, b1, b2, b3⟩ := final_root fb
    obtain ⟨k1, k2⟩ := h1.ed a b wa wb (h3 a b hj hadd) a2 b2
    subst a3 b3
    refine h2.apart wa wb a2.none b2.none (root_known hi hr (hi.edge a b hj) a2) (root_known hi hr (hi.edge b a hj.symm) b2) (by simp) (by simp)
      (ka _ wa a1) (kb _ wb b1) ⟨k1, ?_⟩ ho
    rcases k2 with k | k | k | k | k
    · exact .inl k
    · exact .inr (.inl k)
    · exact .inr (.inr (.inl k))
    · exact .inr (.inr (.inr k))
    · exact k.elim
  · intro r
    obtain ⟨w, hw⟩ := h1.alr.acy r
    refine ⟨w, ?_⟩
    induction hw with
    | here h =>
      refine ⟨1, fun g hg => ?_⟩
      obtain ⟨g, rfl⟩ : ∃ k, g = k + 1 := ⟨g - 1, by omega⟩
      rw [getalias, h]
    | up h _ ih =>
      obtain ⟨f, hf⟩ := ih
      refine ⟨f + 1, fun g hg => ?_⟩
      obtain ⟨g, rfl⟩ : ∃ k, g = k + 1 := ⟨g - 1, by omega⟩
      rw [getalias, h]
      exact hf g (by omega)
end

/-- Three registers, two of them interfering with the third, a copy and a machine register. -/
def smallenv : Env where
  vmode _ := 4
  moves := [(200, 202), (202, 53)]
  should _ := false
  never _ := false
  fuel := 10

theorem small_input : Input smallenv [(202, 201), (201, 200), (53, 201)] [200, 201, 202] where
  nodup := by decide
  edge := by
    rintro a b (h | h) hv
    all_goals simp only [List.mem_cons, Prod.mk.injEq, List.not_mem_nil, or_false] at h
    · rcases h with h | h | h
      · simp [h.1]
      · simp [h.1]
      · simp [h.1, Virtual] at hv
    · rcases h with h | h | h <;> simp [h.2]
  move := by decide
  movs := by decide
  cover := by
    rintro a p (h | h) hv hp
    all_goals simp only [List.mem_cons, Prod.mk.injEq, List.not_mem_nil, or_false] at h
    · rcases h with h | h | h <;> simp [h.1, h.2, Virtual] at hv hp
    · rcases h with h | h | h
      · simp [h.1, Virtual] at hp
      · simp [h.1, Virtual] at hp
      · exact .inr ⟨53, by decide, by rw [h.1]; decide, .inr (by simp [h.2])⟩

example : ∃ s p, colour smallenv [(202, 201), (201, 200), (53, 201)] [200, 201, 202] 30 = .ok (s, p) ∧
    finalcol smallenv s p 200 = .ok 53 ∧ finalcol smallenv s p 201 = .ok 54 ∧ finalcol smallenv s p 202 = .ok 53 := by
  have h1 : (match colour smallenv [(202, 201), (201, 200), (53, 201)] [200, 201, 202] 30 with
      | .ok (s, p) => (match finalcol smallenv s p 200, finalcol smallenv s p 201, finalcol smallenv s p 202 with
        | .ok a, .ok b, .ok c => a == 53 && b == 54 && c == 53
        | _, _, _ => false)
      | _ => false) = true := by decide +kernel
  split at h1
  · next s p hr =>
    split at h1
    · next a b c k1 k2 k3 =>
      simp only [Bool.and_eq_true, beq_iff_eq] at h1
      obtain ⟨⟨rfl, rfl⟩, rfl⟩ := h1
      exact ⟨s, p, hr, k1, k2, k3⟩
    · cases h1
  · cases h1

/-! ## C77: allocation of a function -/

/-- How the high byte registers and the stack registers are used: they are never copied to or from virtual registers, whoever
writes one without being able to keep others off it also writes a whole register of its family, and none is live where a virtual
register is written. -/
structure Shape (c : Code) : Prop where
  copy : ∀ b blk i x y, At c b blk → i ∈ blk.il → Copies i x y → Reads i x ∧ Writes i y ∧
    ((¬ Virtual x ∧ ¬ Virtual y) ∨ ((¬ Virtual x → Usable x) ∧ (¬ Virtual y → Usable y)))
  half : ∀ b blk i p, At c b blk → i ∈ blk.il → Writes i p → ¬ Virtual p → Fixed p ∨ ∃ q, Usable q ∧ Overlap p q ∧ Writes i q
  hold : ∀ b blk j i d p, At c b blk → blk.il[j]? = some i → Writes i d → Virtual d → ¬ Virtual p → LiveAt c p b (j + 1) → Fixed p ∨ Usable p

theorem liveAt_read {c : Code} {r b k : Nat} (h : LiveAt c r b k) : ∃ b blk, At c b blk ∧ ∃ i ∈ blk.il, Reads i r := by
  induction h with
  | read h1 h2 h3 => exact ⟨_, _, h1, _, List.mem_of_getElem? h2, h3⟩
  | skip _ _ _ _ ih => exact ih
  | edge _ _ _ _ ih => exact ih

theorem usable_overlap_self {p : Nat} (h : Usable p) : Overlap p p := (usable_overlap p p h h).2 rfl

/-- The tables `build` makes are fit to be coloured. -/
theorem build_input (c : Code) (ok : c.Ok) (sh : Shape c) (out : Nat → List Nat) (ho : Outs c out) {bl : Bld} (hb : build out c = .ok bl) (e : Env)
    (he : e.moves = bl.moves) (seen : List Nat) (hn : seen.Nodup) (hs : ∀ r, r ∈ seen ↔ r ∈ bl.seen) : Input e bl.edges seen := by
  obtain ⟨bl', h1, h2, h3, h4, h5⟩ := build_spec c ok out ho
  have : bl' = bl := by rw [hb] at h1; cases h1; rfl
  subst this
  obtain ⟨bl'', g1, _, g3, g4, _⟩ := scanall_ok out (k := 0) ok.fits { sparse := fun _ => 0, dense := fun _ => 0, n := 0 }
    { edges := [], moves := [], seen := [] }
  have : bl'' = bl' := by
    have g1 : build out c = .ok bl'' := g1
    rw [hb] at g1; cases g1; rfl
  subst this
  refine ⟨hn, ?_, ?_, ?_, ?_⟩
  · intro a b hj hv
    rw [hs, h4]
    refine ⟨hv, ?_⟩
    rcases hj with hj | hj
    · obtain ⟨b, blk, j, i, k1, k2, k3, _⟩ := h3 a b hj
      exact ⟨b, blk, k1, i, List.mem_of_getElem? k2, .inr k3⟩
    · obtain ⟨b, blk, j, i, k1, k2, _, k3⟩ := h3 b a hj
      rcases k3 with k3 | k3
      · exact ⟨b, blk, k1, i, List.mem_of_getElem? k2, .inr k3⟩
      · obtain ⟨b, blk, k4, i, k5, k6⟩ := liveAt_read k3.1
        exact ⟨b, blk, k4, i, k5, .inl k6⟩
  · rintro ⟨x, y⟩ hm
    rw [he] at hm
    obtain ⟨b, blk, k1, i, k2, k3⟩ := (h5 x y).1 hm
    obtain ⟨k4, k5, _⟩ := sh.copy b blk i x y k1 k2 k3
    exact ⟨fun hv => by rw [hs, h4]; exact ⟨hv, b, blk, k1, i, k2, .inl k4⟩, fun hv => by rw [hs, h4]; exact ⟨hv, b, blk, k1, i, k2, .inr k5⟩⟩
  · rintro ⟨x, y⟩ hm
    rw [he] at hm
    obtain ⟨b, blk, k1, i, k2, k3⟩ := (h5 x y).1 hm
    exact (sh.copy b blk i x y k1 k2 k3).2.2
  · rintro a p (hj | hj) ha hp
    · rcases g3 a p hj with hx | ⟨b, blk, j, i, k1, k2, k3, ⟨k4, _⟩, k6⟩
      · cases hx
      · rcases k4 with k4 | ⟨_, k4⟩
        · rcases sh.half b blk i p k1 (List.mem_of_getElem? k2) k4 hp with k | ⟨q, q1, q2, q3⟩
          · exact .inl k
          · exact .inr ⟨q, q1, q2, .inl (h2 b blk j i a q k1 k2 k3 (.inl q3))⟩
        · rw [Nat.add_zero, Lv_liveAt ho k1 ((List.getElem?_eq_some_iff.1 k2).1)] at k4
          rcases sh.hold b blk j i a p k1 k2 k3 ha hp k4 with k | k
          · exact .inl k
          · exact .inr ⟨p, k, usable_overlap_self k, .inl hj⟩
    · rcases g3 p a hj with hx | ⟨b, blk, j, i, k1, k2, k3, ⟨k4, k5⟩, k6⟩
      · cases hx
      · rcases sh.half b blk i p k1 (List.mem_of_getElem? k2) k3 hp with k | ⟨q, q1, q2, q3⟩
        · exact .inl k
        · exact .inr ⟨q, q1, q2, .inr (k5 q q3)⟩

/-- C77: liveness, interference and colouring together. If a function uses the high byte registers only as `Shape` allows and
the colouring spills no register, then no instruction overwrites a value still needed: the machine register given to a register
it writes does not overlap that of any other register live behind it, except that the source and target of a copy may share one.
Missing: functions with spilled registers (the code is rewritten and all is done again), and those `liveness_violated` and
`colour_violated` are about. -/
theorem allocation_partial (c : Code) (ok : c.Ok) (sh : Shape c)
    (hf : (∃ b blk s r, At c b blk ∧ s ∈ blk.succ ∧ Exposed c r s) → ∃ b blk s r, At c b blk ∧ s ∈ blk.succ ∧ b < s ∧ Exposed c r s)
    {f : Nat} {x : Nat → Finset Nat × Finset Nat} (hl : liveness f c = .ok x) (out : Nat → List Nat) (ho : ∀ b r, r ∈ out b ↔ r ∈ (x b).2)
    {bl : Bld} (hb : build out c = .ok bl) (e : Env) (he : e.moves = bl.moves) (seen : List Nat) (hn : seen.Nodup)
    (hs : ∀ r, r ∈ seen ↔ r ∈ bl.seen) {fuel : Nat} {s : S} {p : Paint} (hc : colour e bl.edges seen fuel = .ok (s, p)) (hsp : p.spilled = [])
    {b : Nat} {blk : Blk} {j : Nat} {i : Insn} {d r cd cr : Nat} (hblk : At c b blk) (hj : blk.il[j]? = some i) (hd : Writes i d)
    (hr : LiveAt c r b (j + 1)) (hne : d ≠ r) (hv : Virtual d ∨ Virtual r) (hq : Quiet blk r) (hm : ¬ ((∃ x y, Copies i x y) ∧ Reads i r))
    (fd : finalcol e s p d = .ok cd) (fr : finalcol e s p r = .ok cr) : ¬ Overlap cd cr := by
  have ho' : Outs c out := fun b blk _ r => by rw [ho, (liveness_partial c ok).2 hf f x hl]
  have hi := build_input c ok sh out ho' hb e he seen hn hs
  obtain ⟨bl', h1, h2, _⟩ := build_spec c ok out ho'
  have : bl' = bl := by rw [hb] at h1; cases h1; rfl
  subst this
  refine (colour_partial hi hc).1 d r cd cr (.inl (h2 b blk j i d r hblk hj hd (.inr ⟨hr, hm, hq⟩))) hne hv ?_ ?_ fd fr
  · intro _ w _; rw [hsp]; simp
  · intro _ w _; rw [hsp]; simp

theorem small_shape : Shape small := by
  have hat : ∀ b blk, At small b blk → b = 0 ∧ blk = ⟨[wri 200, wri 201, mvi 200 202, add 201 202, add 200 202, rdi 202], []⟩ := by
    intro b blk h
    unfold At small at h
    cases b with
    | zero => simp at h; exact ⟨rfl, h.symm⟩
    | succ b => simp at h
  have hw : ∀ i ∈ [wri 200, wri 201, mvi 200 202, add 201 202, add 200 202, rdi 202], (∀ r, Reads i r → Virtual r) ∧ (∀ r, Writes i r → Virtual r) ∧
      ∀ x y, Copies i x y → Reads i x ∧ Writes i y := by
    intro i hi
    simp only [List.mem_cons, List.not_mem_nil, or_false] at hi
    rcases hi with rfl | rfl | rfl | rfl | rfl | rfl <;> simp [Reads, Writes, Copies, wri, rdi, mvi, add, Virtual] <;> omega
  refine ⟨?_, ?_, ?_⟩
  · intro b blk i x y hb hi hc
    obtain ⟨rfl, rfl⟩ := hat b blk hb
    obtain ⟨h1, h2, h3⟩ := hw i hi
    have h4 := h3 x y hc
    exact ⟨h4.1, h4.2, .inr ⟨fun h => absurd (h1 x h4.1) h, fun h => absurd (h2 y h4.2) h⟩⟩
  · intro b blk i p hb hi hp hv
    obtain ⟨rfl, rfl⟩ := hat b blk hb
    exact absurd ((hw i hi).2.1 p hp) hv
  · intro b blk j i d p _ _ _ _ hv hl
    obtain ⟨b, blk, h1, i, h2, h3⟩ := liveAt_read hl
    obtain ⟨rfl, rfl⟩ := hat b blk h1
    exact absurd ((hw i h2).1 p h3) hv

/-- 64-bit registers and the copy of `small`. -/
def copyenv : Env where
  vmode _ := 4
  moves := [(200, 202)]
  should _ := false
  never _ := false
  fuel := 10

/-- The colouring of `small`: the target of the copy and its source interfere later, so all three differ. -/
theorem small_colours : ∃ x bl s p, liveness 1 small = .ok x ∧ (x 0).2 = ∅ ∧ build (fun _ => []) small = .ok bl ∧ bl.moves = [(200, 202)] ∧
    (∀ r, r ∈ [200, 201, 202] ↔ r ∈ bl.seen) ∧ colour copyenv bl.edges [200, 201, 202] 30 = .ok (s, p) ∧ p.spilled = [] ∧
    finalcol copyenv s p 202 = .ok 54 ∧ finalcol copyenv s p 201 = .ok 55 := by
  have h1 : (match colour copyenv
        [(202, 202), (202, 200), (202, 202), (202, 202), (202, 201), (201, 201), (201, 200), (200, 200)] [200, 201, 202] 30 with
      | .ok (s, p) => p.spilled.isEmpty && (match finalcol copyenv s p 202, finalcol copyenv s p 201 with
        | .ok a, .ok b => a == 54 && b == 55
        | _, _ => false)
      | _ => false) = true := by decide +kernel
  split at h1
  · next s p hr =>
    simp only [Bool.and_eq_true, List.isEmpty_iff] at h1
    obtain ⟨h2, h3⟩ := h1
    split at h3
    · next a b k1 k2 =>
      simp only [Bool.and_eq_true, beq_iff_eq] at h3
      obtain ⟨rfl, rfl⟩ := h3
      obtain ⟨bl, b1, b2, b3⟩ : ∃ bl, build (fun _ => []) small = .ok bl ∧
          bl.edges = [(202, 202), (202, 200), (202, 202), (202, 202), (202, 201), (201, 201), (201, 200), (200, 200)] ∧ bl.moves = [(200, 202)] :=
        ⟨_, rfl, by decide, by decide⟩
      refine ⟨_, bl, s, p, rfl, by decide, b1, b3, ?_, by rw [b2]; exact hr, h2, k1, k2⟩
      have : bl.seen = [202, 200, 202, 202, 201, 202, 202, 200, 202, 201, 200] := by cases b1; decide
      intro r
      rw [this]
      simp only [List.mem_cons, List.not_mem_nil, or_false]
      omega
    · cases h3
  · cases h1

theorem small_noedge : ¬ ∃ b blk s r, At small b blk ∧ s ∈ blk.succ ∧ Exposed small r s := by
  rintro ⟨b, blk, t, r, k1, k2, _⟩
  unfold At small at k1
  cases b with
  | zero => simp at k1; subst k1; simp at k2
  | succ b => simp at k1

example : ∃ f x out bl e seen fuel s p, liveness f small = .ok x ∧ build out small = .ok bl ∧ colour e bl.edges seen fuel = .ok (s, p) ∧
    ∃ cd cr, finalcol e s p 202 = .ok cd ∧ finalcol e s p 201 = .ok cr ∧ ¬ Overlap cd cr := by
  obtain ⟨x, bl, s, p, h1, h2, h3, h4, h5, h6, h7, h8, h9⟩ := small_colours
  refine ⟨1, x, _, bl, _, _, 30, s, p, h1, h3, h6, 54, 55, h8, h9, ?_⟩
  refine allocation_partial small small_ok small_shape ?_ h1 (fun _ => []) ?_ h3 copyenv h4.symm [200, 201, 202] (by decide) h5 h6 h7
    (b := 0) (j := 2) (i := mvi 200 202) (d := 202) (r := 201) rfl rfl (by simp [Writes, mvi]) ?_ (by decide) (.inl (by decide)) (.inl (by decide)) ?_ h8 h9
  · exact fun h => absurd h small_noedge
  · intro b r
    rw [(liveness_partial small small_ok).2 (fun h => absurd h small_noedge) 1 x h1]
    simp only [List.not_mem_nil, false_iff]
    rintro ⟨blk, t, k1, k2, _⟩
    unfold At small at k1
    cases b with
    | zero => simp at k1; subst k1; simp at k2
    | succ b => simp at k1
  · exact .read (i := add 201 202) rfl rfl (by simp [Reads, add])
  · simp [Reads, mvi]

end Verif.Ra
