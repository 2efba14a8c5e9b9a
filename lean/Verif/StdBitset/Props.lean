import Verif.StdBitset.Lemmas

/-!
# C04: std.bitset is a finite set of naturals

False for `bsintersect` when the left operand has more words than the right one
(`bsintersect_violated`); `bsintersect_exact` says precisely what it computes.
Everything else is proved in full.
-/

namespace Verif.StdBitset
open Verif.CBitset (mem mem_of_ge mem_lt)

/-- Client operations on a bank of bit-set variables. -/
inductive Op where
  | put (v e : Nat)
  | del (v e : Nat)
  | union (a b : Nat)
  | intersect (a b : Nat)
  | diff (a b : Nat)
  | clear (v : Nat)
  | dup (dst src : Nat)

/-- Specification state: each variable holds a set. -/
abbrev Spec := Nat → Nat → Prop

/-- Specification of one operation. -/
def specStep (s : Spec) : Op → Spec
  | .put v e => fun w x => if w = v then x = e ∨ s v x else s w x
  | .del v e => fun w x => if w = v then x ≠ e ∧ s v x else s w x
  | .union a b => fun w x => if w = a then s a x ∨ s b x else s w x
  | .intersect a b => fun w x => if w = a then s a x ∧ s b x else s w x
  | .diff a b => fun w x => if w = a then s a x ∧ ¬ s b x else s w x
  | .clear v => fun w x => if w = v then False else s w x
  | .dup d v => fun w x => if w = d then s v x else s w x

/-- Specification of a history. -/
def specRun (s : Spec) : List Op → Spec
  | [] => s
  | o :: os => specRun (specStep s o) os

/-- Concrete state: a bank of bit sets. -/
abbrev Bank := Nat → BS

/-- Assignment to one variable. -/
def Bank.upd (s : Bank) (v : Nat) (b : BS) : Bank := fun w => if w = v then b else s w

/-- One API call on the modelled code. -/
def step (s : Bank) : Op → Res Bank
  | .put v e => do let r ← bsput (s v) e; pure (s.upd v r.1)
  | .del v e => do let r ← bsdel (s v) e; pure (s.upd v r.1)
  | .union a b => do let r ← bsunion (s a) (s b); pure ((s.upd b r.2).upd a r.1)
  | .intersect a b => do let r ← bsintersect (s a) (s b); pure (s.upd a r)
  | .diff a b => do let r ← bsdiff (s a) (s b); pure (s.upd a r)
  | .clear v => .ok (s.upd v (bsclear (s v)))
  | .dup d v => .ok (s.upd d (bsdup (s v)))

/-- Histories whose intersections all have a left operand of no larger capacity. -/
def CapOk (s : Bank) : List Op → Prop
  | [] => True
  | o :: os => (∀ a b, o = .intersect a b → bsmax (s a) ≤ bsmax (s b)) ∧
      ∀ s', step s o = .ok s' → CapOk s' os

/-- A whole history. -/
def run (s : Bank) : List Op → Res Bank
  | [] => .ok s
  | o :: os => do let s' ← step s o; run s' os

/-- What `bsintersect` computes for operands of any capacity. -/
theorem bsintersect_exact (a b : BS) : ∃ r, bsintersect a b = .ok r ∧ ∀ x,
    (bshas r x = .ok true ↔ bshas a x = .ok true ∧ (bshas b x = .ok true ∨ bsmax b ≤ x)) := by
  unfold bsintersect
  rw [loop2_eq _ _ _ _ (by omega) (by omega)]
  refine ⟨_, rfl, ?_⟩
  intro x
  rw [bshas_eq, bshas_eq, bshas_eq,
    mem_loop2 (· &&& ·) (· && ·) (by intros; simp) _ _ _ (by omega) (by omega)]
  simp only [Res.ok.injEq]
  unfold bsmax
  by_cases ha : a.length * 64 ≤ x
  · simp only [mem_of_ge (bs := a) (e := x) ha]
    split <;> simp
  · by_cases hb : b.length * 64 ≤ x
    · rw [if_neg (by rw [Nat.min_def]; split <;> omega)]
      simp [hb]
    · rw [if_pos (by rw [Nat.min_def]; split <;> omega)]
      simp [hb]

example : (bsintersect [7, 7] [5]).map (fun r => [0, 1, 2, 64].map (bshas r)) =
    .ok [.ok true, .ok false, .ok true, .ok true] := by decide

theorem step_refines (s : Bank) (o : Op)
    (hcap : ∀ a b, o = .intersect a b → bsmax (s a) ≤ bsmax (s b)) : ∃ s', step s o = .ok s' ∧
    ∀ v x, mem (s' v) x = true ↔ specStep (fun v x => mem (s v) x = true) o v x := by
  cases o with
  | put v e =>
    obtain ⟨r, h1, h2⟩ := bsput_spec (s v) e
    refine ⟨s.upd v r, by simp [step, h1], ?_⟩
    intro w x
    simp only [Bank.upd, specStep]
    split
    · rw [h2]; simp
    · rfl
  | del v e =>
    obtain ⟨r, h1, h2⟩ := bsdel_spec (s v) e
    refine ⟨s.upd v r, by simp [step, h1], ?_⟩
    intro w x
    simp only [Bank.upd, specStep]
    split
    · rw [h2]; simp
    · rfl
  | union a b =>
    have hl := eqsz_length (s a) (s b)
    refine ⟨_, by simp only [step, bsunion]; rw [loop2_eq _ _ _ _ hl.ge (Nat.le_refl _)]; rfl, ?_⟩
    intro w x
    simp only [Bank.upd, specStep]
    split
    · rw [mem_loop2 (· ||| ·) (· || ·) (by intros; simp) _ _ _ hl.ge (Nat.le_refl _)]
      have e1 : mem (eqsz (s a) (s b)).1 x = mem (s a) x := mem_ensurelen _ _ _
      have e2 : mem (eqsz (s a) (s b)).2 x = mem (s b) x := mem_ensurelen _ _ _
      split
      · rw [e1, e2, Bool.or_eq_true]
      · next hx =>
        have : mem (eqsz (s a) (s b)).2 x = false := mem_of_ge (by show _ * 64 ≤ x; omega)
        rw [e1, ← e2, this]; simp
    · split
      · next h =>
        have e2 : mem (eqsz (s a) (s b)).2 x = mem (s b) x := mem_ensurelen _ _ _
        rw [e2, h]
      · rfl
  | intersect a b =>
    obtain ⟨r, h1, h2⟩ := bsintersect_exact (s a) (s b)
    refine ⟨s.upd a r, by simp [step, h1], ?_⟩
    intro w x
    simp only [Bank.upd, specStep]
    split
    · have := h2 x
      simp only [bshas_eq, Res.ok.injEq] at this
      rw [this]
      constructor
      · rintro ⟨p, q | q⟩
        · exact ⟨p, q⟩
        · have hc := hcap a b rfl
          have := mem_lt p
          simp only [bsmax, CBitset.W] at *
          omega
      · rintro ⟨p, q⟩; exact ⟨p, Or.inl q⟩
    · rfl
  | diff a b =>
    refine ⟨_, by simp only [step, bsdiff]; rw [loop2_eq _ _ _ _ (by omega) (by omega)]; rfl, ?_⟩
    intro w x
    simp only [Bank.upd, specStep]
    split
    · rw [mem_loop2 (fun x y => x &&& ~~~y) (fun p q => p && !q) (by
        intro x y k hk
        simp only [BitVec.getLsbD_and, BitVec.getLsbD_not, hk, decide_true, Bool.true_and]) _ _ _ (by omega) (by omega)]
      by_cases ha : (s a).length * 64 ≤ x
      · simp only [mem_of_ge (bs := s a) (e := x) ha]
        split <;> simp
      · by_cases hb : (s b).length * 64 ≤ x
        · rw [if_neg (by rw [Nat.min_def]; split <;> omega), mem_of_ge (bs := s b) (e := x) hb]
          simp
        · rw [if_pos (by rw [Nat.min_def]; split <;> omega)]
          simp
    · rfl
  | clear v =>
    refine ⟨_, rfl, ?_⟩
    intro w x
    simp only [Bank.upd, specStep]
    split
    · have := CBitset.mem_clear (s v) x
      unfold CBitset.bsclear at this
      unfold bsclear
      rw [this]; simp
    · rfl
  | dup d v =>
    refine ⟨_, rfl, ?_⟩
    intro w x
    simp only [Bank.upd, specStep, bsdup]
    split <;> rfl

/-- The full membership claim of C04. -/
def FullClaim : Prop := ∀ ops : List Op, ∃ s', run (fun _ => mkbs) ops = .ok s' ∧
  ∀ v x, ∃ b, bshas (s' v) x = .ok b ∧ (b = true ↔ specRun (fun _ _ => False) ops v x)

/-- **C04, membership, part.**  Missing: intersections whose left operand has
larger capacity than the right one (there the claim is false). -/
theorem bitset_history_partial (ops : List Op) (hcap : CapOk (fun _ => mkbs) ops) :
    ∃ s', run (fun _ => mkbs) ops = .ok s' ∧
      ∀ v x, ∃ b, bshas (s' v) x = .ok b ∧ (b = true ↔ specRun (fun _ _ => False) ops v x) := by
  have gen : ∀ (ops : List Op) (s : Bank) (t : Spec), CapOk s ops →
      (∀ v x, mem (s v) x = true ↔ t v x) →
      ∃ s', run s ops = .ok s' ∧ ∀ v x, mem (s' v) x = true ↔ specRun t ops v x := by
    intro ops
    induction ops with
    | nil => intro s t _ h; exact ⟨s, rfl, h⟩
    | cons o os ih =>
      intro s t hc h
      obtain ⟨s1, h1, h2⟩ := step_refines s o hc.1
      have ht : (fun v x => mem (s v) x = true) = t := by
        funext v x; exact propext (h v x)
      rw [ht] at h2
      obtain ⟨s', h3, h4⟩ := ih s1 _ (hc.2 s1 h1) h2
      exact ⟨s', by simp [run, h1, h3], h4⟩
  obtain ⟨s', h1, h2⟩ := gen ops (fun _ => mkbs) (fun _ _ => False) hcap (by
    intro v x; simp [mkbs, mem])
  exact ⟨s', h1, fun v x => ⟨_, bshas_eq _ _, h2 v x⟩⟩

/-- Histories without intersection satisfy the side condition. -/
theorem capOk_of_no_intersect (ops : List Op) (h : ∀ a b, Op.intersect a b ∉ ops) (s : Bank) :
    CapOk s ops := by
  induction ops generalizing s with
  | nil => trivial
  | cons o os ih =>
    refine ⟨?_, fun s' _ => ih (fun a b hm => h a b (by simp [hm])) s'⟩
    rintro a b rfl
    exact absurd (by simp) (h a b)

/-- The full claim is false: intersecting {0, 100} with {0} leaves 100. -/
theorem bsintersect_violated : ¬ FullClaim := by
  intro h
  obtain ⟨s, h1, h2⟩ := h [.put 0 0, .put 0 100, .put 1 0, .intersect 0 1]
  obtain ⟨b, h3, h4⟩ := h2 0 100
  have : (run (fun _ => mkbs) [.put 0 0, .put 0 100, .put 1 0, .intersect 0 1] >>= fun s =>
      bshas (s 0) 100) = .ok true := by decide
  rw [h1, Res.bind_ok, h3, Res.ok.injEq] at this
  have := h4.1 this
  simp [specRun, specStep] at this

/-- A history with all operations that meets the side condition. -/
example : (run (fun _ => mkbs) [.put 0 3, .put 0 70, .put 1 70, .put 1 200, .intersect 0 1, .put 2 200,
    .union 0 2, .diff 0 1]).map (fun s => [3, 70, 200].map (bshas (s 0))) =
    .ok [.ok false, .ok false, .ok false] := by decide

/-- `bsput`/`bsdel` report whether the set changed. -/
theorem changed_flags (bs : BS) (e : Nat) :
    (∃ r, bsput bs e = .ok (r, true) ∧ bshas bs e = .ok false) ∨
    (∃ r, bsput bs e = .ok (r, false) ∧ bshas bs e = .ok true) := by
  obtain ⟨r, h1, -⟩ := bsput_spec bs e
  rw [bshas_eq]
  cases h : mem bs e with
  | true => right; exact ⟨r, by rw [h1, h]; rfl, rfl⟩
  | false => left; exact ⟨r, by rw [h1, h]; rfl, rfl⟩

/-- `bsdel` reports whether the element was present. -/
theorem del_flag (bs : BS) (e : Nat) : ∃ r b, bsdel bs e = .ok (r, b) ∧ bshas bs e = .ok b := by
  obtain ⟨r, h1, -⟩ := bsdel_spec bs e
  exact ⟨r, _, h1, bshas_eq _ _⟩

/-- **C04, iteration.**  A `for` loop over `bybsvalue` terminates and visits exactly
the members in increasing order; `bscount` is their number, `bsmax` bounds them. -/
theorem iterate_members (bs : BS) :
    ∃ l, iterate bs (bsmax bs + 1) 0 = .ok l ∧ l.Pairwise (· < ·) ∧
      (∀ x, x ∈ l ↔ bshas bs x = .ok true) ∧ bscount bs = .ok l.length ∧ ∀ x ∈ l, x < bsmax bs := by
  obtain ⟨l, h1, h2, h3⟩ := iterate_spec bs (bsmax bs + 1) 0 (by omega) (by omega)
  refine ⟨l, h1, h2, ?_, by simp [bscount, h1], ?_⟩
  · intro x; rw [h3, bshas_eq]; simp
  · intro x hx; exact mem_lt ((h3 x).1 hx).2

example : iterate [5, 0, 1] (bsmax [5, 0, 1] + 1) 0 = .ok [0, 2, 128] := by decide +kernel

/-- **C04, equality.** -/
theorem bseq_iff (a b : BS) : ∃ r a' b', bseq a b = .ok (r, a', b') ∧
    (r = true ↔ ∀ x, bshas a x = bshas b x) ∧
    (∀ x, bshas a' x = bshas a x) ∧ (∀ x, bshas b' x = bshas b x) := by
  unfold bseq
  simp only
  rw [all2_eq _ _ _ (eqsz_length a b).le]
  have e1 : ∀ x, mem (eqsz a b).1 x = mem a x := fun x => mem_ensurelen _ _ _
  have e2 : ∀ x, mem (eqsz a b).2 x = mem b x := fun x => mem_ensurelen _ _ _
  refine ⟨_, _, _, rfl, ?_, ?_, ?_⟩
  · simp only [decide_eq_true_eq, bshas_eq, Res.ok.injEq, beq_iff_eq]
    constructor
    · intro h x
      rw [← e1, ← e2]
      unfold mem
      by_cases hx : x / CBitset.W < (eqsz a b).1.length
      · rw [h _ hx]
      · simp only [List.getD]
        rw [List.getElem?_eq_none (by omega),
          List.getElem?_eq_none (by have := eqsz_length a b; omega)]
    · intro h i hi
      apply BitVec.eq_of_getLsbD_eq
      intro k hk
      rw [getD_bit _ _ _ hk, getD_bit _ _ _ hk, e1, e2, h]
  · intro x; rw [bshas_eq, bshas_eq, e1]
  · intro x; rw [bshas_eq, bshas_eq, e2]

example : (bseq [1] [1, 0, 0]).map (·.1) = .ok true ∧ (bseq [1] [1, 0, 2]).map (·.1) = .ok false := by
  decide

/-- **C04, inclusion.**  `bsissubset(a, b)` decides whether `b` is a subset of `a`. -/
theorem bsissubset_iff (a b : BS) : ∃ r a' b', bsissubset a b = .ok (r, a', b') ∧
    (r = true ↔ ∀ x, bshas b x = .ok true → bshas a x = .ok true) ∧
    (∀ x, bshas a' x = bshas a x) ∧ (∀ x, bshas b' x = bshas b x) := by
  unfold bsissubset
  simp only
  rw [all2_eq _ _ _ (eqsz_length a b).le]
  have e1 : ∀ x, mem (eqsz a b).1 x = mem a x := fun x => mem_ensurelen _ _ _
  have e2 : ∀ x, mem (eqsz a b).2 x = mem b x := fun x => mem_ensurelen _ _ _
  refine ⟨_, _, _, rfl, ?_, ?_, ?_⟩
  · simp only [decide_eq_true_eq, bshas_eq, Res.ok.injEq, beq_iff_eq]
    constructor
    · intro h x hx
      rw [← e2] at hx
      rw [← e1]
      have hl : x / CBitset.W < (eqsz a b).1.length := by
        rw [eqsz_length]
        exact (Nat.div_lt_iff_lt_mul (by decide)).2 (mem_lt hx)
      unfold mem at *
      rw [← h _ hl, BitVec.getLsbD_and, Bool.and_eq_true] at hx
      exact hx.2
    · intro h i hi
      apply BitVec.eq_of_getLsbD_eq
      intro k hk
      have := h (64 * i + k)
      rw [BitVec.getLsbD_and, getD_bit _ _ _ hk, getD_bit _ _ _ hk, e1, e2]
      revert this
      cases mem a (64 * i + k) <;> cases mem b (64 * i + k) <;> simp
  · intro x; rw [bshas_eq, bshas_eq, e1]
  · intro x; rw [bshas_eq, bshas_eq, e2]

example : (bsissubset [3, 7] [1]).map (·.1) = .ok true ∧ (bsissubset [1] [3, 7]).map (·.1) = .ok false := by
  decide

/-- **C04, hashing.**  Sets with the same members hash alike, whatever their
capacities and whatever the hash of a slice is. -/
theorem bshash_congr {α : Type} (H : List (BitVec 64) → α) (a b : BS)
    (h : ∀ x, bshas a x = bshas b x) : bshash H a = bshash H b := by
  unfold bshash
  rw [trim_eq a b]
  intro x
  have := h x
  rw [bshas_eq, bshas_eq, Res.ok.injEq] at this
  exact this

example : bshash id [1, 0, 0] = bshash id [1] ∧ bshash id [1, 0, 2] ≠ bshash id [1] := by decide

end Verif.StdBitset
