import Verif.Bitset.Lemmas

/-!
# C01: the compiler's bit sets are finite sets of naturals

Specification: a bank of variables, each holding a set of naturals
(`Nat → Prop`), and the obvious set operations on it.
-/

namespace Verif.CBitset

/-- Client operations on a bank of bit-set variables (the API of util/util.h:70-98). -/
inductive Op where
  | put (v e : Nat)
  | del (v e : Nat)
  | union (a b : Nat)
  | intersect (a b : Nat)
  | diff (a b : Nat)
  | clear (v : Nat)
  | dup (dst src : Nat)

/-- Specification state: each variable holds a set. -/
abbrev Spec := Nat → Nat → Prop

/-- Specification of one operation. -/
def specStep (s : Spec) : Op → Spec
  | .put v e => fun w x => if w = v then x = e ∨ s v x else s w x
  | .del v e => fun w x => if w = v then x ≠ e ∧ s v x else s w x
  | .union a b => fun w x => if w = a then s a x ∨ s b x else s w x
  | .intersect a b => fun w x => if w = a then s a x ∧ s b x else s w x
  | .diff a b => fun w x => if w = a then s a x ∧ ¬ s b x else s w x
  | .clear v => fun w x => if w = v then False else s w x
  | .dup d v => fun w x => if w = d then s v x else s w x

/-- Concrete state: a bank of bit sets. -/
abbrev Bank := Nat → BS

/-- Assignment to one variable of the bank. -/
def Bank.upd (s : Bank) (v : Nat) (b : BS) : Bank := fun w => if w = v then b else s w

/-- A binary call `op(a, b)`.  Both arguments may be resized; when `a` and `b`
are the same variable the write to `a` is the one that remains. -/
def binStep (f : BS → BS → Res (BS × BS)) (s : Bank) (a b : Nat) : Res Bank := do
  let r ← f (s a) (s b)
  pure ((s.upd b r.2).upd a r.1)

/-- One API call on the modelled code. -/
def step (s : Bank) : Op → Res Bank
  | .put v e => do let r ← bsput (s v) e; pure (s.upd v r)
  | .del v e => do let r ← bsdel (s v) e; pure (s.upd v r)
  | .union a b => binStep bsunion s a b
  | .intersect a b => binStep bsintersect s a b
  | .diff a b => binStep bsdiff s a b
  | .clear v => .ok (s.upd v (bsclear (s v)))
  | .dup d v => .ok (s.upd d (bsdup (s v)))

/-- A whole history. -/
def run (s : Bank) : List Op → Res Bank
  | [] => .ok s
  | o :: os => do let s' ← step s o; run s' os

/-- The specification along a history. -/
def specRun (s : Spec) : List Op → Spec
  | [] => s
  | o :: os => specRun (specStep s o) os

theorem step_refines (s : Bank) (o : Op) : ∃ s', step s o = .ok s' ∧
    ∀ v x, mem (s' v) x = true ↔ specStep (fun v x => mem (s v) x = true) o v x := by
  have bin : ∀ (f : BitVec 64 → BitVec 64 → BitVec 64) (g : Bool → Bool → Bool) (a b : Nat),
      f 0 0 = 0 → (∀ x y k, k < 64 → (f x y).getLsbD k = g (x.getLsbD k) (y.getLsbD k)) →
      ∃ s', binStep (binop f) s a b = .ok s' ∧
        ∀ v x, mem (s' v) x = if v = a then g (mem (s a) x) (mem (s b) x) else mem (s v) x := by
    intro f g a b h0 hf
    unfold binStep
    rw [binop_eq]
    refine ⟨_, rfl, ?_⟩
    intro v x
    simp only [Bank.upd]
    split
    · exact mem_zipWith f g h0 hf _ _ _
    · split
      · next h => rw [mem_eqsz_snd, h]
      · rfl
  cases o with
  | put v e =>
    obtain ⟨r, h1, h2⟩ := bsput_spec (s v) e
    refine ⟨s.upd v r, by simp [step, h1], ?_⟩
    intro w x
    simp only [Bank.upd, specStep]
    split
    · rw [h2]; simp
    · rfl
  | del v e =>
    obtain ⟨r, h1, h2⟩ := bsdel_spec (s v) e
    refine ⟨s.upd v r, by simp [step, h1], ?_⟩
    intro w x
    simp only [Bank.upd, specStep]
    split
    · rw [h2]; simp
    · rfl
  | union a b =>
    obtain ⟨s', h1, h2⟩ := bin (· ||| ·) (· || ·) a b rfl (by intros; simp)
    refine ⟨s', h1, ?_⟩
    intro w x
    rw [h2]; simp only [specStep]
    split <;> simp
  | intersect a b =>
    obtain ⟨s', h1, h2⟩ := bin (· &&& ·) (· && ·) a b rfl (by intros; simp)
    refine ⟨s', h1, ?_⟩
    intro w x
    rw [h2]; simp only [specStep]
    split <;> simp
  | diff a b =>
    obtain ⟨s', h1, h2⟩ := bin (fun x y => x &&& ~~~y) (fun p q => p && !q) a b (by decide)
      (by intro x y k hk; simp only [BitVec.getLsbD_and, BitVec.getLsbD_not, hk, decide_true, Bool.true_and])
    refine ⟨s', h1, ?_⟩
    intro w x
    rw [h2]; simp only [specStep]
    split <;> simp
  | clear v =>
    refine ⟨_, rfl, ?_⟩
    intro w x
    simp only [Bank.upd, specStep]
    split
    · simp [mem_clear]
    · rfl
  | dup d v =>
    refine ⟨_, rfl, ?_⟩
    intro w x
    simp only [Bank.upd, specStep, bsdup]
    split <;> rfl

/-- **C01, membership.**  Start from a bank of freshly made sets.  After any
history of operations no call has undefined behaviour, and `bshas` answers
exactly membership in the sets obtained by the same set operations. -/
theorem bitset_history (ops : List Op) :
    ∃ s', run (fun _ => mkbs) ops = .ok s' ∧
      ∀ v x, ∃ b, bshas (s' v) x = .ok b ∧ (b = true ↔ specRun (fun _ _ => False) ops v x) := by
  have gen : ∀ (ops : List Op) (s : Bank) (t : Spec),
      (∀ v x, mem (s v) x = true ↔ t v x) →
      ∃ s', run s ops = .ok s' ∧ ∀ v x, mem (s' v) x = true ↔ specRun t ops v x := by
    intro ops
    induction ops with
    | nil => intro s t h; exact ⟨s, rfl, h⟩
    | cons o os ih =>
      intro s t h
      obtain ⟨s1, h1, h2⟩ := step_refines s o
      have ht : (fun v x => mem (s v) x = true) = t := by
        funext v x; exact propext (h v x)
      rw [ht] at h2
      obtain ⟨s', h3, h4⟩ := ih s1 _ h2
      exact ⟨s', by simp [run, h1, h3], h4⟩
  obtain ⟨s', h1, h2⟩ := gen ops (fun _ => mkbs) (fun _ _ => False) (by intro v x; simp [mem_mkbs])
  exact ⟨s', h1, fun v x => ⟨_, bshas_eq _ _, h2 v x⟩⟩

/-- A concrete history across the chunk boundary: {3,70} \ {70} ∪ {200}. -/
example : (run (fun _ => mkbs) [.put 0 3, .put 0 70, .put 1 70, .diff 0 1, .put 2 200, .union 0 2]).map
    (fun s => [3, 70, 200, 201].map (bshas (s 0))) = .ok [.ok true, .ok false, .ok true, .ok false] := by
  decide

/-- **C01, iteration step.**  `bsiter(bs,&i)` finds the least member at or
above `i`, or reports that there is none. -/
theorem bsiter_next (bs : BS) (i : Nat) :
    (∃ e, bsiter bs i = .ok (some e) ∧ i ≤ e ∧ bshas bs e = .ok true ∧
      ∀ j, i ≤ j → j < e → bshas bs j = .ok false) ∨
    (bsiter bs i = .ok none ∧ ∀ j, i ≤ j → bshas bs j = .ok false) := by
  rcases bsiter_spec bs i with ⟨e, h1, h2, h3, h4⟩ | ⟨h1, h2⟩
  · exact .inl ⟨e, h1, h2, by rw [bshas_eq, h3], fun j a b => by rw [bshas_eq, h4 j a b]⟩
  · exact .inr ⟨h1, fun j a => by rw [bshas_eq, h2 j a]⟩

example : bsiter [0, 0x8000000000000000#64, 5] 3 = .ok (some 127) := by decide

/-- The client loop `for (i = 0; bsiter(set, &i); i++) use(i);` (documented at
util/bitset.c:154-156), collecting the used values; `fuel` bounds the number
of iterations. -/
def iterate (bs : BS) : Nat → Nat → Res (List Nat)
  | 0, _ => .abort
  | fuel + 1, i => do
    match ← bsiter bs i with
    | none => pure []
    | some e => do
      let r ← iterate bs fuel (e + 1)
      pure (e :: r)

/-- **C01, iteration loop.**  The documented client loop stops after at most
`bsmax + 1` calls and visits exactly the members, each once, in increasing
order. -/
theorem iterate_members (bs : BS) :
    ∃ l, iterate bs (bsmax bs + 1) 0 = .ok l ∧ l.Pairwise (· < ·) ∧
      ∀ x, x ∈ l ↔ bshas bs x = .ok true := by
  have gen : ∀ fuel i, bsmax bs + 1 ≤ fuel + i → 0 < fuel →
      ∃ l, iterate bs fuel i = .ok l ∧ l.Pairwise (· < ·) ∧
        ∀ x, x ∈ l ↔ i ≤ x ∧ mem bs x = true := by
    intro fuel
    induction fuel with
    | zero => intro i _ h; omega
    | succ n ih =>
      intro i hle _
      rcases bsiter_spec bs i with ⟨e, h1, h2, h3, h4⟩ | ⟨h1, h2⟩
      · have hlt : e < bsmax bs := mem_lt h3
        obtain ⟨l, k1, k2, k3⟩ := ih (e + 1) (by omega) (by omega)
        refine ⟨e :: l, by simp [iterate, h1, k1], ?_, ?_⟩
        · rw [List.pairwise_cons]
          refine ⟨?_, k2⟩
          intro a ha
          have := (k3 a).1 ha
          omega
        · intro x
          rw [List.mem_cons, k3]
          constructor
          · rintro (rfl | ⟨a, b⟩)
            · exact ⟨h2, h3⟩
            · exact ⟨by omega, b⟩
          · rintro ⟨a, b⟩
            by_cases hx : x = e
            · exact .inl hx
            · right
              refine ⟨?_, b⟩
              by_contra hc
              rw [h4 x a (by omega)] at b
              exact absurd b (by decide)
      · refine ⟨[], by simp [iterate, h1], List.Pairwise.nil, ?_⟩
        intro x
        constructor
        · intro h; simp at h
        · rintro ⟨a, b⟩
          rw [h2 x a] at b
          exact absurd b (by decide)
  obtain ⟨l, h1, h2, h3⟩ := gen (bsmax bs + 1) 0 (by omega) (by omega)
  refine ⟨l, h1, h2, ?_⟩
  intro x
  rw [h3, bshas_eq]
  simp

example : iterate [5, 0, 1] (bsmax [5, 0, 1] + 1) 0 = .ok [0, 2, 128] := by decide

/-- **C01, cardinality.**  `bscount` is the length of any duplicate-free list of
exactly the members. -/
theorem bscount_card (bs : BS) (l : List Nat) (hn : l.Nodup)
    (hm : ∀ x, x ∈ l ↔ bshas bs x = .ok true) : bscount bs = l.length := by
  rw [bscount_eq]
  have hp : ((List.range (bsmax bs)).filter (fun j => mem bs j)).Perm l := by
    rw [List.perm_ext_iff_of_nodup (List.nodup_range.sublist List.filter_sublist) hn]
    intro x
    rw [hm, bshas_eq]
    simp only [List.mem_filter, List.mem_range, Res.ok.injEq]
    constructor
    · exact fun h => h.2
    · exact fun h => ⟨mem_lt h, h⟩
  exact hp.length_eq

example : bscount [5, 0, 1] = [0, 2, 128].length := by decide

/-- **C01, equality.**  `bseq` decides equality of the sets, whatever the
capacities, and changes neither. -/
theorem bseq_iff (a b : BS) : ∃ r a' b', bseq (some a) (some b) = .ok (r, some a', some b') ∧
    (r = true ↔ ∀ x, bshas a x = bshas b x) ∧
    (∀ x, bshas a' x = bshas a x) ∧ (∀ x, bshas b' x = bshas b x) := by
  unfold bseq
  simp only
  rw [all2_eq _ _ _ (eqsz_length a b).le]
  refine ⟨_, _, _, rfl, ?_, ?_, ?_⟩
  · simp only [decide_eq_true_eq, bshas_eq, Res.ok.injEq]
    constructor
    · intro h x
      rw [← mem_eqsz_fst a b, ← mem_eqsz_snd a b]
      unfold mem
      by_cases hx : x / W < (eqsz a b).1.length
      · rw [eq_of_beq (h _ hx)]
      · simp only [List.getD]
        rw [List.getElem?_eq_none (by omega),
          List.getElem?_eq_none (by have := eqsz_length a b; omega)]
    · intro h i hi
      rw [beq_iff_eq]
      apply BitVec.eq_of_getLsbD_eq
      intro k hk
      have := h (W * i + k)
      rw [← mem_eqsz_fst a b, ← mem_eqsz_snd a b] at this
      unfold mem at this
      rw [Nat.mul_add_div (by decide), Nat.mul_add_mod, Nat.div_eq_of_lt hk, Nat.mod_eq_of_lt hk] at this
      exact this
  · intro x; rw [bshas_eq, bshas_eq, mem_eqsz_fst]
  · intro x; rw [bshas_eq, bshas_eq, mem_eqsz_snd]

example : (bseq (some [1]) (some [1, 0, 0])).map (·.1) = .ok true := by decide
example : (bseq (some [1]) (some [1, 0, 2])).map (·.1) = .ok false := by decide

/-- **C01, emptiness.** -/
theorem bsisempty_iff (a : BS) : bsisempty (some a) = true ↔ ∀ x, bshas a x = .ok false := by
  simp only [bsisempty, List.all_eq_true, beq_iff_eq, bshas_eq, Res.ok.injEq]
  constructor
  · intro h x
    unfold mem
    simp only [List.getD]
    cases hx : a[x / W]? with
    | none => simp
    | some c =>
      have := h c (List.mem_of_getElem? hx)
      simp [this]
  · intro h c hc
    obtain ⟨i, hi, rfl⟩ := List.getElem_of_mem hc
    apply BitVec.eq_of_getLsbD_eq
    intro k hk
    have := h (W * i + k)
    unfold mem at this
    rw [Nat.mul_add_div (by decide), Nat.mul_add_mod, Nat.div_eq_of_lt hk, Nat.mod_eq_of_lt hk] at this
    simp only [List.getD, Nat.add_zero, List.getElem?_eq_getElem hi, Option.getD_some] at this
    simpa using this

example : bsisempty (some [0, 0]) = true ∧ bsisempty (some [0, 4]) = false := by decide

/-- **C01, inclusion.**  `bsissubset(a, b)` decides whether `a` is a subset of `b`.
(The parameters are called `set` and `sub`; the code tests `set ⊆ sub`.) -/
theorem bsissubset_iff (a b : BS) : ∃ r a' b', bsissubset a b = .ok (r, a', b') ∧
    (r = true ↔ ∀ x, bshas a x = .ok true → bshas b x = .ok true) ∧
    (∀ x, bshas a' x = bshas a x) ∧ (∀ x, bshas b' x = bshas b x) := by
  unfold bsissubset
  simp only
  rw [all2_eq _ _ _ (eqsz_length a b).le]
  refine ⟨_, _, _, rfl, ?_, ?_, ?_⟩
  · simp only [decide_eq_true_eq, bshas_eq, Res.ok.injEq, beq_iff_eq]
    constructor
    · intro h x hx
      rw [← mem_eqsz_fst a b] at hx
      rw [← mem_eqsz_snd a b]
      have hl : x / W < (eqsz a b).1.length :=
        (Nat.div_lt_iff_lt_mul (by decide)).2 (mem_lt hx)
      unfold mem at *
      rw [← h _ hl, BitVec.getLsbD_and, Bool.and_eq_true] at hx
      exact hx.1
    · intro h i hi
      apply BitVec.eq_of_getLsbD_eq
      intro k hk
      have := h (W * i + k)
      rw [← mem_eqsz_fst a b, ← mem_eqsz_snd a b] at this
      unfold mem at this
      rw [Nat.mul_add_div (by decide), Nat.mul_add_mod, Nat.div_eq_of_lt hk, Nat.mod_eq_of_lt hk] at this
      rw [BitVec.getLsbD_and]
      simp only [Nat.add_zero] at this
      revert this
      cases ((eqsz a b).1.getD i 0).getLsbD k <;> cases ((eqsz a b).2.getD i 0).getLsbD k <;> simp
  · intro x; rw [bshas_eq, bshas_eq, mem_eqsz_fst]
  · intro x; rw [bshas_eq, bshas_eq, mem_eqsz_snd]

example : (bsissubset [1] [3, 7]).map (·.1) = .ok true := by decide
example : (bsissubset [3, 7] [1]).map (·.1) = .ok false := by decide

end Verif.CBitset
