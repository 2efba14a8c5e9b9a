import Verif.Bitset.Model

/-! Helper lemmas for the compiler bit sets. -/

namespace Verif.CBitset

/-- Membership as a Boolean, total version used inside proofs. -/
def mem (bs : BS) (e : Nat) : Bool := (bs.getD (e / W) 0).getLsbD (e % W)

theorem and_bit_ne (c : BitVec 64) (k : Nat) (hk : k < 64) :
    (c &&& (1#64 <<< k) ≠ 0) ↔ c.getLsbD k = true := by
  constructor
  · intro h
    by_contra hc
    apply h
    apply BitVec.eq_of_getLsbD_eq
    intro i hi
    simp only [BitVec.getLsbD_and, BitVec.getLsbD_shiftLeft, BitVec.getLsbD_one,
      BitVec.ofNat_eq_ofNat, BitVec.getLsbD_zero]
    by_cases hik : i = k
    · subst hik; simp [hc]
    · by_cases h2 : i < k
      · simp [h2]
      · have : i - k ≠ 0 := by omega
        simp [this]
  · intro h hc
    have := congrArg (fun x => BitVec.getLsbD x k) hc
    simp only [BitVec.getLsbD_and, h, BitVec.getLsbD_shiftLeft] at this
    simp [hk] at this

theorem mem_of_ge {bs : BS} {e : Nat} (h : bs.length * W ≤ e) : mem bs e = false := by
  have : bs.length ≤ e / W := by
    rw [Nat.le_div_iff_mul_le (by decide)]; exact h
  simp [mem, List.getD, List.getElem?_eq_none this]

theorem mem_lt {bs : BS} {e : Nat} (h : mem bs e = true) : e < bs.length * W := by
  by_contra hc
  rw [mem_of_ge (by omega)] at h
  exact absurd h (by decide)

theorem bshas_eq (bs : BS) (e : Nat) : bshas bs e = .ok (mem bs e) := by
  unfold bshas
  split
  · next h => rw [mem_of_ge h]
  · next h =>
    have hl : e / W < bs.length := by
      rw [Nat.div_lt_iff_lt_mul (by decide)]; omega
    rw [rdUB_ok hl]
    simp only [Res.bind_ok, Res.pure_eq, mem, List.getD]
    congr 1
    have := and_bit_ne bs[e / W] (e % W) (Nat.mod_lt _ (by decide))
    rw [List.getElem?_eq_getElem hl]
    simp only [Option.getD_some]
    rw [Bool.eq_iff_iff]
    rw [← this]
    simp

theorem getD_growTo (a : BS) (sz i : Nat) : (growTo a sz).getD i 0 = a.getD i 0 := by
  unfold growTo
  split
  · simp only [List.getD]
    rw [List.getElem?_append]
    split
    · rfl
    · next h =>
      rw [List.getElem?_replicate]
      rw [List.getElem?_eq_none (by omega)]
      split <;> rfl
  · rfl

theorem mem_growTo (a : BS) (sz e : Nat) : mem (growTo a sz) e = mem a e := by
  unfold mem; rw [getD_growTo]

theorem length_growTo (a : BS) (sz : Nat) (h : a.length ≤ sz) : (growTo a sz).length = sz := by
  unfold growTo
  split
  · simp; omega
  · omega

theorem eqsz_length (a b : BS) : (eqsz a b).1.length = (eqsz a b).2.length := by
  unfold eqsz
  simp only
  rw [length_growTo, length_growTo] <;> split <;> omega

theorem mem_eqsz_fst (a b : BS) (e : Nat) : mem (eqsz a b).1 e = mem a e := mem_growTo _ _ _
theorem mem_eqsz_snd (a b : BS) (e : Nat) : mem (eqsz a b).2 e = mem b e := mem_growTo _ _ _

theorem loop2_eq (f) : ∀ (a b : BS), a.length ≤ b.length → loop2 f a b = .ok (List.zipWith f a b)
  | [], _, _ => rfl
  | x :: xs, [], h => by simp at h
  | x :: xs, y :: ys, h => by
    simp only [loop2, loop2_eq f xs ys (by simpa using h), Res.bind_ok, List.zipWith, Res.pure_eq]

theorem getD_zipWith (f : BitVec 64 → BitVec 64 → BitVec 64) (h0 : f 0 0 = 0) (a b : BS)
    (hl : a.length = b.length) (i : Nat) :
    (List.zipWith f a b).getD i 0 = f (a.getD i 0) (b.getD i 0) := by
  simp only [List.getD, List.getElem?_zipWith]
  by_cases h : i < a.length
  · rw [List.getElem?_eq_getElem h, List.getElem?_eq_getElem (hl ▸ h)]
    rfl
  · rw [List.getElem?_eq_none (by omega), List.getElem?_eq_none (by omega)]
    simp only [Option.getD]
    exact h0.symm

theorem binop_eq (f) (a b : BS) :
    binop f a b = .ok (List.zipWith f (eqsz a b).1 (eqsz a b).2, (eqsz a b).2) := by
  unfold binop
  simp only
  rw [loop2_eq f _ _ (eqsz_length a b).le]
  rfl

theorem mem_zipWith (f : BitVec 64 → BitVec 64 → BitVec 64) (g : Bool → Bool → Bool)
    (h0 : f 0 0 = 0) (hf : ∀ x y k, k < 64 → (f x y).getLsbD k = g (x.getLsbD k) (y.getLsbD k))
    (a b : BS) (e : Nat) :
    mem (List.zipWith f (eqsz a b).1 (eqsz a b).2) e = g (mem a e) (mem b e) := by
  have h1 := mem_eqsz_fst a b e
  have h2 := mem_eqsz_snd a b e
  unfold mem at *
  rw [getD_zipWith f h0 _ _ (eqsz_length a b), hf _ _ _ (Nat.mod_lt _ (by decide)), h1, h2]

theorem bsput_spec (bs : BS) (e : Nat) :
    ∃ r, bsput bs e = .ok r ∧ ∀ x, mem r x = (x == e || mem bs x) := by
  unfold bsput
  simp only
  generalize hb : (if e ≥ bs.length * W then
      bs ++ List.replicate (e / W + 1 - bs.length) 0 else bs) = bs'
  have hmem : ∀ x, mem bs' x = mem bs x := by
    intro x
    subst hb
    split
    · unfold mem
      simp only [List.getD, List.getElem?_append, List.getElem?_replicate]
      split
      · rfl
      · rw [List.getElem?_eq_none (by omega)]
        split <;> rfl
    · rfl
  have hlen : e / W < bs'.length := by
    subst hb
    split
    · next h =>
      have : bs.length ≤ e / W := (Nat.le_div_iff_mul_le (by decide)).2 h
      simp; omega
    · next h => exact (Nat.div_lt_iff_lt_mul (by decide)).2 (by omega)
  rw [rdUB_ok hlen]
  simp only [Res.bind_ok]
  rw [wrUB_ok _ hlen]
  refine ⟨_, rfl, ?_⟩
  intro x
  rw [← hmem x]
  unfold mem
  simp only [List.getD, List.getElem?_set]
  have hxm := Nat.mod_lt x (show W > 0 by decide)
  have hem := Nat.mod_lt e (show W > 0 by decide)
  by_cases hq : e / W = x / W
  · simp only [hq, if_true]
    have hlen' : x / W < bs'.length := hq ▸ hlen
    simp only [hlen', if_true, Option.getD_some, BitVec.getLsbD_or, BitVec.getLsbD_shiftLeft,
      BitVec.getLsbD_one, List.getElem?_eq_getElem hlen']
    by_cases hr : x % W = e % W
    · have : x = e := by
        rw [← Nat.div_add_mod x W, ← Nat.div_add_mod e W, hq, hr]
      subst this
      simp [hxm]
    · have hne : x ≠ e := by intro h; exact hr (by rw [h])
      have : ¬ (x % W < W ∧ x % W ≥ e % W ∧ x % W - e % W = 0) := by omega
      have hb : (x == e) = false := by simpa using hne
      rw [hb]
      by_cases h2 : x % W < e % W
      · simp [h2]
      · have h3 : ¬ (x % W - e % W = 0) := by omega
        simp [h3]
  · have hne : x ≠ e := by intro h; exact hq (by rw [h])
    have hb : (x == e) = false := by simpa using hne
    simp [hq, hb]

theorem bsdel_spec (bs : BS) (e : Nat) :
    ∃ r, bsdel bs e = .ok r ∧ ∀ x, mem r x = (x != e && mem bs x) := by
  unfold bsdel
  split
  · next h =>
    have hlen : e / W < bs.length := (Nat.div_lt_iff_lt_mul (by decide)).2 h
    rw [rdUB_ok hlen]
    simp only [Res.bind_ok]
    rw [wrUB_ok _ hlen]
    refine ⟨_, rfl, ?_⟩
    intro x
    unfold mem
    simp only [List.getD, List.getElem?_set]
    have hxm := Nat.mod_lt x (show W > 0 by decide)
    have hem := Nat.mod_lt e (show W > 0 by decide)
    by_cases hq : e / W = x / W
    · simp only [hq, if_true]
      have hlen' : x / W < bs.length := hq ▸ hlen
      simp only [hlen', if_true, Option.getD_some, BitVec.getLsbD_and, BitVec.getLsbD_not,
        BitVec.getLsbD_shiftLeft,
        BitVec.getLsbD_one, List.getElem?_eq_getElem hlen']
      by_cases hr : x % W = e % W
      · have : x = e := by
          rw [← Nat.div_add_mod x W, ← Nat.div_add_mod e W, hq, hr]
        subst this
        simp [hxm]
      · have hne : x ≠ e := by intro h; exact hr (by rw [h])
        have hb : (x != e) = true := by simpa using hne
        rw [hb]
        by_cases h2 : x % W < e % W
        · simp [h2, hxm]
        · have h3 : ¬ (x % W - e % W = 0) := by omega
          simp [h3, hxm]
    · have hne : x ≠ e := by intro h; exact hq (by rw [h])
      have hb : (x != e) = true := by simpa using hne
      simp [hq, hb]
  · next h =>
    refine ⟨bs, rfl, ?_⟩
    intro x
    by_cases hx : x = e
    · subst hx; rw [mem_of_ge (by omega)]; simp
    · simp [hx]

theorem mem_clear (bs : BS) (e : Nat) : mem (bsclear bs) e = false := by
  unfold mem bsclear
  simp only [List.getD, List.getElem?_map]
  cases bs[e / W]? <;> simp

theorem mem_mkbs (e : Nat) : mem mkbs e = false := by
  unfold mem mkbs
  simp only [List.getD]
  cases h : e / W <;> simp

theorem all2_eq (f) : ∀ (a b : BS), a.length ≤ b.length →
    all2 f a b = .ok (decide (∀ i, i < a.length → f (a.getD i 0) (b.getD i 0) = true))
  | [], _, _ => by simp [all2]
  | x :: xs, [], h => by simp at h
  | x :: xs, y :: ys, h => by
    simp only [all2]
    split
    · next hf =>
      rw [all2_eq f xs ys (by simpa using h)]
      congr 1
      rw [decide_eq_decide]
      constructor
      · intro h1 i hi
        cases i with
        | zero => simpa using hf
        | succ n => simpa using h1 n (by simpa using hi)
      · intro h1 i hi
        simpa using h1 (i + 1) (by simpa using hi)
    · next hf =>
      congr 1
      symm
      rw [decide_eq_false_iff_not]
      intro h1
      exact hf (by simpa using h1 0 (by simp))

/-! ### `firstbit` -/

/-- `f` is the position of the lowest set bit of `b`. -/
def IsLow (b : BitVec 64) (f : Nat) : Prop := b.getLsbD f = true ∧ ∀ j, j < f → b.getLsbD j = false

theorem and_mask_zero (b : BitVec 64) (k : Nat) (hk : k < 64) :
    b &&& BitVec.ofNat 64 (2 ^ k - 1) = 0 ↔ ∀ j, j < k → b.getLsbD j = false := by
  have key : ∀ j, (BitVec.ofNat 64 (2 ^ k - 1)).getLsbD j = (decide (j < 64) && decide (j < k)) := by
    intro j
    rw [BitVec.getLsbD_ofNat, Nat.testBit_two_pow_sub_one]
  constructor
  · intro h j hj
    have := congrArg (fun x => BitVec.getLsbD x j) h
    simp only [BitVec.getLsbD_and, key] at this
    simpa [hj, show j < 64 by omega] using this
  · intro h
    apply BitVec.eq_of_getLsbD_eq
    intro j hj
    rw [BitVec.getLsbD_and, key]
    by_cases hjk : j < k
    · simp [h j hjk]
    · simp [hjk]

/-- One halving stage of `firstbit` keeps "lowest bit of the original is `n` +
lowest bit of the rest". -/
theorem stage (b : BitVec 64) (k : Nat) (hk : k < 64) (f : Nat)
    (hz : b &&& BitVec.ofNat 64 (2 ^ k - 1) = 0) (h : IsLow (b >>> k) f) : IsLow b (k + f) := by
  rw [and_mask_zero b k hk] at hz
  refine ⟨by simpa using h.1, ?_⟩
  intro j hj
  by_cases hjk : j < k
  · exact hz j hjk
  · have := h.2 (j - k) (by omega)
    rw [BitVec.getLsbD_ushiftRight] at this
    simpa [show k + (j - k) = j by omega] using this

theorem shift_ne_zero (b : BitVec 64) (k : Nat) (hk : k < 64)
    (hz : b &&& BitVec.ofNat 64 (2 ^ k - 1) = 0) (hb : b ≠ 0) : b >>> k ≠ 0 := by
  intro h0
  apply hb
  rw [and_mask_zero b k hk] at hz
  apply BitVec.eq_of_getLsbD_eq
  intro j hj
  by_cases hjk : j < k
  · simpa using hz j hjk
  · have := congrArg (fun x => BitVec.getLsbD x (j - k)) h0
    simp only [BitVec.getLsbD_ushiftRight] at this
    simpa [show k + (j - k) = j by omega] using this

/-- The nibble table is right for each of the 15 non-zero nibbles. -/
theorem nibble_table : ∀ n : Fin 16, n.val ≠ 0 →
    ∃ k, bitsTab[n.val]? = some k ∧ k < 4 ∧ n.val.testBit k = true ∧
      ∀ j, j < k → n.val.testBit j = false := by
  decide

theorem firstbit_spec (b : BitVec 64) (hb : b ≠ 0) : ∃ f, firstbit b = .ok f ∧ f < 64 ∧ IsLow b f := by
  -- a generic stage: (n, b) with `b` nonzero
  have nib : ∀ c : BitVec 64, c &&& 0xf#64 ≠ 0 →
      ∃ k, rdUB bitsTab (c &&& 0xf#64).toNat = .ok k ∧ IsLow c k := by
    intro c hc
    have hm : (c &&& 0xf#64).toNat = c.toNat % 16 := by
      rw [BitVec.toNat_and]
      exact Nat.and_two_pow_sub_one_eq_mod c.toNat 4
    have hn0 : c.toNat % 16 ≠ 0 := by
      intro h
      apply hc
      apply BitVec.eq_of_toNat_eq
      rw [hm, h]; rfl
    obtain ⟨k, h1, h2, h3, h4⟩ := nibble_table ⟨c.toNat % 16, Nat.mod_lt _ (by decide)⟩ hn0
    refine ⟨k, ?_, ?_, ?_⟩
    · rw [hm]; simp only at h1; simp [rdUB, h1]
    · simp only at h3
      rw [show (16:Nat) = 2 ^ 4 from rfl, Nat.testBit_mod_two_pow] at h3
      simpa [BitVec.getLsbD, h2] using h3
    · intro j hj
      have := h4 j hj
      simp only at this
      rw [show (16:Nat) = 2 ^ 4 from rfl, Nat.testBit_mod_two_pow] at this
      simpa [BitVec.getLsbD, show j < 4 by omega] using this
  have e32 : (0xffffffff#64) = BitVec.ofNat 64 (2 ^ 32 - 1) := rfl
  have e16 : (0xffff#64) = BitVec.ofNat 64 (2 ^ 16 - 1) := rfl
  have e8 : (0xff#64) = BitVec.ofNat 64 (2 ^ 8 - 1) := rfl
  have e4 : (0xf#64) = BitVec.ofNat 64 (2 ^ 4 - 1) := rfl
  -- work backwards: after the last stage the low nibble is non-zero
  have split_nz : ∀ (c : BitVec 64) (k w : Nat), k < 64 → w = 2 * k → w ≤ 64 →
      (∃ j, j < w ∧ c.getLsbD j = true) → c &&& BitVec.ofNat 64 (2 ^ k - 1) = 0 →
      ∃ j, j < k ∧ (c >>> k).getLsbD j = true := by
    intro c k w hk hw _ ⟨j, hj, hc⟩ hz
    rw [and_mask_zero c k hk] at hz
    have : ¬ j < k := by
      intro h; rw [hz j h] at hc; exact absurd hc (by decide)
    refine ⟨j - k, by omega, ?_⟩
    rw [BitVec.getLsbD_ushiftRight]
    simpa [show k + (j - k) = j by omega] using hc
  have nz_of : ∀ (c : BitVec 64) (k : Nat), k < 64 → c &&& BitVec.ofNat 64 (2 ^ k - 1) ≠ 0 →
      ∃ j, j < k ∧ c.getLsbD j = true := by
    intro c k hk h
    rw [ne_eq, and_mask_zero c k hk] at h
    by_contra hc
    apply h
    intro j hj
    by_contra hx
    exact hc ⟨j, hj, by simpa using hx⟩
  have h64 : ∃ j, j < 64 ∧ b.getLsbD j = true := by
    by_contra hc
    apply hb
    apply BitVec.eq_of_getLsbD_eq
    intro j hj
    by_contra hx
    exact hc ⟨j, hj, by simpa using hx⟩
  have lt64 : ∀ f, IsLow b f → f < 64 := by
    intro f hf
    by_contra hc
    have := hf.1
    rw [BitVec.getLsbD_of_ge _ _ (by omega)] at this
    exact absurd this (by decide)
  suffices h : ∃ f, firstbit b = .ok f ∧ IsLow b f by
    obtain ⟨f, h1, h2⟩ := h
    exact ⟨f, h1, lt64 f h2, h2⟩
  unfold firstbit
  -- stage 32
  obtain ⟨n1, c1, hs1, hn1, hc1⟩ : ∃ n1 c1, (if b &&& 0xffffffff#64 = 0 then (32, b >>> 32) else (0, b))
      = (n1, c1) ∧ (∀ f, IsLow c1 f → IsLow b (n1 + f)) ∧ ∃ j, j < 32 ∧ c1.getLsbD j = true := by
    rw [e32]
    split
    · next h => exact ⟨_, _, rfl, fun f hf => stage b 32 (by decide) f h hf,
        split_nz b 32 64 (by decide) rfl (by decide) h64 h⟩
    · next h => exact ⟨_, _, rfl, fun f hf => by simpa using hf, nz_of b 32 (by decide) h⟩
  simp only [hs1]
  obtain ⟨n2, c2, hs2, hn2, hc2⟩ : ∃ n2 c2, (if c1 &&& 0xffff#64 = 0 then (n1 + 16, c1 >>> 16) else (n1, c1))
      = (n2, c2) ∧ (∀ f, IsLow c2 f → IsLow b (n2 + f)) ∧ ∃ j, j < 16 ∧ c2.getLsbD j = true := by
    rw [e16]
    split
    · next h => exact ⟨_, _, rfl, fun f hf => by
          have := hn1 _ (stage c1 16 (by decide) f h hf); rwa [← Nat.add_assoc] at this,
        split_nz c1 16 32 (by decide) rfl (by decide) hc1 h⟩
    · next h => exact ⟨_, _, rfl, hn1, nz_of c1 16 (by decide) h⟩
  simp only [hs2]
  obtain ⟨n3, c3, hs3, hn3, hc3⟩ : ∃ n3 c3, (if c2 &&& 0xff#64 = 0 then (n2 + 8, c2 >>> 8) else (n2, c2))
      = (n3, c3) ∧ (∀ f, IsLow c3 f → IsLow b (n3 + f)) ∧ ∃ j, j < 8 ∧ c3.getLsbD j = true := by
    rw [e8]
    split
    · next h => exact ⟨_, _, rfl, fun f hf => by
          have := hn2 _ (stage c2 8 (by decide) f h hf); rwa [← Nat.add_assoc] at this,
        split_nz c2 8 16 (by decide) rfl (by decide) hc2 h⟩
    · next h => exact ⟨_, _, rfl, hn2, nz_of c2 8 (by decide) h⟩
  simp only [hs3]
  obtain ⟨n4, c4, hs4, hn4, hc4⟩ : ∃ n4 c4, (if c3 &&& 0xf#64 = 0 then (n3 + 4, c3 >>> 4) else (n3, c3))
      = (n4, c4) ∧ (∀ f, IsLow c4 f → IsLow b (n4 + f)) ∧ ∃ j, j < 4 ∧ c4.getLsbD j = true := by
    rw [e4]
    split
    · next h => exact ⟨_, _, rfl, fun f hf => by
          have := hn3 _ (stage c3 4 (by decide) f h hf); rwa [← Nat.add_assoc] at this,
        split_nz c3 4 8 (by decide) rfl (by decide) hc3 h⟩
    · next h => exact ⟨_, _, rfl, hn3, nz_of c3 4 (by decide) h⟩
  simp only [hs4]
  have hne : c4 &&& 0xf#64 ≠ 0 := by
    obtain ⟨j, hj, hc⟩ := hc4
    rw [e4]
    intro h
    rw [and_mask_zero c4 4 (by decide)] at h
    rw [h j hj] at hc
    exact absurd hc (by decide)
  obtain ⟨k, hk1, hk2⟩ := nib c4 hne
  exact ⟨n4 + k, by rw [hk1]; rfl, hn4 k hk2⟩

/-! ### iteration -/

theorem mem_block (c : BitVec 64) (rest : BS) (e : Nat) :
    mem (c :: rest) e = if e < 64 then c.getLsbD e else mem rest (e - 64) := by
  unfold mem
  split
  · next h =>
    rw [Nat.div_eq_of_lt h, Nat.mod_eq_of_lt h]; rfl
  · next h =>
    have h1 : e / W = (e - 64) / W + 1 := by
      show e / 64 = (e - 64) / 64 + 1
      omega
    have h2 : e % W = (e - 64) % W := by
      show e % 64 = (e - 64) % 64
      omega
    rw [h1, h2]; rfl

theorem iterLoop_spec : ∀ (rest : BS) (t : Nat) (b : BitVec 64),
    (∃ e, iterLoop t b rest = .ok (some (W * t + e)) ∧ mem (b :: rest) e = true ∧
      ∀ j, j < e → mem (b :: rest) j = false) ∨
    (iterLoop t b rest = .ok none ∧ ∀ j, mem (b :: rest) j = false) := by
  intro rest
  induction rest with
  | nil =>
    intro t b
    unfold iterLoop
    by_cases hb : b = 0
    · right
      refine ⟨by simp [hb], ?_⟩
      intro j
      rw [mem_block, hb]
      split
      · simp
      · unfold mem; simp
    · left
      obtain ⟨f, h1, h2, h3, h4⟩ := firstbit_spec b hb
      refine ⟨f, by rw [if_neg hb, h1]; rfl, ?_, ?_⟩
      · rw [mem_block, if_pos h2]; exact h3
      · intro j hj
        rw [mem_block, if_pos (by omega)]; exact h4 j hj
  | cons c rest' ih =>
    intro t b
    unfold iterLoop
    by_cases hb : b = 0
    · simp only [hb, if_true]
      rcases ih (t + 1) c with ⟨e, h1, h2, h3⟩ | ⟨h1, h2⟩
      · left
        refine ⟨e + 64, ?_, ?_, ?_⟩
        · rw [h1]; congr 2; show 64 * (t + 1) + e = 64 * t + (e + 64); omega
        · rw [mem_block]; simp [h2]
        · intro j hj
          rw [mem_block]
          split
          · simp
          · exact h3 _ (by omega)
      · right
        refine ⟨h1, ?_⟩
        intro j
        rw [mem_block]
        split
        · simp
        · exact h2 _
    · left
      obtain ⟨f, h1, h2, h3, h4⟩ := firstbit_spec b hb
      refine ⟨f, by rw [if_neg hb, h1]; rfl, ?_, ?_⟩
      · rw [mem_block, if_pos h2]; exact h3
      · intro j hj
        rw [mem_block, if_pos (by omega)]; exact h4 j hj

theorem mem_drop (bs : BS) (t e : Nat) : mem (bs.drop t) e = mem bs (W * t + e) := by
  unfold mem
  simp only [List.getD, List.getElem?_drop]
  rw [Nat.mul_add_div (by decide), Nat.mul_add_mod]

theorem mask_bit (c : BitVec 64) (r j : Nat) (hr : r < 64) :
    (c &&& ~~~((1#64 <<< r) - 1#64)).getLsbD j = (decide (r ≤ j) && c.getLsbD j) := by
  have h1 : (1#64 <<< r) - 1#64 = BitVec.ofNat 64 (2 ^ r - 1) := by
    have hp : 2 ^ r < 2 ^ 64 := Nat.pow_lt_pow_right (by decide) hr
    have hp' : 1 ≤ 2 ^ r := Nat.one_le_two_pow
    apply BitVec.eq_of_toNat_eq
    rw [BitVec.toNat_sub, BitVec.toNat_shiftLeft, BitVec.toNat_ofNat]
    simp only [BitVec.toNat_ofNat, show (1 : Nat) % 2 ^ 64 = 1 from rfl, Nat.one_shiftLeft]
    rw [Nat.mod_eq_of_lt hp]
    omega
  rw [h1, BitVec.getLsbD_and, BitVec.getLsbD_not, BitVec.getLsbD_ofNat, Nat.testBit_two_pow_sub_one]
  by_cases hj : j < 64
  · by_cases hrj : r ≤ j
    · simp [hj, hrj, show ¬ j < r by omega]
    · simp [hj, hrj, show j < r by omega]
  · rw [BitVec.getLsbD_of_ge c j (by omega)]; simp

theorem bsiter_spec (bs : BS) (i : Nat) :
    (∃ e, bsiter bs i = .ok (some e) ∧ i ≤ e ∧ mem bs e = true ∧
      ∀ j, i ≤ j → j < e → mem bs j = false) ∨
    (bsiter bs i = .ok none ∧ ∀ j, i ≤ j → mem bs j = false) := by
  unfold bsiter
  have hi := Nat.div_add_mod i W
  have hr : i % W < 64 := Nat.mod_lt i (by decide)
  generalize hd : bs.drop (i / W) = d
  cases d with
  | nil =>
    right
    refine ⟨by simp [hd], ?_⟩
    intro j hj
    apply mem_of_ge
    have := List.drop_eq_nil_iff.1 hd
    calc bs.length * W ≤ (i / W) * W := Nat.mul_le_mul_right _ this
      _ ≤ i := Nat.div_mul_le_self i W
      _ ≤ j := hj
  | cons c rest =>
    simp only [hd]
    have hm : ∀ e, mem ((c &&& ~~~((1#64 <<< (i % W)) - 1#64)) :: rest) e =
        (decide (i % W ≤ e) && mem bs (W * (i / W) + e)) := by
      intro e
      rw [← mem_drop, hd, mem_block, mem_block]
      split
      · rw [mask_bit _ _ _ hr]
      · simp [show i % W ≤ e by omega]
    rcases iterLoop_spec rest (i / W) (c &&& ~~~((1#64 <<< (i % W)) - 1#64)) with ⟨e, h1, h2, h3⟩ | ⟨h1, h2⟩
    · left
      rw [hm] at h2
      simp only [Bool.and_eq_true, decide_eq_true_eq] at h2
      refine ⟨W * (i / W) + e, h1, by omega, h2.2, ?_⟩
      intro j hj1 hj2
      have := h3 (j - W * (i / W)) (by omega)
      rw [hm] at this
      have h5 : i % W ≤ j - W * (i / W) := by omega
      rw [show W * (i / W) + (j - W * (i / W)) = j by omega] at this
      simpa [h5] using this
    · right
      refine ⟨h1, ?_⟩
      intro j hj
      have := h2 (j - W * (i / W))
      rw [hm] at this
      have h5 : i % W ≤ j - W * (i / W) := by omega
      rw [show W * (i / W) + (j - W * (i / W)) = j by omega] at this
      simpa [h5] using this

/-! ### counting -/

theorem countBits_eq (c : BitVec 64) : ∀ k, k ≤ 64 →
    countBits c k = ((List.range k).filter (fun j => c.getLsbD j)).length
  | 0, _ => rfl
  | k + 1, h => by
    rw [countBits, countBits_eq c k (by omega), List.range_succ, List.filter_append,
      List.length_append]
    congr 1
    have := and_bit_ne c k (by omega)
    by_cases hc : c.getLsbD k = true
    · rw [if_pos (this.2 hc)]; simp [hc]
    · rw [if_neg (fun h => hc (this.1 h))]; simp [hc]

theorem bscount_eq : ∀ bs : BS,
    bscount bs = ((List.range (bsmax bs)).filter (fun j => mem bs j)).length
  | [] => rfl
  | c :: cs => by
    rw [bscount, countBits_eq c 64 (le_refl _), bscount_eq cs]
    have h1 : bsmax (c :: cs) = 64 + bsmax cs := by
      unfold bsmax; simp only [List.length_cons]; show (cs.length + 1) * 64 = 64 + cs.length * 64; omega
    rw [h1, List.range_add, List.filter_append, List.length_append]
    have e1 : (List.range 64).filter (fun j => mem (c :: cs) j) =
        (List.range 64).filter (fun j => c.getLsbD j) := by
      apply List.filter_congr
      intro j hj
      rw [mem_block, if_pos (List.mem_range.1 hj)]
    have e2 : (((List.range (bsmax cs)).map (fun x => 64 + x)).filter (fun j => mem (c :: cs) j)).length =
        ((List.range (bsmax cs)).filter (fun j => mem cs j)).length := by
      rw [List.filter_map, List.length_map]
      congr 1
      apply List.filter_congr
      intro j _
      simp [mem_block]
    rw [e1, e2]

end Verif.CBitset
