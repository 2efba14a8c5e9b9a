import Verif.Ct.Model

/-!
# C86: the constant-time primitives

The header of `ct.myr` asks for unsigned inputs; the theorems about the generic
functions are for unsigned types of every width. Truth values are 1 and 0.

* `eq_means`, `ne_means`, `gt_means`, `le_means`, `not_means`, `mux_means`.
* `lt_violated`: `lt`, `ge`, `min` and `max` are wrong when exactly one operand has
  its top bit set and the difference does not; `lt_partial` and `min_max_partial`
  say when they are right, and that they are wrong otherwise.
* `bufeq_violated`, `bufeq_partial`: `bufeq` compares buffers of the same length;
  with different lengths it compares prefixes or stops the program.
-/

namespace Verif.Ct

variable {w : Nat}

/-- A truth value. -/
def truth (w : Nat) (p : Prop) [Decidable p] : BitVec w := if p then 1#w else 0#w

theorem top_shr {x : BitVec w} (hw : 0 < w) : shr false x (w - 1) = truth w (x.msb = true) := by
  unfold shr truth
  rw [if_neg (by decide)]
  apply BitVec.eq_of_toNat_eq
  rw [BitVec.toNat_ushiftRight, Nat.shiftRight_eq_div_pow]
  have h1 : 2 ^ w = 2 ^ (w - 1) * 2 := by rw [← Nat.pow_succ]; congr 1; omega
  have h2 := x.isLt
  have h3 := Nat.two_pow_pos (w - 1)
  have h4 : (1#w).toNat = 1 := by
    rw [BitVec.toNat_ofNat]; apply Nat.mod_eq_of_lt; omega
  by_cases h : x.msb = true
  · rw [if_pos h]
    have : 2 ^ (w - 1) ≤ x.toNat := by rw [BitVec.msb_eq_decide] at h; simpa using h
    rw [h4]
    apply Nat.div_eq_of_lt_le <;> omega
  · rw [if_neg h]
    have : x.toNat < 2 ^ (w - 1) := by rw [BitVec.msb_eq_decide] at h; simpa using h
    rw [Nat.div_eq_of_lt this]
    simp

theorem one_ne_zero (hw : 0 < w) : (1#w) ≠ 0#w := by
  intro h
  have := congrArg BitVec.toNat h
  have h2 : 2 ^ 1 ≤ 2 ^ w := Nat.pow_le_pow_right (by decide) hw
  rw [BitVec.toNat_ofNat, BitVec.toNat_ofNat, Nat.mod_eq_of_lt (by omega), Nat.zero_mod] at this
  cases this

theorem truth_not (p : Prop) [Decidable p] : truth w p ^^^ 1#w = truth w (¬ p) := by
  unfold truth
  by_cases h : p
  · rw [if_pos h, if_neg (fun hn => hn h), BitVec.xor_self]
  · rw [if_neg h, if_pos h, BitVec.zero_xor]

theorem truth_congr {p q : Prop} [Decidable p] [Decidable q] (h : p ↔ q) : truth w p = truth w q := by
  unfold truth
  by_cases hp : p
  · rw [if_pos hp, if_pos (h.1 hp)]
  · rw [if_neg hp, if_neg (fun hq => hp (h.2 hq))]

theorem or_neg_msb (hw : 0 < w) (q : BitVec w) : (q ||| -q).msb = true ↔ q ≠ 0#w := by
  rw [BitVec.msb_or]
  have h1 : 2 ^ w = 2 ^ (w - 1) * 2 := by rw [← Nat.pow_succ]; congr 1; omega
  have h2 := q.isLt
  constructor
  · intro h hz
    subst hz
    simp at h
  · intro h
    have hq : q.toNat ≠ 0 := fun h0 => h (BitVec.eq_of_toNat_eq (by rw [h0]; simp))
    have hn : (-q).toNat = 2 ^ w - q.toNat := by
      rw [BitVec.toNat_neg, Nat.mod_eq_of_lt (by omega)]
    rw [BitVec.msb_eq_decide, BitVec.msb_eq_decide, hn, Bool.or_eq_true, decide_eq_true_iff, decide_eq_true_iff]
    omega

theorem xor_zero_iff (a b : BitVec w) : a ^^^ b = 0#w ↔ a = b := by
  constructor
  · intro h
    have := congrArg (· ^^^ b) h
    simpa [BitVec.xor_assoc] using this
  · rintro rfl; exact BitVec.xor_self

/-- **C86.** `ne` is 1 exactly for different numbers. -/
theorem ne_means (hw : 0 < w) (a b : BitVec w) : ne false a b = if a = b then 0#w else 1#w := by
  unfold ne
  dsimp only
  rw [top_shr hw, truth_congr (or_neg_msb hw _), truth_congr (not_congr (xor_zero_iff a b))]
  unfold truth
  by_cases h : a = b
  · rw [if_neg (fun hn => hn h), if_pos h]
  · rw [if_pos h, if_neg h]

/-- **C86.** `eq` is 1 exactly for equal numbers. -/
theorem eq_means (hw : 0 < w) (a b : BitVec w) : eq false a b = if a = b then 1#w else 0#w := by
  show ne false a b ^^^ 1#w = _
  rw [ne_means hw]
  by_cases h : a = b
  · rw [if_pos h, if_pos h, BitVec.zero_xor]
  · rw [if_neg h, if_neg h, BitVec.xor_self]

/-- The top bit of a difference. -/
theorem sub_msb (a b : BitVec w) :
    (a - b).msb = true ↔ (b.toNat ≤ a.toNat ∧ 2 ^ (w - 1) ≤ a.toNat - b.toNat) ∨
      (a.toNat < b.toNat ∧ 2 ^ (w - 1) ≤ 2 ^ w - (b.toNat - a.toNat)) := by
  have ha := a.isLt
  have hb := b.isLt
  rw [BitVec.msb_eq_decide, decide_eq_true_iff, BitVec.toNat_sub]
  by_cases h : b.toNat ≤ a.toNat
  · have e : (2 ^ w - b.toNat + a.toNat) % 2 ^ w = a.toNat - b.toNat := by
      rw [show 2 ^ w - b.toNat + a.toNat = 2 ^ w + (a.toNat - b.toNat) by omega, Nat.add_mod_left, Nat.mod_eq_of_lt (by omega)]
    rw [e]; omega
  · have e : (2 ^ w - b.toNat + a.toNat) % 2 ^ w = 2 ^ w - (b.toNat - a.toNat) := by
      rw [show 2 ^ w - b.toNat + a.toNat = 2 ^ w - (b.toNat - a.toNat) by omega, Nat.mod_eq_of_lt (by omega)]
    rw [e]; omega

/-- **C86.** `gt` compares unsigned numbers. -/
theorem gt_means (hw : 0 < w) (a b : BitVec w) : gt false a b = if b < a then 1#w else 0#w := by
  unfold gt
  dsimp only
  rw [top_shr hw]
  refine truth_congr ?_
  have h1 : 2 ^ w = 2 ^ (w - 1) * 2 := by rw [← Nat.pow_succ]; congr 1; omega
  have ha := a.isLt
  have hb := b.isLt
  have hz := sub_msb b a
  have e1 : a.msb = decide (2 ^ (w - 1) ≤ a.toNat) := BitVec.msb_eq_decide ..
  have e2 : b.msb = decide (2 ^ (w - 1) ≤ b.toNat) := BitVec.msb_eq_decide ..
  rw [BitVec.msb_xor, BitVec.msb_and, BitVec.msb_xor, BitVec.msb_xor, e1, e2, BitVec.lt_def]
  by_cases hzz : (b - a).msb = true
  · rw [hzz]
    rw [hzz] at hz
    have hz := hz.1 rfl
    by_cases p : 2 ^ (w - 1) ≤ a.toNat <;> by_cases q : 2 ^ (w - 1) ≤ b.toNat <;> simp [p, q] <;> omega
  · have hzf : (b - a).msb = false := by simpa using hzz
    rw [hzf]
    have hz := mt hz.2 hzz
    by_cases p : 2 ^ (w - 1) ≤ a.toNat <;> by_cases q : 2 ^ (w - 1) ≤ b.toNat <;> simp [p, q] <;> omega

/-- **C86.** `le` compares unsigned numbers. -/
theorem le_means (hw : 0 < w) (a b : BitVec w) : le false a b = if a ≤ b then 1#w else 0#w := by
  unfold le
  rw [gt_means hw]
  by_cases h : b < a
  · rw [if_pos h, if_neg (by rw [BitVec.le_def]; rw [BitVec.lt_def] at h; omega)]
    exact BitVec.xor_self
  · rw [if_neg h, if_pos (by rw [BitVec.le_def]; rw [BitVec.lt_def] at h; omega)]
    exact BitVec.zero_xor

/-- **C86.** `not` exchanges 0 and 1. -/
theorem not_means (w : Nat) : not (0#w) = 1#w ∧ not (1#w) = 0#w :=
  ⟨BitVec.zero_xor, BitVec.xor_self⟩

/-- **C86.** `mux` chooses, given 1 or 0. -/
theorem mux_means (a b : BitVec w) : mux 1#w a b = a ∧ mux 0#w a b = b := by
  unfold mux
  constructor
  · rw [BitVec.neg_one_eq_allOnes, BitVec.allOnes_and, BitVec.xor_comm a b, ← BitVec.xor_assoc, BitVec.xor_self, BitVec.zero_xor]
  · simp

/-- The full claim about `lt`, `ge`, `min` and `max`. -/
def OrderClaim : Prop := ∀ (w : Nat) (a b : BitVec w), 0 < w →
  lt false a b = (if a < b then 1#w else 0#w) ∧ ge false a b = (if b ≤ a then 1#w else 0#w) ∧
    min false a b = (if a < b then a else b) ∧ max false a b = (if a < b then b else a)

/-- **C86 violated.** 128 is less than 1 and 1 the greater of the two, in bytes. -/
theorem lt_violated : ¬ OrderClaim := by
  intro h
  have := (h 8 128 1 (by decide)).1
  revert this
  decide

/-- The operands `lt` is wrong for: exactly one has its top bit set, and the
difference has not. -/
def Wraps (a b : BitVec w) : Prop := a.msb ≠ b.msb ∧ (if a.msb then ¬ (a - b).msb else (a - b).msb = true)

instance (a b : BitVec w) : Decidable (Wraps a b) := by unfold Wraps; infer_instance

/-- **C86, what holds of `lt`.** It is right for every two numbers but those that
`Wraps` describes, and wrong for all of these. -/
theorem lt_partial (hw : 0 < w) (a b : BitVec w) :
    lt false a b = (if Wraps a b then (if a < b then 0#w else 1#w) else (if a < b then 1#w else 0#w)) := by
  have e : lt false a b = truth w (((a - b).msb ^^ (b.msb ^^ a.msb)) = true) := by
    unfold lt
    dsimp only
    rw [top_shr hw, BitVec.and_self, BitVec.msb_xor, BitVec.msb_xor]
  have h1 : 2 ^ w = 2 ^ (w - 1) * 2 := by rw [← Nat.pow_succ]; congr 1; omega
  have ha := a.isLt
  have hb := b.isLt
  have hz := sub_msb a b
  have e1 : a.msb = decide (2 ^ (w - 1) ≤ a.toNat) := BitVec.msb_eq_decide ..
  have e2 : b.msb = decide (2 ^ (w - 1) ≤ b.toNat) := BitVec.msb_eq_decide ..
  have e3 : (if Wraps a b then (if a < b then 0#w else 1#w) else (if a < b then 1#w else 0#w)) =
      truth w (if Wraps a b then ¬ a < b else a < b) := by
    unfold truth
    by_cases h : Wraps a b <;> by_cases h' : a < b <;> simp [h, h']
  rw [e, e3]
  refine truth_congr ?_
  have hW : Wraps a b ↔ (a.msb ≠ b.msb ∧ (if a.msb then ¬ (a - b).msb else (a - b).msb = true)) := Iff.rfl
  simp only [hW]
  simp only [e1, e2, BitVec.lt_def]
  by_cases hzz : (a - b).msb = true
  · rw [hzz]
    rw [hzz] at hz
    have hz := hz.1 rfl
    by_cases p : 2 ^ (w - 1) ≤ a.toNat <;> by_cases q : 2 ^ (w - 1) ≤ b.toNat <;> simp [p, q] <;> omega
  · have hzf : (a - b).msb = false := by simpa using hzz
    rw [hzf]
    have hz := mt hz.2 hzz
    by_cases p : 2 ^ (w - 1) ≤ a.toNat <;> by_cases q : 2 ^ (w - 1) ≤ b.toNat <;> simp [p, q] <;> omega

/-- **C86, what holds of `ge`, `min` and `max`.** They are right outside `Wraps`;
on it `min` and `max` change places. -/
theorem min_max_partial (hw : 0 < w) (a b : BitVec w) :
    (¬ Wraps a b → ge false a b = (if b ≤ a then 1#w else 0#w) ∧ min false a b = (if a < b then a else b) ∧
      max false a b = (if a < b then b else a)) ∧
    (Wraps a b → ge false a b = (if b ≤ a then 0#w else 1#w) ∧ min false a b = (if a < b then b else a) ∧
      max false a b = (if a < b then a else b)) := by
  have hm := mux_means a b
  have hm' := mux_means b a
  unfold ge min max
  dsimp only
  rw [lt_partial hw]
  have hle : b ≤ a ↔ ¬ a < b := by rw [BitVec.le_def, BitVec.lt_def]; omega
  constructor
  · intro h
    rw [if_neg h]
    by_cases hl : a < b
    · rw [if_pos hl, if_neg (by rw [hle]; exact fun h => h hl), if_pos hl, if_pos hl, hm.1, hm'.1]
      exact ⟨BitVec.xor_self, rfl, rfl⟩
    · rw [if_neg hl, if_pos (by rw [hle]; exact hl), if_neg hl, if_neg hl, hm.2, hm'.2]
      exact ⟨BitVec.zero_xor, rfl, rfl⟩
  · intro h
    rw [if_pos h]
    by_cases hl : a < b
    · rw [if_pos hl, if_neg (by rw [hle]; exact fun h => h hl), if_pos hl, if_pos hl, hm.2, hm'.2]
      exact ⟨BitVec.zero_xor, rfl, rfl⟩
    · rw [if_neg hl, if_pos (by rw [hle]; exact hl), if_neg hl, if_neg hl, hm.1, hm'.1]
      exact ⟨BitVec.xor_self, rfl, rfl⟩

/-- Numbers on both sides of the half way mark, outside and inside `Wraps`. -/
example : ¬ Wraps (200 : BitVec 8) 10 ∧ ¬ Wraps (3 : BitVec 8) 100 ∧ Wraps (130 : BitVec 8) 10 := by decide

/-! ## bufeq -/

/-- The full claim: buffers are equal when they hold the same bytes. -/
def BufeqClaim : Prop := ∀ a b : List Byte, a.length < 2 ^ 63 → b.length < 2 ^ 63 → bufeq a b = .ok (decide (a = b))

theorem bufeqLoop_ok : ∀ (k : Nat) (a b : List Byte) (i : Nat) (r : Byte), (r = 0 ∨ r = 1) → i + k ≤ a.length → i + k ≤ b.length →
    bufeqLoop a b k i r = .ok (if r = 1 ∧ (a.drop i).take k = (b.drop i).take k then 1 else 0)
  | 0, a, b, i, r, hr, h1, h2 => by
    unfold bufeqLoop
    rcases hr with rfl | rfl <;> simp
  | k + 1, a, b, i, r, hr, h1, h2 => by
    unfold bufeqLoop
    rw [rdChk_ok (by omega), Res.bind_ok, rdChk_ok (by omega), Res.bind_ok, eq_means (by decide)]
    have e1 : (a.drop i).take (k + 1) = a[i]'(by omega) :: (a.drop (i + 1)).take k := by
      rw [List.drop_eq_getElem_cons (by omega), List.take_succ_cons]
    have e2 : (b.drop i).take (k + 1) = b[i]'(by omega) :: (b.drop (i + 1)).take k := by
      rw [List.drop_eq_getElem_cons (by omega), List.take_succ_cons]
    rw [e1, e2]
    rcases hr with rfl | rfl
    · rw [show ∀ x : Byte, mux 0 x 0 = 0 from fun x => (mux_means x 0).2, bufeqLoop_ok k a b (i + 1) 0 (.inl rfl) (by omega) (by omega)]
      simp
    · rw [show ∀ x : Byte, mux 1 x 1 = x from fun x => (mux_means x 1).1]
      by_cases h : a[i]'(by omega) = b[i]'(by omega)
      · rw [if_pos h, bufeqLoop_ok k a b (i + 1) 1#8 (.inr rfl) (by omega) (by omega), h]
        simp
      · rw [if_neg h, bufeqLoop_ok k a b (i + 1) 0#8 (.inl rfl) (by omega) (by omega)]
        simp [h]

theorem bufeqLoop_short : ∀ (k : Nat) (a b : List Byte) (i : Nat) (r : Byte), a.length < i + k → i ≤ a.length → a.length ≤ b.length →
    bufeqLoop a b k i r = .abort
  | 0, a, b, i, r, h1, h2, _ => by omega
  | k + 1, a, b, i, r, h1, h2, h3 => by
    unfold bufeqLoop
    by_cases h : i < a.length
    · rw [rdChk_ok h, Res.bind_ok, rdChk_ok (by omega), Res.bind_ok, bufeqLoop_short k a b (i + 1) _ (by omega) (by omega) h3]
    · unfold rdChk
      rw [List.getElem?_eq_none (by omega)]
      rfl

/-- `min` at a signed type, for lengths. -/
theorem size_min (m n : Nat) (hm : m < 2 ^ 63) (hn : n < 2 ^ 63) :
    (min true (BitVec.ofNat 64 m) (BitVec.ofNat 64 n)).toInt.toNat =
      if n ≤ m then n else if m % 2 = n % 2 then n else if n % 2 = 1 then n - 1 else n + 1 := by
  have em : (BitVec.ofNat 64 m).toNat = m := by rw [BitVec.toNat_ofNat, Nat.mod_eq_of_lt (by omega)]
  have en : (BitVec.ofNat 64 n).toNat = n := by rw [BitVec.toNat_ofNat, Nat.mod_eq_of_lt (by omega)]
  have toI : ∀ (x : BitVec 64) (k : Nat), x.toNat = k → k < 2 ^ 63 → x.toInt.toNat = k := by
    intro x k h1 h2
    rw [BitVec.toInt_eq_toNat_of_lt (by omega), h1]
    exact Int.toNat_natCast k
  have mm : (BitVec.ofNat 64 m).msb = false := by rw [BitVec.msb_eq_decide, em]; simpa using hm
  have mn : (BitVec.ofNat 64 n).msb = false := by rw [BitVec.msb_eq_decide, en]; simpa using hn
  unfold min lt shr
  dsimp only
  rw [if_pos rfl, BitVec.and_self]
  have hmsb : ((BitVec.ofNat 64 m - BitVec.ofNat 64 n) ^^^ (BitVec.ofNat 64 n ^^^ BitVec.ofNat 64 m)).msb = decide (m < n) := by
    rw [BitVec.msb_xor, BitVec.msb_xor, mm, mn, Bool.xor_false, Bool.xor_false]
    rw [Bool.eq_iff_iff, decide_eq_true_iff, sub_msb, em, en]
    simp only [show 64 - 1 = 63 from rfl]
    omega
  have hsar : ∀ x : BitVec 64, x.sshiftRight 63 = if x.msb then BitVec.allOnes 64 else 0#64 := by
    intro x
    apply BitVec.eq_of_getLsbD_eq
    intro i hi
    rw [BitVec.getLsbD_sshiftRight]
    by_cases h0 : i = 0
    · subst h0
      by_cases hx : x.msb = true
      · rw [if_pos hx]; simpa [BitVec.msb_eq_getLsbD_last] using hx
      · rw [if_neg hx]; simpa [BitVec.msb_eq_getLsbD_last] using hx
    · rw [if_neg (by omega)]
      by_cases hx : x.msb = true
      · rw [if_pos hx, hx, BitVec.getLsbD_allOnes]
        simp only [hi, decide_true, show ¬ 64 ≤ i by omega, decide_false, Bool.not_false, Bool.true_and]
      · rw [if_neg hx]
        simp at hx
        simp [hx]
  rw [show 64 - 1 = 63 from rfl, hsar, hmsb]
  by_cases h : m < n
  · rw [if_neg (show ¬ n ≤ m by omega), if_pos (by simpa using h)]
    have hneg : -(BitVec.allOnes 64) = 1#64 := by decide
    unfold mux
    rw [hneg]
    have par : ∀ m n : Nat, (m ^^^ n) % 2 = (m + n) % 2 := by
      intro m n
      have := Nat.xor_mod_two_pow (a := m) (b := n) (n := 1)
      rw [Nat.pow_one] at this
      rw [this]
      rcases Nat.mod_two_eq_zero_or_one m with h1 | h1 <;> rcases Nat.mod_two_eq_zero_or_one n with h2 | h2 <;>
        rw [h1, h2] <;> simp <;> omega
    have hp := par m n
    have hand : (1#64 &&& (BitVec.ofNat 64 m ^^^ BitVec.ofNat 64 n)).toNat = (m + n) % 2 := by
      rw [BitVec.toNat_and, BitVec.toNat_xor, em, en, show (1#64).toNat = 2 ^ 1 - 1 from rfl, Nat.and_comm, Nat.and_two_pow_sub_one_eq_mod]
      exact hp
    have hxor1 : n ^^^ 1 = if n % 2 = 1 then n - 1 else n + 1 := by
      have h1 : (n ^^^ 1) / 2 = n / 2 := by
        have := Nat.shiftRight_xor_distrib (a := n) (b := 1) (i := 1)
        rw [Nat.shiftRight_eq_div_pow, Nat.shiftRight_eq_div_pow, Nat.shiftRight_eq_div_pow, Nat.pow_one] at this
        rw [this]; simp
      have h2 : (n ^^^ 1) % 2 = (n + 1) % 2 := par n 1
      split <;> omega
    by_cases hpar : m % 2 = n % 2
    · rw [if_pos hpar]
      apply toI _ _ _ hn
      rw [BitVec.toNat_xor, hand, en, show (m + n) % 2 = 0 by omega, Nat.xor_zero]
    · rw [if_neg hpar]
      apply toI
      · rw [BitVec.toNat_xor, hand, en, show (m + n) % 2 = 1 by omega, hxor1]
      · split <;> omega
  · rw [if_pos (show n ≤ m by omega), if_neg (by simpa using h)]
    rw [(mux_means _ _).2]
    exact toI _ _ en hn

/-- **C86, what holds of `bufeq`.** Buffers of the same length are compared. A
longer first buffer is only compared up to the end of the second. A shorter one
stops the program whatever the buffers hold, unless it is one byte shorter and
the second has odd length: then only its own bytes are compared. -/
theorem bufeq_partial (a b : List Byte) (ha : a.length < 2 ^ 63) (hb : b.length < 2 ^ 63) :
    (a.length = b.length → bufeq a b = .ok (decide (a = b))) ∧
    (b.length ≤ a.length → bufeq a b = .ok (decide (a.take b.length = b))) ∧
    (a.length < b.length → bufeq a b =
      if a.length + 1 = b.length ∧ b.length % 2 = 1 then .ok (decide (a = b.take a.length)) else .abort) := by
  have main : b.length ≤ a.length → bufeq a b = .ok (decide (a.take b.length = b)) := by
    intro h
    unfold bufeq
    dsimp only
    rw [size_min _ _ ha hb, if_pos h, bufeqLoop_ok _ _ _ _ _ (.inr rfl) (by omega) (by omega), Res.bind_ok, List.drop_zero, List.drop_zero,
      List.take_length]
    by_cases h2 : a.take b.length = b
    · rw [if_pos ⟨rfl, h2⟩]; simp [h2]
    · rw [if_neg (fun hh => h2 hh.2)]; simp [h2]
  refine ⟨fun h => ?_, main, fun h => ?_⟩
  · have := main (by omega)
    rwa [List.take_of_length_le (by omega)] at this
  · unfold bufeq
    dsimp only
    rw [size_min _ _ ha hb, if_neg (by omega)]
    by_cases hs : a.length + 1 = b.length ∧ b.length % 2 = 1
    · rw [if_pos hs, if_neg (by omega), if_pos hs.2, bufeqLoop_ok _ _ _ _ _ (.inr rfl) (by omega) (by omega), Res.bind_ok, List.drop_zero,
        List.drop_zero, show b.length - 1 = a.length by omega, List.take_length]
      by_cases h2 : a = b.take a.length
      · rw [if_pos ⟨rfl, h2⟩]; simp [← h2]
      · rw [if_neg (fun hh => h2 hh.2)]; simp [h2]
    · rw [if_neg hs, bufeqLoop_short _ _ _ _ _ _ (by omega) (by omega)]
      · rfl
      · split
        · omega
        · split <;> omega

/-- **C86 violated.** Anything begins with nothing. -/
theorem bufeq_violated : ¬ BufeqClaim := by
  intro h
  have := h [1] [] (by simp) (by simp)
  revert this
  decide

/-- A short first buffer of odd or even difference. -/
example : bufeq [1, 2] [1, 2] = .ok true ∧ bufeq [1, 2, 3] [1, 2] = .ok true ∧ bufeq [] [5] = .ok true ∧ bufeq [5] [5, 6] = .abort := by
  decide

end Verif.Ct
