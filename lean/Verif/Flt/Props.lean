import Verif.Flt.Model

/-!
# C53, C64: taking floating point numbers apart and putting them together
-/

namespace Verif.Flt
open Verif.Endian (shl cnt)

/-! ## Specification: the IEEE 754 binary formats -/

/-- The formats of the language. -/
def Fmt.Std (f : Fmt) : Prop := f = dbl ∨ f = flt

/-- The sign of a pattern. -/
def neg (f : Fmt) (b : Nat) : Bool := decide (b / 2 ^ (f.w - 1) = 1)

/-- The exponent field. -/
def expField (f : Fmt) (b : Nat) : Nat := b / 2 ^ f.m % 2 ^ f.e

/-- The mantissa field. -/
def mantField (f : Fmt) (b : Nat) : Nat := b % 2 ^ f.m

/-- The magnitude of a finite number in units of the least positive one. -/
def magnitude (f : Fmt) (b : Nat) : Nat :=
  if expField f b = 0 then mantField f b else (2 ^ f.m + mantField f b) * 2 ^ (expField f b - 1)

/-- The magnitude of `mant * 2^(exp - m)` in the same units, for `exp` not below the least
exponent; the exponent field 0 means the least exponent. -/
def tripleMag (f : Fmt) (exp : Int) (mant : Nat) : Nat := mant * 2 ^ ((exp + f.bias).toNat - 1)

/-- `v / 2^k` rounded to the nearest integer, ties to even. -/
def rne (v k : Nat) : Nat :=
  if 2 * (v % 2 ^ k) > 2 ^ k ∨ (2 * (v % 2 ^ k) = 2 ^ k ∧ v / 2 ^ k % 2 = 1) then v / 2 ^ k + 1
  else v / 2 ^ k

/-! ## Field arithmetic -/

theorem cnt_lt {w n : Nat} (hw : w = 64 ∨ w = 32) (h : n < w) : cnt w n = n := by
  unfold cnt
  rcases hw with rfl | rfl
  · rw [if_pos rfl]; omega
  · rw [if_neg (by decide)]; omega

/-- What is used of the formats. -/
structure Good (f : Fmt) : Prop where
  w : f.w = 64 ∨ f.w = 32
  sum : f.w = 1 + f.e + f.m
  e2 : 2 ≤ f.e
  e11 : f.e ≤ 11
  me : f.e < f.m

theorem good_of {f : Fmt} (h : f.Std) : Good f := by
  rcases h with rfl | rfl <;> exact ⟨by decide, by decide, by decide, by decide, by decide⟩

theorem shl_toNat {f : Fmt} (g : Good f) (x : BitVec f.w) (n : Nat) (hn : n < f.w) :
    (shl x n).toNat = x.toNat * 2 ^ n % 2 ^ f.w := by
  unfold shl
  rw [cnt_lt g.w hn, BitVec.toNat_shiftLeft, Nat.shiftLeft_eq]

theorem shr_toNat {f : Fmt} (g : Good f) (x : BitVec f.w) (n : Nat) (hn : n < f.w) :
    (shr x n).toNat = x.toNat / 2 ^ n := by
  unfold shr
  rw [cnt_lt g.w hn, BitVec.toNat_ushiftRight, Nat.shiftRight_eq_div_pow]

theorem one_toNat {f : Fmt} (g : Good f) : (1#f.w).toNat = 1 := by
  rw [BitVec.toNat_ofNat]
  exact Nat.mod_eq_of_lt (Nat.one_lt_two_pow (by have := g.w; omega))

theorem bit_toNat {f : Fmt} (g : Good f) (n : Nat) (hn : n < f.w) : (shl 1#f.w n).toNat = 2 ^ n := by
  rw [shl_toNat g _ _ hn, one_toNat g, Nat.one_mul]
  exact Nat.mod_eq_of_lt (Nat.pow_lt_pow_right (by decide) hn)

theorem mask_toNat {f : Fmt} (g : Good f) (n : Nat) (hn : n < f.w) :
    (shl 1#f.w n - 1#f.w).toNat = 2 ^ n - 1 := by
  have hp : 1 ≤ 2 ^ n := Nat.one_le_two_pow
  have hlt : 2 ^ n < 2 ^ f.w := Nat.pow_lt_pow_right (by decide) hn
  rw [BitVec.toNat_sub_of_le (by rw [BitVec.le_def, bit_toNat g n hn, one_toNat g]; exact hp), bit_toNat g n hn,
    one_toNat g]

theorem emask_toNat {f : Fmt} (g : Good f) : (BitVec.ofNat f.w (2 ^ f.e - 1)).toNat = 2 ^ f.e - 1 := by
  rw [BitVec.toNat_ofNat]
  refine Nat.mod_eq_of_lt ?_
  have : 2 ^ f.e < 2 ^ f.w := Nat.pow_lt_pow_right (by decide) (by have := g.sum; have := g.me; omega)
  have := Nat.two_pow_pos f.w
  omega

theorem bias_toNat {f : Fmt} (g : Good f) : (BitVec.ofNat f.w f.bias).toNat = f.bias := by
  rw [BitVec.toNat_ofNat]
  refine Nat.mod_eq_of_lt ?_
  unfold Fmt.bias
  have : 2 ^ (f.e - 1) < 2 ^ f.w := Nat.pow_lt_pow_right (by decide) (by have := g.sum; have := g.me; omega)
  have := Nat.two_pow_pos f.w
  omega

theorem bias_lt {f : Fmt} (g : Good f) : f.bias < 1024 ∧ 1 ≤ f.bias := by
  unfold Fmt.bias
  have h1 : 2 ^ (f.e - 1) ≤ 2 ^ 10 := Nat.pow_le_pow_right (by decide) (by have := g.e11; omega)
  have h2 : 2 ^ 1 ≤ 2 ^ (f.e - 1) := Nat.pow_le_pow_right (by decide) (by have := g.e2; omega)
  omega

theorem two_bias {f : Fmt} (g : Good f) : 2 ^ f.e = 2 * (f.bias + 1) := by
  unfold Fmt.bias
  have h2 : 2 ^ 1 ≤ 2 ^ (f.e - 1) := Nat.pow_le_pow_right (by decide) (by have := g.e2; omega)
  have : 2 ^ f.e = 2 ^ (f.e - 1 + 1) := by congr 1; have := g.e2; omega
  rw [this, Nat.pow_succ]
  omega

theorem bias_toInt {f : Fmt} (g : Good f) : (BitVec.ofNat f.w f.bias).toInt = f.bias := by
  rw [BitVec.toInt_eq_toNat_of_lt, bias_toNat g]
  rw [bias_toNat g]
  have := (bias_lt g).1
  have : 2 ^ 32 ≤ 2 ^ f.w := Nat.pow_le_pow_right (by decide) (by have := g.w; omega)
  omega

theorem negbias_toInt {f : Fmt} (g : Good f) : (-BitVec.ofNat f.w f.bias).toInt = -(f.bias : Int) := by
  have hb := bias_lt g
  have hw := g.w
  rw [BitVec.toInt_neg, bias_toInt g]
  have h2 : (2 : Int) ^ f.w = 2 ^ 64 ∨ (2 : Int) ^ f.w = 2 ^ 32 := by
    rcases hw with h | h <;> rw [h] <;> simp
  rw [Int.bmod_eq_of_le] 
  · have : ((2 ^ f.w : Nat) : Int) = 2 ^ f.w := by simp
    rw [this]
    omega
  · have : ((2 ^ f.w : Nat) : Int) = 2 ^ f.w := by simp
    rw [this]
    omega

/-- Three adjoining fields. -/
theorem fields_toNat {f : Fmt} (g : Good f) (s : Bool) (x y : BitVec f.w) :
    (shl (BitVec.ofNat f.w s.toNat) (f.w - 1) ||| shl (x &&& BitVec.ofNat f.w (2 ^ f.e - 1)) f.m |||
      (y &&& (shl 1#f.w f.m - 1#f.w))).toNat =
    s.toNat * 2 ^ (f.w - 1) + x.toNat % 2 ^ f.e * 2 ^ f.m + y.toNat % 2 ^ f.m := by
  have hs := g.sum
  have hm : f.m < f.w := by omega
  have hwpos : f.w - 1 < f.w := by omega
  have hb1 : s.toNat ≤ 1 := by cases s <;> decide
  have hpw : 2 ^ f.w = 2 * 2 ^ (f.w - 1) := by
    rw [← Nat.pow_succ']; congr 1; omega
  have hone : (1 : Nat) < 2 ^ f.w := Nat.one_lt_two_pow (by omega)
  have e1 : (shl (BitVec.ofNat f.w s.toNat) (f.w - 1)).toNat = s.toNat * 2 ^ (f.w - 1) := by
    rw [shl_toNat g _ _ hwpos, BitVec.toNat_ofNat, Nat.mod_eq_of_lt (a := s.toNat) (by omega)]
    refine Nat.mod_eq_of_lt ?_
    have : 0 < 2 ^ (f.w - 1) := Nat.two_pow_pos _
    cases s
    · simp only [Bool.toNat_false]; omega
    · simp only [Bool.toNat_true]; omega
  have hem : 2 ^ (f.w - 1) = 2 ^ f.e * 2 ^ f.m := by rw [← Nat.pow_add]; congr 1; omega
  have hxlt : x.toNat % 2 ^ f.e < 2 ^ f.e := Nat.mod_lt _ (Nat.two_pow_pos _)
  have hem' : x.toNat % 2 ^ f.e * 2 ^ f.m < 2 ^ (f.w - 1) := by
    rw [hem]; exact Nat.mul_lt_mul_of_pos_right hxlt (Nat.two_pow_pos _)
  have e2 : (shl (x &&& BitVec.ofNat f.w (2 ^ f.e - 1)) f.m).toNat = x.toNat % 2 ^ f.e * 2 ^ f.m := by
    rw [shl_toNat g _ _ hm, BitVec.toNat_and, emask_toNat g, Nat.and_two_pow_sub_one_eq_mod]
    exact Nat.mod_eq_of_lt (by omega)
  have e3 : (y &&& (shl 1#f.w f.m - 1#f.w)).toNat = y.toNat % 2 ^ f.m := by
    rw [BitVec.toNat_and, mask_toNat g _ hm, Nat.and_two_pow_sub_one_eq_mod]
  rw [BitVec.toNat_or, BitVec.toNat_or, e1, e2, e3]
  rw [← Nat.shiftLeft_eq s.toNat, ← Nat.shiftLeft_add_eq_or_of_lt hem']
  have hy : y.toNat % 2 ^ f.m < 2 ^ f.m := Nat.mod_lt _ (Nat.two_pow_pos _)
  have : s.toNat <<< (f.w - 1) + x.toNat % 2 ^ f.e * 2 ^ f.m =
      (s.toNat * 2 ^ f.e + x.toNat % 2 ^ f.e) <<< f.m := by
    rw [Nat.shiftLeft_eq, Nat.shiftLeft_eq, hem, Nat.add_mul, Nat.mul_assoc]
  rw [this, ← Nat.shiftLeft_add_eq_or_of_lt hy]

theorem explode_spec {f : Fmt} (g : Good f) (bits : BitVec f.w) :
    ∃ exp mant, explode f bits = (neg f bits.toNat, exp, mant) ∧
      exp.toInt = (expField f bits.toNat : Int) - f.bias ∧
      (exp + BitVec.ofNat f.w f.bias).toNat = expField f bits.toNat ∧
      mant.toNat = (if expField f bits.toNat = 0 then 0 else 2 ^ f.m) + mantField f bits.toNat := by
  have hs := g.sum
  have hm : f.m < f.w := by omega
  have hwpos : f.w - 1 < f.w := by omega
  obtain ⟨ue, hue⟩ : ∃ ue, ue = shr bits f.m &&& BitVec.ofNat f.w (2 ^ f.e - 1) := ⟨_, rfl⟩
  have huen : ue.toNat = expField f bits.toNat := by
    rw [hue, BitVec.toNat_and, shr_toNat g _ _ hm, emask_toNat g, Nat.and_two_pow_sub_one_eq_mod]; rfl
  have hfe : expField f bits.toNat < 2 ^ f.e := Nat.mod_lt _ (Nat.two_pow_pos _)
  have hne : (ue != 0#f.w) = decide (expField f bits.toNat ≠ 0) := by
    rw [← huen]
    by_cases h : ue = 0#f.w
    · subst h; simp
    · have : ue.toNat ≠ 0 := fun e => h (BitVec.eq_of_toNat_eq (by simpa using e))
      simp [h, this]
  have hneg : (shr bits (f.w - 1) != 0#f.w) = neg f bits.toNat := by
    have h1 : (shr bits (f.w - 1)).toNat = bits.toNat / 2 ^ (f.w - 1) := shr_toNat g _ _ hwpos
    have hlt : bits.toNat / 2 ^ (f.w - 1) < 2 := by
      rw [Nat.div_lt_iff_lt_mul (Nat.two_pow_pos _), ← Nat.pow_succ']
      have := bits.isLt
      have e : (f.w - 1).succ = f.w := by omega
      rwa [e]
    unfold neg
    rw [← h1] at hlt ⊢
    by_cases h : shr bits (f.w - 1) = 0#f.w
    · rw [h]; simp
    · have : (shr bits (f.w - 1)).toNat ≠ 0 := fun e => h (BitVec.eq_of_toNat_eq (by simpa using e))
      have : (shr bits (f.w - 1)).toNat = 1 := by omega
      rw [this]; simp [h]
  have hml : (bits &&& (shl 1#f.w f.m - 1#f.w)).toNat = mantField f bits.toNat := by
    rw [BitVec.toNat_and, mask_toNat g _ hm, Nat.and_two_pow_sub_one_eq_mod]; rfl
  refine ⟨ue - BitVec.ofNat f.w f.bias,
    if ue != 0#f.w then (bits &&& (shl 1#f.w f.m - 1#f.w)) ||| shl 1#f.w f.m
    else bits &&& (shl 1#f.w f.m - 1#f.w), ?_, ?_, ?_, ?_⟩
  · unfold explode
    simp only [← hue, hneg]
  · have hbl := bias_lt g
    have hui : ue.toInt = (expField f bits.toNat : Int) := by
      rw [BitVec.toInt_eq_toNat_of_lt, huen]
      rw [huen]
      have : 2 ^ f.e ≤ 2 ^ 11 := Nat.pow_le_pow_right (by decide) g.e11
      have : 2 ^ 32 ≤ 2 ^ f.w := Nat.pow_le_pow_right (by decide) (by have := g.w; omega)
      omega
    rw [BitVec.toInt_sub, hui, bias_toInt g]
    have h2 : ((2 ^ f.w : Nat) : Int) = 2 ^ 64 ∨ ((2 ^ f.w : Nat) : Int) = 2 ^ 32 := by
      rcases g.w with h | h <;> rw [h] <;> simp
    have : 2 ^ f.e ≤ 2 ^ 11 := Nat.pow_le_pow_right (by decide) g.e11
    rw [Int.bmod_eq_of_le] <;> omega
  · rw [BitVec.sub_add_cancel, huen]
  · rw [hne]
    by_cases h : expField f bits.toNat = 0
    · simp only [h, ne_eq, not_true, decide_false, Bool.false_eq_true, ↓reduceIte, hml, Nat.zero_add]
    · simp only [h, ne_eq, not_false_eq_true, decide_true, ↓reduceIte]
      rw [BitVec.toNat_or, hml, bit_toNat g _ hm, Nat.or_comm]
      have hlt : mantField f bits.toNat < 2 ^ f.m := Nat.mod_lt _ (Nat.two_pow_pos _)
      have := Nat.shiftLeft_add_eq_or_of_lt hlt 1
      rw [Nat.shiftLeft_eq, Nat.one_mul] at this
      exact this.symm

theorem hasbit {f : Fmt} (g : Good f) (x : BitVec f.w) (n : Nat) (hn : n < f.w) :
    (x &&& shl 1#f.w n = 0#f.w) ↔ x.toNat / 2 ^ n % 2 = 0 := by
  rw [← BitVec.toNat_inj, BitVec.toNat_and, bit_toNat g n hn]
  have h0 : (0#f.w).toNat = 0 := by simp
  rw [h0]
  have : x.toNat &&& 2 ^ n = (x.toNat.testBit n).toNat * 2 ^ n := by
    apply Nat.eq_of_testBit_eq
    intro i
    rw [Nat.testBit_and, Nat.testBit_two_pow, Nat.testBit_mul_two_pow]
    by_cases hi : n = i
    · subst hi; cases x.toNat.testBit n <;> simp
    · by_cases hlt : n ≤ i
      · have : i - n ≠ 0 := by omega
        have h1 : Nat.testBit 1 (i - n) = false := Nat.testBit_lt_two_pow (Nat.one_lt_two_pow this)
        cases x.toNat.testBit n <;> simp [hi, h1]
      · simp [hi, hlt]
  rw [this, Nat.testBit_eq_decide_div_mod_eq]
  have hp := Nat.two_pow_pos n
  by_cases h : x.toNat / 2 ^ n % 2 = 1
  · rw [h]; simp
  · have : x.toNat / 2 ^ n % 2 = 0 := by omega
    rw [this]; simp

/-! ## C53 -/

/-- **C53.**  Exploding yields the sign, an exponent and a mantissa that denote the number,
for every finite pattern. -/
theorem explode_denotes {f : Fmt} (hf : f.Std) (bits : BitVec f.w)
    (_hfin : expField f bits.toNat ≠ 2 ^ f.e - 1) :
    (explode f bits).1 = neg f bits.toNat ∧
    tripleMag f (explode f bits).2.1.toInt (explode f bits).2.2.toNat = magnitude f bits.toNat := by
  obtain ⟨exp, mant, h1, h2, _, h4⟩ := explode_spec (good_of hf) bits
  rw [h1]
  refine ⟨rfl, ?_⟩
  simp only [tripleMag, magnitude, h2, h4]
  rw [show ((expField f bits.toNat : Int) - f.bias + f.bias).toNat = expField f bits.toNat by omega]
  by_cases h : expField f bits.toNat = 0
  · simp [h]
  · simp [h]

/-- **C53.**  Assembling the exploded parts gives back every pattern (also infinities and
NaNs). -/
theorem assem_explode {f : Fmt} (hf : f.Std) (bits : BitVec f.w) :
    assem f (explode f bits).1 (explode f bits).2.1 (explode f bits).2.2 = bits := by
  have g := good_of hf
  obtain ⟨exp, mant, h1, h2, h3, h4⟩ := explode_spec g bits
  rw [h1]
  have hs := g.sum
  have hm : f.m < f.w := by omega
  have hlt : mantField f bits.toNat < 2 ^ f.m := Nat.mod_lt _ (Nat.two_pow_pos _)
  have hno : ¬(exp.sle (-BitVec.ofNat f.w f.bias) = true ∧ mant &&& shl 1#f.w f.m ≠ 0#f.w) := by
    rintro ⟨ha, hb⟩
    rw [BitVec.sle_iff_toInt_le, negbias_toInt g, h2] at ha
    have h0 : expField f bits.toNat = 0 := by omega
    apply hb
    rw [hasbit g _ _ hm, h4, if_pos h0, Nat.zero_add, Nat.div_eq_of_lt hlt]
  apply BitVec.eq_of_toNat_eq
  unfold assem
  simp only
  rw [if_neg hno]
  simp only
  rw [fields_toNat g, h3, h4]
  have hfe : expField f bits.toNat < 2 ^ f.e := Nat.mod_lt _ (Nat.two_pow_pos _)
  rw [Nat.mod_eq_of_lt hfe]
  have hmm : ((if expField f bits.toNat = 0 then 0 else 2 ^ f.m) + mantField f bits.toNat) % 2 ^ f.m =
      mantField f bits.toNat := by
    split
    · rw [Nat.zero_add]; exact Nat.mod_eq_of_lt hlt
    · rw [Nat.add_mod_left]; exact Nat.mod_eq_of_lt hlt
  rw [hmm]
  have hblt : bits.toNat / 2 ^ (f.w - 1) < 2 := by
    rw [Nat.div_lt_iff_lt_mul (Nat.two_pow_pos _), ← Nat.pow_succ']
    have := bits.isLt
    have e : (f.w - 1).succ = f.w := by omega
    rwa [e]
  have hsign : (neg f bits.toNat).toNat = bits.toNat / 2 ^ (f.w - 1) := by
    unfold neg
    by_cases h : bits.toNat / 2 ^ (f.w - 1) = 1
    · rw [h]; rfl
    · have : bits.toNat / 2 ^ (f.w - 1) = 0 := by
        have := Nat.lt_succ_iff.1 hblt
        exact Nat.le_zero.1 (Nat.lt_succ_iff.1 (Nat.lt_of_le_of_ne this h))
      rw [this]; rfl
  rw [hsign]
  have hd : bits.toNat / 2 ^ (f.w - 1) = bits.toNat / 2 ^ f.m / 2 ^ f.e := by
    rw [Nat.div_div_eq_div_mul, ← Nat.pow_add]; congr 2; omega
  have hem : 2 ^ (f.w - 1) = 2 ^ f.e * 2 ^ f.m := by rw [← Nat.pow_add]; congr 1; omega
  have hdm := Nat.div_add_mod (bits.toNat / 2 ^ f.m) (2 ^ f.e)
  have hdm2 := Nat.div_add_mod bits.toNat (2 ^ f.m)
  rw [hd, hem, ← Nat.mul_assoc, ← Nat.add_mul]
  unfold expField mantField
  rw [Nat.mul_comm (bits.toNat / 2 ^ f.m / 2 ^ f.e), hdm, Nat.mul_comm, hdm2]

/-- **C53.**  Exploding what was assembled from the parts of a normal number gives those
parts. -/
theorem explode_assem {f : Fmt} (hf : f.Std) (s : Bool) (exp mant : BitVec f.w)
    (he : -(f.bias : Int) < exp.toInt ∧ exp.toInt ≤ f.bias + 1)
    (hmt : 2 ^ f.m ≤ mant.toNat ∧ mant.toNat < 2 * 2 ^ f.m) :
    explode f (assem f s exp mant) = (s, exp, mant) := by
  have g := good_of hf
  have hs := g.sum
  have hm : f.m < f.w := by omega
  obtain ⟨b, hb⟩ : ∃ b, b = assem f s exp mant := ⟨_, rfl⟩
  have hno : ¬(exp.sle (-BitVec.ofNat f.w f.bias) = true ∧ mant &&& shl 1#f.w f.m ≠ 0#f.w) := by
    rintro ⟨ha, _⟩
    rw [BitVec.sle_iff_toInt_le, negbias_toInt g] at ha
    omega
  have heb : (exp + BitVec.ofNat f.w f.bias).toNat = (exp.toInt + f.bias).toNat := by
    have hbl := bias_lt g
    have h2 : ((2 ^ f.w : Nat) : Int) = 2 ^ 64 ∨ ((2 ^ f.w : Nat) : Int) = 2 ^ 32 := by
      rcases g.w with h | h <;> rw [h] <;> simp
    have hi : (exp + BitVec.ofNat f.w f.bias).toInt = exp.toInt + f.bias := by
      rw [BitVec.toInt_add, bias_toInt g, Int.bmod_eq_of_le] <;> omega
    rw [← hi, BitVec.toInt_eq_toNat_of_lt]
    · exact (Int.toNat_natCast _).symm
    · have := BitVec.toInt_eq_toNat_cond (exp + BitVec.ofNat f.w f.bias)
      have := (exp + BitVec.ofNat f.w f.bias).isLt
      split at * <;> omega
  have hbn : b.toNat = s.toNat * 2 ^ (f.w - 1) + (exp.toInt + f.bias).toNat * 2 ^ f.m + mant.toNat % 2 ^ f.m := by
    rw [hb]
    unfold assem
    simp only
    rw [if_neg hno]
    simp only
    rw [fields_toNat g, heb]
    have := two_bias g
    rw [Nat.mod_eq_of_lt (a := (exp.toInt + f.bias).toNat) (by omega)]
  have htb := two_bias g
  have hE : (exp.toInt + f.bias).toNat < 2 ^ f.e := by omega
  have hM : mant.toNat % 2 ^ f.m < 2 ^ f.m := Nat.mod_lt _ (Nat.two_pow_pos _)
  have hem : 2 ^ (f.w - 1) = 2 ^ f.e * 2 ^ f.m := by rw [← Nat.pow_add]; congr 1; omega
  have hbm : b.toNat / 2 ^ f.m = s.toNat * 2 ^ f.e + (exp.toInt + f.bias).toNat := by
    rw [hbn, hem, ← Nat.mul_assoc, ← Nat.add_mul, Nat.mul_comm _ (2 ^ f.m), Nat.mul_add_div (Nat.two_pow_pos _),
      Nat.div_eq_of_lt hM, Nat.add_zero]
  have hF : expField f b.toNat = (exp.toInt + f.bias).toNat := by
    unfold expField
    rw [hbm, Nat.mul_comm, Nat.mul_add_mod, Nat.mod_eq_of_lt hE]
  have hMF : mantField f b.toNat = mant.toNat % 2 ^ f.m := by
    unfold mantField
    rw [hbn, hem, ← Nat.mul_assoc, ← Nat.add_mul, Nat.mul_comm _ (2 ^ f.m), Nat.mul_add_mod, Nat.mod_eq_of_lt hM]
  have hN : neg f b.toNat = s := by
    unfold neg
    have : b.toNat / 2 ^ (f.w - 1) = s.toNat := by
      rw [show f.w - 1 = f.m + f.e by omega, Nat.pow_add, ← Nat.div_div_eq_div_mul, hbm, Nat.mul_comm,
        Nat.mul_add_div (Nat.two_pow_pos _), Nat.div_eq_of_lt hE, Nat.add_zero]
    rw [this]
    cases s <;> rfl
  obtain ⟨exp', mant', h1, h2, h3, h4⟩ := explode_spec g b
  rw [← hb, h1, hN]
  have h0 : expField f b.toNat ≠ 0 := by rw [hF]; omega
  have e1 : exp' = exp := by
    apply BitVec.eq_of_toInt_eq
    rw [h2, hF]; omega
  have e2 : mant' = mant := by
    apply BitVec.eq_of_toNat_eq
    rw [h4, if_neg h0, hMF]
    have : mant.toNat = 2 ^ f.m + (mant.toNat - 2 ^ f.m) := by omega
    rw [this, Nat.add_mod_left, Nat.mod_eq_of_lt (a := mant.toNat - 2 ^ f.m) (by omega)]
  rw [e1, e2]

/-- **C53.**  `isnan` is true exactly for exponent field all ones and mantissa not 0. -/
theorem isnan_iff (b : BitVec 64) :
    isnan b = true ↔ expField dbl b.toNat = 2 ^ 11 - 1 ∧ mantField dbl b.toNat ≠ 0 := by
  have g : Good dbl := good_of (Or.inl rfl)
  unfold isnan
  have h1 : ~~~(shl 0xfff#64 52) = shl 1#64 52 - 1#64 := by decide
  have hsh : (shr b 52).toNat = b.toNat / 2 ^ 52 := shr_toNat (f := dbl) g b 52 (by decide)
  rw [h1, Bool.and_eq_true, beq_iff_eq, bne_iff_ne, ← BitVec.toNat_inj, BitVec.toNat_and, hsh,
    show (0x7ff#64).toNat = 2 ^ 11 - 1 from rfl, Nat.and_two_pow_sub_one_eq_mod]
  have h2 : (b &&& (shl 1#64 52 - 1#64)).toNat = b.toNat % 2 ^ 52 := by
    have hmk : (shl 1#64 52 - 1#64).toNat = 2 ^ 52 - 1 := by decide
    rw [BitVec.toNat_and, hmk, Nat.and_two_pow_sub_one_eq_mod]
  have h3 : b &&& (shl 1#64 52 - 1#64) ≠ 0#64 ↔ b.toNat % 2 ^ 52 ≠ 0 := by
    rw [← h2]
    constructor
    · intro h e; exact h (BitVec.eq_of_toNat_eq (by simpa using e))
    · intro h e; exact h (by rw [e]; rfl)
  rw [h3]
  rfl

/-! ## C64 -/

/-- The full claim of C64: a number below the least normal one is rounded to the nearest
representable one, ties to even. -/
def FullClaim (f : Fmt) : Prop := ∀ (s : Bool) (exp mant : BitVec f.w),
  exp.toInt ≤ -(f.bias : Int) → -(f.w : Int) < exp.toInt + f.bias →
  2 ^ f.m ≤ mant.toNat → mant.toNat < 2 * 2 ^ f.m →
  magnitude f (assem f s exp mant).toNat = rne mant.toNat (1 - f.bias - exp.toInt).toNat

/-- **C64 is violated** (fltbits.myr:68-70, 94-96): the bit tested as the first one cut off is
the last one kept, so that even exactly representable numbers are changed: (2^52 + 6) / 2
becomes 2^51 + 4 units. -/
theorem assem_round_violated : ¬FullClaim dbl ∧ ¬FullClaim flt := by
  constructor
  · intro h
    have := h false (-1023#64) (0x10000000000006#64) (by decide) (by decide) (by decide) (by decide)
    revert this
    decide +kernel
  · intro h
    have := h false (-127#32) (0x800006#32) (by decide) (by decide) (by decide) (by decide)
    revert this
    decide +kernel

/-- **C64, partial.**  The result is exact when neither the bits cut off nor the last bit kept
are set.  Missing: rounding (see `assem_round_violated`). -/
theorem assem_exact_partial {f : Fmt} (hf : f.Std) (s : Bool) (exp mant : BitVec f.w) (k : Nat)
    (hk : 1 ≤ k ∧ k < f.m) (he : exp.toInt = 1 - f.bias - k)
    (hlo : 2 ^ f.m ≤ mant.toNat) (hhi : mant.toNat < 2 * 2 ^ f.m) (hz : mant.toNat % 2 ^ (k + 1) = 0) :
    magnitude f (assem f s exp mant).toNat * 2 ^ k = mant.toNat ∧
    neg f (assem f s exp mant).toNat = s := by
  have g := good_of hf
  have hs := g.sum
  have hm : f.m < f.w := by omega
  have hyes : exp.sle (-BitVec.ofNat f.w f.bias) = true ∧ mant &&& shl 1#f.w f.m ≠ 0#f.w := by
    constructor
    · rw [BitVec.sle_iff_toInt_le, negbias_toInt g, he]; omega
    · rw [Ne, hasbit g _ _ hm]
      have : mant.toNat / 2 ^ f.m = 1 := by
        rw [Nat.div_eq_iff (Nat.two_pow_pos _)]; omega
      omega
  have hsh : (1#f.w - BitVec.ofNat f.w f.bias - exp).toNat = k := by
    have hbl := bias_lt g
    have h2 : ((2 ^ f.w : Nat) : Int) = 2 ^ 64 ∨ ((2 ^ f.w : Nat) : Int) = 2 ^ 32 := by
      rcases g.w with h | h <;> rw [h] <;> simp
    have hwl : f.w ≤ 64 := by have := g.w; omega
    have h1i : (1#f.w).toInt = 1 := by
      rw [BitVec.toInt_eq_toNat_of_lt, one_toNat g]; rfl
      rw [one_toNat g]; omega
    have hi : (1#f.w - BitVec.ofNat f.w f.bias - exp).toInt = k := by
      rw [BitVec.toInt_sub, BitVec.toInt_sub, h1i, bias_toInt g, he, Int.bmod_eq_of_le (m := 2 ^ f.w) (n := 1 - (f.bias : Int)),
        Int.bmod_eq_of_le] <;> omega
    have := BitVec.toInt_eq_toNat_cond (1#f.w - BitVec.ofNat f.w f.bias - exp)
    have := (1#f.w - BitVec.ofNat f.w f.bias - exp).isLt
    split at * <;> omega
  have hnf : mant &&& shl 1#f.w k = 0#f.w := by
    rw [hasbit g _ _ (by omega)]
    rw [Nat.pow_succ, Nat.mod_mul] at hz
    have := Nat.two_pow_pos k
    rcases Nat.eq_zero_or_pos (mant.toNat / 2 ^ k % 2) with h | h
    · exact h
    · exfalso
      have : 2 ^ k * 1 ≤ 2 ^ k * (mant.toNat / 2 ^ k % 2) := Nat.mul_le_mul_left _ h
      omega
  have hden : denorm f exp mant = (-BitVec.ofNat f.w f.bias, shr mant k) := by
    unfold denorm
    simp only [hsh]
    rw [if_neg (by rintro ⟨h, _⟩; exact h hnf)]
  have hshr : (shr mant k).toNat = mant.toNat / 2 ^ k := shr_toNat g _ _ (by omega)
  have hlt : mant.toNat / 2 ^ k < 2 ^ f.m := by
    rw [Nat.div_lt_iff_lt_mul (Nat.two_pow_pos _)]
    have : 2 ^ 1 ≤ 2 ^ k := Nat.pow_le_pow_right (by decide) hk.1
    have := Nat.mul_le_mul_left (2 ^ f.m) this
    omega
  have hbn : (assem f s exp mant).toNat = s.toNat * 2 ^ (f.w - 1) + mant.toNat / 2 ^ k := by
    unfold assem
    simp only
    rw [if_pos hyes, hden]
    simp only
    rw [fields_toNat g, hshr, Nat.mod_eq_of_lt hlt]
    have : -BitVec.ofNat f.w f.bias + BitVec.ofNat f.w f.bias = 0#f.w := by
      rw [BitVec.add_comm]; exact BitVec.add_right_neg _
    rw [this]
    simp
  have hem : 2 ^ (f.w - 1) = 2 ^ f.e * 2 ^ f.m := by rw [← Nat.pow_add]; congr 1; omega
  have hE : expField f (assem f s exp mant).toNat = 0 := by
    unfold expField
    rw [hbn, hem, ← Nat.mul_assoc, Nat.mul_comm _ (2 ^ f.m), Nat.mul_add_div (Nat.two_pow_pos _),
      Nat.div_eq_of_lt hlt, Nat.add_zero, Nat.mul_mod_left]
  refine ⟨?_, ?_⟩
  · rw [magnitude, if_pos hE, mantField, hbn, hem, ← Nat.mul_assoc, Nat.mul_comm _ (2 ^ f.m), Nat.mul_add_mod,
      Nat.mod_eq_of_lt hlt]
    have : 2 ^ k ∣ mant.toNat := Nat.dvd_trans (Nat.pow_dvd_pow 2 (Nat.le_succ k)) (Nat.dvd_of_mod_eq_zero hz)
    exact Nat.div_mul_cancel this
  · unfold neg
    have h1 : mant.toNat / 2 ^ k < 2 ^ (f.w - 1) :=
      Nat.lt_of_lt_of_le hlt (Nat.pow_le_pow_right (by decide) (by omega))
    rw [hbn, Nat.mul_comm, Nat.mul_add_div (Nat.two_pow_pos _), Nat.div_eq_of_lt h1, Nat.add_zero]
    cases s <;> rfl

/-- -1.5 explodes into sign, exponent 0 and mantissa 3 * 2^51. -/
example : (explode dbl 0xbff8000000000000#64).1 = true ∧ (explode dbl 0xbff8000000000000#64).2.1.toNat = 0 ∧
    (explode dbl 0xbff8000000000000#64).2.2.toNat = 3 * 2 ^ 51 ∧
    isnan flt64nan = true ∧ isnan flt64inf = false ∧
    expField flt flt32inf.toNat = 255 ∧ mantField flt flt32inf.toNat = 0 ∧ mantField flt flt32nan.toNat ≠ 0 := by
  decide +kernel

/-- A quarter of the least normal number. -/
example : magnitude dbl (assem dbl true (-1024#64) 0x10000000000000#64).toNat = 2 ^ 50 := by decide +kernel

end Verif.Flt
