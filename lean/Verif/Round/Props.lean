import Verif.Round.Lemmas

/-!
# C98: rounding down, up and towards zero gives the whole number asked for
-/

namespace Verif.Round

open Verif.Flt

/-- The value of a finite pattern in units of the least positive number. -/
def val (f : Fmt) (b : Nat) : Int := if neg f b then -(magnitude f b : Int) else magnitude f b

/-- Finite patterns. -/
def Finite (f : Fmt) (b : Nat) : Prop := expField f b ≠ 2 ^ f.e - 1

/-- One, in the same units: the least positive number is `2^-1074`, or `2^-149` with 32 bits. -/
def one (f : Fmt) : Int := 2 ^ unit f

example : unit dbl = 1074 ∧ unit flt = 149 := by decide
example : val dbl 0x3ff0000000000000 = one dbl ∧ val flt 0xc0200000 * 2 = -5 * one flt := by decide +kernel

theorem whole_val (f : Fmt) (up : Bool) (v : Nat) :
    (whole f up v : Int) = if up then -((-(v : Int)) / one f * one f) else (v : Int) / one f * one f := by
  unfold whole one
  have hp : (0 : Int) < 2 ^ unit f := Int.pow_pos (by decide)
  have hn := Nat.two_pow_pos (unit f)
  cases up
  · simp
  · simp only [↓reduceIte]
    have h : -(v : Int) / 2 ^ unit f = -(((v + 2 ^ unit f - 1) / 2 ^ unit f : Nat) : Int) := by
      have hd := Nat.div_add_mod (v + 2 ^ unit f - 1) (2 ^ unit f)
      have hl := Nat.mod_lt (v + 2 ^ unit f - 1) hn
      rw [Int.ediv_eq_iff_of_pos hp]
      have e : (2 : Int) ^ unit f = ((2 ^ unit f : Nat) : Int) := by simp
      rw [e]
      generalize 2 ^ unit f = u at *
      generalize (v + u - 1) / u = q at *
      generalize (v + u - 1) % u = r at *
      have hm : ((u * q : Nat) : Int) = (u : Int) * q := by simp
      have h1 : (-(q : Int)) * (u : Int) = -((u : Int) * q) := by rw [Int.neg_mul, Int.mul_comm]
      have h2 : (-(q : Int) + 1) * (u : Int) = -((u : Int) * q) + u := by rw [Int.add_mul, h1, Int.one_mul]
      constructor <;> omega
    rw [h]
    simp [Int.neg_mul]

/-- **C98.**  `floor` gives the greatest whole number not above a finite number, with the sign of the number. -/
theorem floor_value {f : Fmt} (hf : f.Std) (x : BitVec f.w) (hx : Finite f x.toNat) :
    Finite f (floor f x).toNat ∧ val f (floor f x).toNat = val f x.toNat / one f * one f ∧
      neg f (floor f x).toNat = neg f x.toNat := by
  obtain ⟨h1, h2, h3⟩ := floor_spec hf x hx
  refine ⟨h2, ?_, h1⟩
  unfold val
  rw [h1, h3, whole_val]
  cases neg f x.toNat <;> simp

/-- **C98.**  `ceil` gives the least whole number not below a finite number, with the sign of the number. -/
theorem ceil_value {f : Fmt} (hf : f.Std) (x : BitVec f.w) (hx : Finite f x.toNat) :
    Finite f (ceil f x).toNat ∧ val f (ceil f x).toNat = -(-val f x.toNat / one f * one f) ∧
      neg f (ceil f x).toNat = neg f x.toNat := by
  have g := good_of hf
  obtain ⟨n1, n2, n3⟩ := fneg_spec g x
  obtain ⟨h1, h2, h3⟩ := floor_value hf (fneg f x) (by unfold Finite; rw [n2]; exact hx)
  obtain ⟨m1, m2, m3⟩ := fneg_spec g (floor f (fneg f x))
  have hv : val f (fneg f x).toNat = -val f x.toNat := by
    unfold val; rw [n1, n3]; cases neg f x.toNat <;> simp
  have hv' : val f (ceil f x).toNat = -val f (floor f (fneg f x)).toNat := by
    unfold val ceil; rw [m1, m3]; cases neg f (floor f (fneg f x)).toNat <;> simp
  refine ⟨?_, ?_, ?_⟩
  · unfold Finite ceil; rw [m2]; exact h1
  · rw [hv', h2, hv]
  · unfold ceil; rw [m1, h3, n1, Bool.not_not]

/-- **C98.**  `trunc` drops the fraction of a finite number and keeps its sign. -/
theorem trunc_value {f : Fmt} (hf : f.Std) (x : BitVec f.w) (hx : Finite f x.toNat) :
    Finite f (trunc f x).toNat ∧ val f (trunc f x).toNat = (val f x.toNat).tdiv (one f) * one f ∧
      neg f (trunc f x).toNat = neg f x.toNat := by
  have g := good_of hf
  have hp : (0 : Int) < one f := Int.pow_pos (by decide)
  unfold trunc
  by_cases h : x &&& negmask f ≠ 0#f.w
  · rw [if_pos h]
    obtain ⟨h1, h2, h3⟩ := ceil_value hf x hx
    refine ⟨h1, ?_, h3⟩
    have hv : val f x.toNat = -(magnitude f x.toNat : Int) := by unfold val; rw [(sign_bit g x).1 h]; rfl
    have h2' : val f (fneg f (floor f (fneg f x))).toNat = _ := h2
    rw [h2', hv, Int.neg_neg, Int.neg_tdiv, Int.tdiv_eq_ediv_of_nonneg (Int.natCast_nonneg _), Int.neg_mul]
  · rw [if_neg h]
    obtain ⟨h1, h2, h3⟩ := floor_value hf x hx
    refine ⟨h1, ?_, h3⟩
    have hn : neg f x.toNat = false := by
      cases hn : neg f x.toNat
      · rfl
      · exact absurd ((sign_bit g x).2 hn) h
    have hv : val f x.toNat = (magnitude f x.toNat : Int) := by unfold val; rw [hn]; rfl
    rw [h2, hv, Int.tdiv_eq_ediv_of_nonneg (Int.natCast_nonneg _)]

/-- **C98.**  Infinities and NaNs are their own floor; infinities are their own ceiling and truncation. -/
theorem infinite_kept {f : Fmt} (hf : f.Std) (x : BitVec f.w) (hx : ¬Finite f x.toNat) : floor f x = x ∧
    (mantField f x.toNat = 0 → ceil f x = x ∧ trunc f x = x) := by
  have g := good_of hf
  have hroom := std_room hf
  have hfl : ∀ y : BitVec f.w, expField f y.toNat = 2 ^ f.e - 1 → floor f y = y := by
    intro y hy
    obtain ⟨e, s, h1, h2, -, -⟩ := explode_spec g y
    unfold floor
    rw [h1]
    dsimp only
    rw [if_pos]
    rw [Bool.or_eq_true, decide_eq_true_eq]
    left
    omega
  have hx' : expField f x.toNat = 2 ^ f.e - 1 := by
    unfold Finite at hx; exact Classical.not_not.1 hx
  have hff : fneg f (floor f (fneg f x)) = x := by
    rw [hfl _ (by rw [(fneg_spec g x).2.1]; exact hx')]
    unfold fneg
    rw [BitVec.xor_assoc, BitVec.xor_self, BitVec.xor_zero]
  refine ⟨hfl x hx', fun _ => ⟨hff, ?_⟩⟩
  unfold trunc
  split
  · exact hff
  · exact hfl x hx'

/-- 2.5 and -3.5, and denormal numbers. -/
example : (floor dbl 0x4004000000000000#64).toNat = 0x4000000000000000 ∧
    (floor dbl 0xc00c000000000000#64).toNat = 0xc010000000000000 ∧ (ceil dbl 0xc00c000000000000#64).toNat = 0xc008000000000000 ∧
    (floor dbl 0x8000000000000001#64).toNat = 0xbff0000000000000 ∧ (ceil flt 0x00000001#32).toNat = 0x3f800000 := by
  decide +kernel
/-- Rounding up changes the exponent: -3.5 in 32 bits. -/
example : (floor flt 0xc0600000#32).toNat = 0xc0800000 := by decide +kernel
example : Finite dbl (0xc00c000000000000#64).toNat := by unfold Finite; decide +kernel

end Verif.Round
