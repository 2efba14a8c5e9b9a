import Verif.Fma.Props
import Mathlib.Data.Nat.Bitwise

/-!
# C102: Multiplying and adding to a larger number with one rounding
-/

namespace Verif.Fma

open Verif.Flt
open Verif.Round
open Verif.Conv

theorem bit_ne (u w : BitVec 64) (i : Nat) (hw : w.toNat = 2 ^ i) : (u &&& w != 0#64) = decide (u.toNat / 2 ^ i % 2 = 1) := by
  have h1 : (u &&& w = 0#64) ↔ (u.toNat / 2 ^ i % 2 = 0) := by
    rw [← BitVec.toNat_inj, BitVec.toNat_and, hw, Nat.and_two_pow, Nat.testBit_eq_decide_div_mod_eq]
    have := Nat.two_pow_pos i
    have z : (0#64).toNat = 0 := rfl
    rw [z]
    by_cases c : u.toNat / 2 ^ i % 2 = 1
    · simp [c]
    · simp [c]; omega
  by_cases c : u.toNat / 2 ^ i % 2 = 1
  · rw [decide_eq_true c, bne_iff_ne]
    intro d; rw [h1] at d; omega
  · rw [decide_eq_false c, bne_eq_false_iff_eq, h1]; omega

theorem low_ne (u w : BitVec 64) (i : Nat) (hw : w.toNat = 2 ^ i - 1) : (u &&& w != 0#64) = decide (u.toNat % 2 ^ i ≠ 0) := by
  have h1 : (u &&& w = 0#64) ↔ (u.toNat % 2 ^ i = 0) := by
    rw [← BitVec.toNat_inj, BitVec.toNat_and, hw, Nat.and_two_pow_sub_one_eq_mod]
    rfl
  by_cases c : u.toNat % 2 ^ i = 0
  · rw [decide_eq_false (by omega), bne_eq_false_iff_eq, h1]; exact c
  · rw [decide_eq_true c, bne_iff_ne]
    intro d; rw [h1] at d; omega

theorem away64 (h l : BitVec 64) :
    h.toNat + (needRoundAway h l 64#64).toNat = rne (h.toNat * 2 ^ 64 + l.toNat) 64 := by
  have hl := l.isLt
  unfold needRoundAway
  rw [if_neg (show ¬(64#64).toInt > 64 by decide)]
  dsimp only
  rw [bit_ne l (ushl 1#64 (64#64 - 1#64)) 63 (by decide +kernel), low_ne l (ushr (-1#64) (1#64 + 64#64 - 64#64)) 63 (by decide +kernel),
    if_pos (show (64#64).toInt ≥ 64 by decide), bit_ne h (ushl 1#64 (64#64 - 64#64)) 0 (by decide +kernel)]
  unfold rne
  have d : (h.toNat * 2 ^ 64 + l.toNat) / 2 ^ 64 = h.toNat := by omega
  have m : (h.toNat * 2 ^ 64 + l.toNat) % 2 ^ 64 = l.toNat := by omega
  rw [d, m]
  generalize h.toNat = a at *
  generalize l.toNat = b at *
  have ch : ∀ p q r : Prop, [Decidable p] → [Decidable q] → [Decidable r] →
      (if !decide p then false else if decide q then true else decide r) = decide (p ∧ (q ∨ r)) := by
    intro p q r _ _ _
    by_cases p <;> by_cases q <;> by_cases r <;> simp_all
  rw [ch]
  clear ch d m
  rw [Nat.pow_zero, Nat.div_one]
  by_cases c : b / 2 ^ 63 % 2 = 1 ∧ (b % 2 ^ 63 ≠ 0 ∨ a % 2 = 1)
  · rw [decide_eq_true c, if_pos (by omega)]; rfl
  · rw [decide_eq_false c, if_neg (by omega)]; rfl

theorem away65 (h l : BitVec 64) :
    h.toNat / 2 + (needRoundAway h l 65#64).toNat = rne (h.toNat * 2 ^ 64 + l.toNat) 65 := by
  have hl := l.isLt
  unfold needRoundAway
  rw [if_pos (show (65#64).toInt > 64 by decide)]
  dsimp only
  have hz : h &&& ushr (-1#64) (2#64 + 64#64 - (65#64 - 64#64)) = 0#64 := by
    have : ushr (-1#64) (2#64 + 64#64 - (65#64 - 64#64)) = 0#64 := by decide +kernel
    rw [this]; simp
  have hl0 : (l != 0#64) = decide (l.toNat ≠ 0) := by
    by_cases c : l = 0#64
    · subst c; rfl
    · have c' : l.toNat ≠ 0 := fun d => c (BitVec.eq_of_toNat_eq d)
      rw [decide_eq_true c', bne_iff_ne]; exact c
  rw [hz, hl0, bit_ne h (ushl 1#64 (65#64 - 1#64 - 64#64)) 0 (by decide +kernel),
    if_pos (show (65#64).toInt ≥ 64 by decide), bit_ne h (ushl 1#64 (65#64 - 64#64)) 1 (by decide +kernel)]
  unfold rne
  have d : (h.toNat * 2 ^ 64 + l.toNat) / 2 ^ 65 = h.toNat / 2 := by omega
  have m : (h.toNat * 2 ^ 64 + l.toNat) % 2 ^ 65 = h.toNat % 2 * 2 ^ 64 + l.toNat := by omega
  rw [d, m]
  generalize h.toNat = a at *
  generalize l.toNat = b at *
  by_cases c1 : a % 2 = 1 <;> by_cases c2 : b = 0 <;> by_cases c3 : a / 2 % 2 = 1 <;> simp [c1, c2, c3] <;> omega

/-- **Part of C102.** The sum in two words is exact when the product is shifted to the left and there is room. -/
theorem addBelow_exact (ph pl zs : BitVec 64) (pe re : Int) (d : Nat) (hs : pe - re = d) (hd : d < 64)
    (hno : zs.toNat * 2 ^ 64 + (ph.toNat * 2 ^ 64 + pl.toNat) * 2 ^ d < 2 ^ 128) :
    (addBelow ph pl pe zs re).1.toNat * 2 ^ 64 + (addBelow ph pl pe zs re).2.toNat =
      zs.toNat * 2 ^ 64 + (ph.toNat * 2 ^ 64 + pl.toNat) * 2 ^ d := by
  have e0 := lsh_toNat ph (pe - re) d hs hd
  have e1 := lsh_toNat pl (pe - re) d hs hd
  have e2 := rsh_toNat pl (re + 64 - pe) (64 - d) (by omega) (by omega)
  have e3 := split_shift pl.toNat d hd
  unfold addBelow
  rw [if_neg (by omega), if_pos (by omega)]
  dsimp only
  rw [BitVec.toNat_add, BitVec.toNat_add, e0, e1, e2]
  rw [Nat.add_mul, show ph.toNat * 2 ^ 64 * 2 ^ d = ph.toNat * 2 ^ d * 2 ^ 64 by ring, e3] at hno ⊢
  generalize pl.toNat * 2 ^ d % 2 ^ 64 = b at *
  generalize pl.toNat / 2 ^ (64 - d) = a at *
  generalize ph.toNat * 2 ^ d = c at *
  omega

attribute [local irreducible] assem64 explode64 needRoundAway lsh rsh product addShifted addBelow

/-- The words of a number between `2^116` and `2^118` are rounded to 53 bits and assembled. -/
theorem finish_large (n : Bool) (h l : BitVec 64) (le : Int) (V : Nat) (hV : h.toNat * 2 ^ 64 + l.toNat = V) (h1 : 2 ^ 116 ≤ V)
    (h2 : V < 2 ^ 118) (k e : Nat) (hk : V.log2 = k + 52) (he : (e : Int) = k + 1074 + le) (he2 : e < 2045) :
    neg dbl (finish n h l le).toNat = n ∧ Finite dbl (finish n h l le).toNat ∧
      magnitude dbl (finish n h l le).toNat = rne V k * 2 ^ e := by
  have hll := l.isLt
  have hh0 : 2 ^ 52 ≤ h.toNat := by omega
  have hh1 : h.toNat < 2 ^ 54 := by omega
  obtain ⟨j, j1, j2, j3, j4⟩ := findFirst1_spec h 55 (by decide) (by omega) (by omega)
  have hj52 : 52 ≤ j := by
    by_contra c
    have : 2 ^ (j + 1) ≤ 2 ^ 52 := Nat.pow_le_pow_right (by decide) (by omega)
    omega
  have hj53 : j ≤ 53 := by
    by_contra c
    have : 2 ^ 54 ≤ 2 ^ j := Nat.pow_le_pow_right (by decide) (by omega)
    omega
  have hlog : V.log2 = 64 + j := by
    rw [Nat.log2_eq_iff (by omega), Nat.pow_add, show 64 + j + 1 = 64 + (j + 1) by omega, Nat.pow_add]
    generalize 2 ^ j = a at *
    generalize 2 ^ (j + 1) = b at *
    omega
  have hkj : k = j + 12 := by omega
  have hk1 : 64 ≤ k := by omega
  have hk2 : k ≤ 65 := by omega
  have hff : (64 : Int) + findFirst1 h 55 = ((k + 52 : Nat) : Int) := by rw [j2]; omega
  have hrn : h.toNat / 2 ^ (k - 64) + (needRoundAway h l (BitVec.ofNat 64 k)).toNat = rne V k := by
    have : k = 64 ∨ k = 65 := by clear * - hk1 hk2; omega
    rcases this with c | c
    · rw [c, ← hV]
      have := away64 h l
      rw [show 64 - 64 = 0 by rfl, Nat.pow_zero, Nat.div_one]
      exact this
    · rw [c, ← hV]
      exact away65 h l
  have q0 : 2 ^ 52 ≤ h.toNat / 2 ^ (k - 64) := by
    rw [Nat.le_div_iff_mul_le (Nat.two_pow_pos _), ← Nat.pow_add, show 52 + (k - 64) = j by omega]
    exact j3
  have q1 : h.toNat / 2 ^ (k - 64) < 2 ^ 53 := by
    rw [Nat.div_lt_iff_lt_mul (Nat.two_pow_pos _), ← Nat.pow_add, show 53 + (k - 64) = j + 1 by omega]
    exact j4
  have hofk : BitVec.ofInt 64 ((k + 52 : Nat) - 52 : Int) = BitVec.ofNat 64 k := by
    rw [show ((k + 52 : Nat) - 52 : Int) = (k : Int) by omega]; simp
  have hsh := rsh_toNat h (((k + 52 : Nat) : Int) - 64 - 52) (k - 64) (by omega) (by omega)
  unfold finish
  rw [hff]
  dsimp only
  rw [if_neg (show ¬((k + 52 : Nat) : Int) = 63 by omega), if_neg (show ¬((k + 52 : Nat) : Int) + le ≤ -1023 by omega),
    if_neg (show ¬1024 ≤ ((k + 52 : Nat) : Int) + le by omega), if_pos (show 64 ≤ ((k + 52 : Nat) : Int) - 52 by omega), hofk]
  have hb := Bool.toNat_le (needRoundAway h l (BitVec.ofNat 64 k))
  refine assemble_spec n le (rne V k) k e he he2 (by omega) (by omega) _ ?_
  clear hb
  cases hb : needRoundAway h l (BitVec.ofNat 64 k) with
  | false =>
    rw [hb] at hrn
    rw [if_neg (by decide)]
    exact hsh.trans hrn
  | true =>
    rw [hb] at hrn
    rw [if_pos rfl]
    have e1 : (1#64).toNat = 1 := by decide
    have hrn' : h.toNat / 2 ^ (k - 64) + 1 = rne V k := hrn
    rw [BitVec.toNat_add, hsh, e1, Nat.mod_eq_of_lt (by omega)]
    exact hrn'

set_option exponentiation.threshold 1200 in
/-- **C102, partial.** If all three numbers are normal, product and number have one sign, the product is at most half of the number
and its last bit is at most 64 places below that of the number, and the sum is in range, then the result is the exact sum of the
exact product and the number, rounded to 53 bits, the even one of two. -/
theorem fma_large_partial (mac : BitVec 64 → BitVec 64 → BitVec 64 → BitVec 64) (x y z : BitVec 64)
    (hx0 : 1 ≤ expField dbl x.toNat) (hx1 : Finite dbl x.toNat) (hy0 : 1 ≤ expField dbl y.toNat) (hy1 : Finite dbl y.toNat)
    (hz0 : 1 ≤ expField dbl z.toNat) (hz1 : Finite dbl z.toNat) (hn : (neg dbl x.toNat != neg dbl y.toNat) = neg dbl z.toNat)
    (hle : 2 * (magnitude dbl x.toNat * magnitude dbl y.toNat) ≤ magnitude dbl z.toNat * 2 ^ 1074)
    (hal : expField dbl z.toNat + 1011 ≤ expField dbl x.toNat + expField dbl y.toNat)
    (v : Nat) (hv : v = magnitude dbl x.toNat * magnitude dbl y.toNat + magnitude dbl z.toNat * 2 ^ 1074)
    (hhi : v.log2 ≤ 3170) :
    neg dbl (fma64 mac x y z).toNat = neg dbl z.toNat ∧ Finite dbl (fma64 mac x y z).toNat ∧
      ∃ n : Nat, Nearest (n : Int) (v : Int) ((2 ^ (v.log2 - 52) : Nat) : Int) ∧
        magnitude dbl (fma64 mac x y z).toNat * 2 ^ 1074 = n * 2 ^ (v.log2 - 52) := by
  obtain ⟨ex, xs, x1, x2, x3⟩ := explode64_spec x
  obtain ⟨ey, ys, y1, y2, y3⟩ := explode64_spec y
  obtain ⟨ez, zs, z1, z2, z3⟩ := explode64_spec z
  have fx : mantField dbl x.toNat < 2 ^ 52 := mant_lt dbl x.toNat
  have fy : mantField dbl y.toNat < 2 ^ 52 := mant_lt dbl y.toNat
  have fz : mantField dbl z.toNat < 2 ^ 52 := mant_lt dbl z.toNat
  rw [if_neg (by omega)] at x3 y3 z3
  have mx : magnitude dbl x.toNat = xs.toNat * 2 ^ (expField dbl x.toNat - 1) := by unfold magnitude; rw [if_neg (by omega), x3]; rfl
  have my : magnitude dbl y.toNat = ys.toNat * 2 ^ (expField dbl y.toNat - 1) := by unfold magnitude; rw [if_neg (by omega), y3]; rfl
  have mz : magnitude dbl z.toNat = zs.toNat * 2 ^ (expField dbl z.toNat - 1) := by unfold magnitude; rw [if_neg (by omega), z3]; rfl
  have hmz : mulZero x y = false := by
    unfold mulZero
    rw [decide_eq_false_iff_not, mx, my,
      show xs.toNat * 2 ^ (expField dbl x.toNat - 1) * (ys.toNat * 2 ^ (expField dbl y.toNat - 1)) =
        xs.toNat * ys.toNat * 2 ^ (expField dbl x.toNat - 1 + (expField dbl y.toNat - 1)) by rw [Nat.pow_add]; ring]
    have h1 : 2 ^ 52 * 2 ^ 52 ≤ xs.toNat * ys.toNat := Nat.mul_le_mul (by omega) (by omega)
    have h2 : 2 ^ 1010 ≤ 2 ^ (expField dbl x.toNat - 1 + (expField dbl y.toNat - 1)) := Nat.pow_le_pow_right (by decide) (by omega)
    have h3 := Nat.mul_le_mul h1 h2
    have h4 : 2 ^ 1074 < 2 ^ 52 * 2 ^ 52 * 2 ^ 1010 := by
      rw [← Nat.pow_add, ← Nat.pow_add]
      exact Nat.pow_lt_pow_right (by decide) (by decide)
    exact Nat.not_le.mpr (Nat.lt_of_lt_of_le (Nat.lt_of_lt_of_le h4 h3) (Nat.le_mul_of_pos_left _ (by decide)))
  unfold fma64
  dsimp only
  rw [if_neg (not_or.mpr ⟨mask_ne x hx1, mask_ne y hy1⟩),
    if_neg (not_or.mpr ⟨(normal_ne_zero z hz0).1, not_or.mpr ⟨(normal_ne_zero z hz0).2, by rw [hmz]; decide⟩⟩),
    if_neg (mask_ne z hz1), if_neg (mask_zero z hz0), x1, y1, z1]
  dsimp only
  rw [if_pos hn]
  have xn : ¬ex.toInt = -1023 := by omega
  have yn : ¬ey.toInt = -1023 := by omega
  have zn : ¬ez.toInt = -1023 := by omega
  simp only [if_neg xn, if_neg yn, if_neg zn]
  clear xn yn zn
  clear x1 y1 z1 hmz hx1 hy1 hz1
  rw [mx, my, mz] at hv hle
  clear mx my mz
  rw [hn]
  rw [x2, y2, z2]
  clear x2 y2 z2 hn
  generalize expField dbl x.toNat = Ex at *
  generalize expField dbl y.toNat = Ey at *
  generalize expField dbl z.toNat = Ez at *
  generalize neg dbl z.toNat = n at *
  have xs0 : 2 ^ 52 ≤ xs.toNat := by omega
  have xs1 : xs.toNat < 2 ^ 53 := by omega
  have ys0 : 2 ^ 52 ≤ ys.toNat := by omega
  have ys1 : ys.toNat < 2 ^ 53 := by omega
  have zs0 : 2 ^ 52 ≤ zs.toNat := by omega
  have zs1 : zs.toNat < 2 ^ 53 := by omega
  clear x3 y3 z3 fx fy fz
  have hP := product_exact xs ys xs1 ys1
  have hP0 : 2 ^ 52 * 2 ^ 52 ≤ xs.toNat * ys.toNat := Nat.mul_le_mul xs0 ys0
  have hP1 : xs.toNat * ys.toNat < 2 ^ 53 * 2 ^ 53 := Nat.mul_lt_mul'' xs1 ys1
  generalize product xs ys = p at *
  obtain ⟨ph, pl⟩ := p
  dsimp only at hP ⊢
  obtain ⟨d, hd⟩ : ∃ d, d = Ex + Ey - 1011 - Ez := ⟨_, rfl⟩
  have hprod : xs.toNat * 2 ^ (Ex - 1) * (ys.toNat * 2 ^ (Ey - 1)) = xs.toNat * ys.toNat * 2 ^ d * 2 ^ (Ez + 1009) := by
    rw [Nat.mul_assoc (xs.toNat * ys.toNat), ← Nat.pow_add, show d + (Ez + 1009) = Ex - 1 + (Ey - 1) by omega, Nat.pow_add]; ring
  have hzz : zs.toNat * 2 ^ (Ez - 1) * 2 ^ 1074 = zs.toNat * 2 ^ 64 * 2 ^ (Ez + 1009) := by
    rw [Nat.mul_assoc, Nat.mul_assoc, ← Nat.pow_add, ← Nat.pow_add, show Ez - 1 + 1074 = 64 + (Ez + 1009) by omega]
  rw [hprod, hzz] at hle hv
  rw [← Nat.mul_assoc] at hle
  have hle' := Nat.le_of_mul_le_mul_right hle (Nat.two_pow_pos _)
  rw [← Nat.add_mul] at hv
  clear hprod hzz hle
  have hpll := pl.isLt
  have hph0 : 2 ^ 40 ≤ ph.toNat := by
    generalize xs.toNat * ys.toNat = P at *
    omega
  have hph1 : ph.toNat < 2 ^ 42 := by
    generalize xs.toNat * ys.toNat = P at *
    omega
  obtain ⟨j, j1, j2, j3, j4⟩ := findFirst1_spec ph 41 (by decide) (by omega) (by omega)
  have hcj : j + d < 52 := by
    by_contra hcon
    have e1 : 2 ^ 116 ≤ 2 ^ (64 + j) * 2 ^ d := by
      rw [← Nat.pow_add]; exact Nat.pow_le_pow_right (by decide) (by omega)
    have e2 : 2 ^ (64 + j) ≤ xs.toNat * ys.toNat := by
      rw [Nat.pow_add]
      generalize xs.toNat * ys.toNat = P at *
      generalize 2 ^ j = J at *
      omega
    have e3 := Nat.mul_le_mul_right (2 ^ d) e2
    generalize xs.toNat * ys.toNat * 2 ^ d = Z at *
    generalize 2 ^ (64 + j) * 2 ^ d = Y at *
    omega
  have hff : findFirst1Hl ph pl = 64 + j := by
    unfold findFirst1Hl
    rw [j2]
    dsimp only
    rw [if_pos (by omega)]; omega
  rw [hff, if_neg (by omega)]
  have hno : zs.toNat * 2 ^ 64 + (ph.toNat * 2 ^ 64 + pl.toNat) * 2 ^ d < 2 ^ 118 := by
    rw [hP]
    generalize xs.toNat * ys.toNat * 2 ^ d = Z at *
    omega
  have hA := addBelow_exact ph pl zs ((Ex : Int) - 1023 - 52 + ((Ey : Int) - 1023 - 52)) ((Ez : Int) - 1023 - 52 - 64) d (by omega) (by omega) (by omega)
  rw [hP] at hA hno
  generalize addBelow ph pl _ zs _ = r at *
  obtain ⟨rh, rl⟩ := r
  dsimp only at hA ⊢
  obtain ⟨V, hVd⟩ : ∃ V, V = zs.toNat * 2 ^ 64 + xs.toNat * ys.toNat * 2 ^ d := ⟨_, rfl⟩
  rw [Nat.add_comm (xs.toNat * ys.toNat * 2 ^ d)] at hv
  rw [← hVd] at hA hv hno
  have hV0 : 2 ^ 116 ≤ V := by
    generalize xs.toNat * ys.toNat * 2 ^ d = Z at *
    omega
  have hV1 : V < 2 ^ 118 := hno
  have hvne : v ≠ 0 := by
    rw [hv]
    exact Nat.mul_ne_zero (by omega) (Nat.two_pow_pos _).ne'
  obtain ⟨q, hq⟩ : ∃ q, q = Ez + 1009 := ⟨_, rfl⟩
  rw [← hq] at hv
  have hVl : V.log2 + q = v.log2 := by
    have h1 := (Nat.log2_eq_iff (k := V.log2) (by omega)).mp rfl
    symm
    rw [Nat.log2_eq_iff hvne, hv, Nat.pow_add, show V.log2 + q + 1 = V.log2 + 1 + q by omega, Nat.pow_add]
    exact ⟨Nat.mul_le_mul_right _ h1.1, Nat.mul_lt_mul_of_pos_right h1.2 (Nat.two_pow_pos _)⟩
  have hV116 : 116 ≤ V.log2 := by
    rw [Nat.le_log2 (by omega)]; exact hV0
  obtain ⟨k, hk⟩ : ∃ k, V.log2 = k + 52 := ⟨V.log2 - 52, by omega⟩
  obtain ⟨f1, f2, f3⟩ := finish_large n rh rl ((Ez : Int) - 1023 - 52 - 64) V hA hV0 hV1 k (k + q - 1074) hk (by omega) (by omega)
  refine ⟨f1, f2, rne V k, ?_, ?_⟩
  · have h := rne_nearest V k (2 ^ q) (Nat.two_pow_pos _)
    rw [← Nat.pow_add, ← hv, show k + q = v.log2 - 52 by omega] at h
    exact h
  · rw [f3, Nat.mul_assoc, ← Nat.pow_add, show k + q - 1074 + 1074 = v.log2 - 52 by omega]

/-- The hypotheses can be met: with `x = y = 1 + 2^-52`, `x * y + 4` is `5 + 2^-51 + 2^-104`, which is rounded. -/
example (mac : BitVec 64 → BitVec 64 → BitVec 64 → BitVec 64) :
    Finite dbl (fma64 mac 0x3ff0000000000001#64 0x3ff0000000000001#64 0x4010000000000000#64).toNat :=
  (fma_large_partial mac 0x3ff0000000000001#64 0x3ff0000000000001#64 0x4010000000000000#64 (by decide +kernel) (by decide +kernel)
    (by decide +kernel) (by decide +kernel) (by decide +kernel) (by decide +kernel) (by decide +kernel) (by decide +kernel)
    (by decide +kernel) _ rfl (by decide +kernel)).2.1

example (mac : BitVec 64 → BitVec 64 → BitVec 64 → BitVec 64) :
    fma64 mac 0x3ff0000000000003#64 0x3ff0000000000000#64 0x4010000000000000#64 = 0x4014000000000001#64 :=
  (mac_unused mac (fun _ _ _ => 0#64) _ _ _ (by decide +kernel) (by decide +kernel)).trans (by decide +kernel)

end Verif.Fma
