import Verif.Fma.Props

/-!
# C102: Multiplying and subtracting with one rounding
-/

namespace Verif.Fma

open Verif.Flt
open Verif.Round
open Verif.Conv

theorem sub_core (h l a b : Nat) (hh : h < 2 ^ 64) (hl : l < 2 ^ 64) (ha : a < 2 ^ 64) (hb : b < 2 ^ 64) (hle : a * 2 ^ 64 + b ≤ h * 2 ^ 64 + l) :
    (if l < b then (2 ^ 64 - 1 + (2 ^ 64 - a + h) % 2 ^ 64) % 2 ^ 64 else (2 ^ 64 - a + h) % 2 ^ 64) * 2 ^ 64 + (2 ^ 64 - b + l) % 2 ^ 64 =
      h * 2 ^ 64 + l - (a * 2 ^ 64 + b) := by
  split <;> omega

/-- **Part of C102.** The difference in two words is exact when the number is shifted to the left and not larger. -/
theorem subShifted_exact (h l a : BitVec 64) (s : Int) (c : Nat) (hs : s = c) (hc : c < 64)
    (hno : a.toNat * 2 ^ c ≤ h.toNat * 2 ^ 64 + l.toNat) :
    (subShifted h l a s).1.toNat * 2 ^ 64 + (subShifted h l a s).2.toNat = h.toNat * 2 ^ 64 + l.toNat - a.toNat * 2 ^ c := by
  have e1 := lsh_toNat a s c hs hc
  have e2 := rsh_toNat a (64 - s) (64 - c) (by omega) (by omega)
  have e3 := split_shift a.toNat c hc
  have hb : a.toNat * 2 ^ c % 2 ^ 64 < 2 ^ 64 := Nat.mod_lt _ (by decide)
  have hd : a.toNat / 2 ^ (64 - c) < 2 ^ 64 := Nat.lt_of_le_of_lt (Nat.div_le_self _ _) a.isLt
  unfold subShifted
  rw [if_neg (by omega), if_pos (by omega)]
  dsimp only
  have h1 : (l - lsh a s).toNat = (2 ^ 64 - a.toNat * 2 ^ c % 2 ^ 64 + l.toNat) % 2 ^ 64 := by rw [BitVec.toNat_sub, e1]
  have h2 : (h - rsh a (64 - s)).toNat = (2 ^ 64 - a.toNat / 2 ^ (64 - c) + h.toNat) % 2 ^ 64 := by rw [BitVec.toNat_sub, e2]
  have h3 : (h - rsh a (64 - s) - 1#64).toNat = (2 ^ 64 - 1 + (2 ^ 64 - a.toNat / 2 ^ (64 - c) + h.toNat) % 2 ^ 64) % 2 ^ 64 := by
    rw [BitVec.toNat_sub, h2]; rfl
  have hll := l.isLt
  have hhl := h.isLt
  rw [e3] at hno ⊢
  rw [← sub_core h.toNat l.toNat _ _ hhl hll hd hb hno, ← h1]
  by_cases hcar : l < lsh a s
  · rw [if_pos hcar, if_pos (by rw [BitVec.lt_def, e1] at hcar; exact hcar), h3]
  · rw [if_neg hcar, if_neg (by rw [BitVec.lt_def, e1] at hcar; exact hcar), h2]

attribute [local irreducible] assem64 explode64 needRoundAway lsh rsh product addShifted subShifted

set_option exponentiation.threshold 1200 in
/-- **C102, partial.** If all three numbers are normal, product and number have different signs, the number is at most half of the
product and has no bits below those of the product, and the difference is in the range of normal numbers, then the result is the
exact difference of the exact product and the number, rounded to 53 bits, the even one of two, with the sign of the product. -/
theorem fms_partial (mac : BitVec 64 → BitVec 64 → BitVec 64 → BitVec 64) (x y z : BitVec 64)
    (hx0 : 1 ≤ expField dbl x.toNat) (hx1 : Finite dbl x.toNat) (hy0 : 1 ≤ expField dbl y.toNat) (hy1 : Finite dbl y.toNat)
    (hz0 : 1 ≤ expField dbl z.toNat) (hz1 : Finite dbl z.toNat) (hn : (neg dbl x.toNat != neg dbl y.toNat) = !neg dbl z.toNat)
    (hle : 2 * (magnitude dbl z.toNat * 2 ^ 1074) ≤ magnitude dbl x.toNat * magnitude dbl y.toNat)
    (hal : expField dbl x.toNat + expField dbl y.toNat ≤ expField dbl z.toNat + 1075)
    (v : Nat) (hv : v = magnitude dbl x.toNat * magnitude dbl y.toNat - magnitude dbl z.toNat * 2 ^ 1074)
    (hlo : 1126 ≤ v.log2) (hhi : v.log2 ≤ 3170) :
    neg dbl (fma64 mac x y z).toNat = (!neg dbl z.toNat) ∧ Finite dbl (fma64 mac x y z).toNat ∧
      ∃ n : Nat, Nearest (n : Int) (v : Int) ((2 ^ (v.log2 - 52) : Nat) : Int) ∧
        magnitude dbl (fma64 mac x y z).toNat * 2 ^ 1074 = n * 2 ^ (v.log2 - 52) := by
  obtain ⟨ex, xs, x1, x2, x3⟩ := explode64_spec x
  obtain ⟨ey, ys, y1, y2, y3⟩ := explode64_spec y
  obtain ⟨ez, zs, z1, z2, z3⟩ := explode64_spec z
  have fx : mantField dbl x.toNat < 2 ^ 52 := mant_lt dbl x.toNat
  have fy : mantField dbl y.toNat < 2 ^ 52 := mant_lt dbl y.toNat
  have fz : mantField dbl z.toNat < 2 ^ 52 := mant_lt dbl z.toNat
  rw [if_neg (by omega)] at x3 y3 z3
  have mx : magnitude dbl x.toNat = xs.toNat * 2 ^ (expField dbl x.toNat - 1) := by unfold magnitude; rw [if_neg (by omega), x3]; rfl
  have my : magnitude dbl y.toNat = ys.toNat * 2 ^ (expField dbl y.toNat - 1) := by unfold magnitude; rw [if_neg (by omega), y3]; rfl
  have mz : magnitude dbl z.toNat = zs.toNat * 2 ^ (expField dbl z.toNat - 1) := by unfold magnitude; rw [if_neg (by omega), z3]; rfl
  have hvne : v ≠ 0 := by
    rintro rfl
    rw [Nat.log2_zero] at hlo; omega
  have hmz : mulZero x y = false := by
    unfold mulZero
    rw [decide_eq_false_iff_not]
    have h1 := (Nat.log2_eq_iff (k := v.log2) hvne).mp rfl
    have h2 : 2 ^ 1126 ≤ 2 ^ v.log2 := Nat.pow_le_pow_right (by decide) hlo
    have h3 : 2 ^ 1074 < 2 ^ 1126 := Nat.pow_lt_pow_right (by decide) (by decide)
    clear mx my mz
    generalize magnitude dbl x.toNat * magnitude dbl y.toNat = P at *
    generalize magnitude dbl z.toNat * 2 ^ 1074 = Z at *
    generalize 2 ^ 1074 = A at *
    generalize 2 ^ 1126 = B at *
    generalize 2 ^ v.log2 = C at *
    omega
  unfold fma64
  dsimp only
  rw [if_neg (not_or.mpr ⟨mask_ne x hx1, mask_ne y hy1⟩),
    if_neg (not_or.mpr ⟨(normal_ne_zero z hz0).1, not_or.mpr ⟨(normal_ne_zero z hz0).2, by rw [hmz]; decide⟩⟩),
    if_neg (mask_ne z hz1), if_neg (mask_zero z hz0), x1, y1, z1]
  dsimp only
  have hn' : ¬(neg dbl x.toNat != neg dbl y.toNat) = neg dbl z.toNat := by rw [hn]; cases neg dbl z.toNat <;> decide
  rw [if_neg hn']
  clear hn'
  have xn : ¬ex.toInt = -1023 := by omega
  have yn : ¬ey.toInt = -1023 := by omega
  have zn : ¬ez.toInt = -1023 := by omega
  simp only [if_neg xn, if_neg yn, if_neg zn]
  clear xn yn zn
  clear x1 y1 z1 hmz hx1 hy1 hz1
  rw [mx, my, mz] at hv hle
  clear mx my mz
  rw [hn]
  rw [x2, y2, z2]
  clear x2 y2 z2 hn
  generalize expField dbl x.toNat = Ex at *
  generalize expField dbl y.toNat = Ey at *
  generalize expField dbl z.toNat = Ez at *
  generalize (!neg dbl z.toNat) = n at *
  have xs0 : 2 ^ 52 ≤ xs.toNat := by omega
  have xs1 : xs.toNat < 2 ^ 53 := by omega
  have ys0 : 2 ^ 52 ≤ ys.toNat := by omega
  have ys1 : ys.toNat < 2 ^ 53 := by omega
  have zs0 : 2 ^ 52 ≤ zs.toNat := by omega
  have zs1 : zs.toNat < 2 ^ 53 := by omega
  clear x3 y3 z3 fx fy fz
  have hP := product_exact xs ys xs1 ys1
  have hP0 : 2 ^ 52 * 2 ^ 52 ≤ xs.toNat * ys.toNat := Nat.mul_le_mul xs0 ys0
  have hP1 : xs.toNat * ys.toNat < 2 ^ 53 * 2 ^ 53 := Nat.mul_lt_mul'' xs1 ys1
  generalize product xs ys = p at *
  obtain ⟨ph, pl⟩ := p
  dsimp only at hP ⊢
  obtain ⟨c, hc⟩ : ∃ c, c = Ez + 1075 - (Ex + Ey) := ⟨_, rfl⟩
  have hprod : xs.toNat * 2 ^ (Ex - 1) * (ys.toNat * 2 ^ (Ey - 1)) = xs.toNat * ys.toNat * 2 ^ (Ex - 1 + (Ey - 1)) := by
    rw [Nat.pow_add]; ring
  have hzz : zs.toNat * 2 ^ (Ez - 1) * 2 ^ 1074 = zs.toNat * 2 ^ c * 2 ^ (Ex - 1 + (Ey - 1)) := by
    rw [Nat.mul_assoc, Nat.mul_assoc, ← Nat.pow_add, ← Nat.pow_add, show Ez - 1 + 1074 = c + (Ex - 1 + (Ey - 1)) by omega]
  rw [hprod, hzz] at hle hv
  rw [← Nat.mul_assoc] at hle
  have hle' := Nat.le_of_mul_le_mul_right hle (Nat.two_pow_pos _)
  rw [← Nat.sub_mul] at hv
  clear hprod hzz hle
  have hpll := pl.isLt
  have hph0 : 2 ^ 40 ≤ ph.toNat := by
    generalize xs.toNat * ys.toNat = P at *
    omega
  have hph1 : ph.toNat < 2 ^ 42 := by
    generalize xs.toNat * ys.toNat = P at *
    omega
  obtain ⟨j, j1, j2, j3, j4⟩ := findFirst1_spec ph 41 (by decide) (by omega) (by omega)
  have hcj : c < 12 + j := by
    by_contra hcon
    have e1 : 2 ^ 52 * 2 ^ (12 + j) ≤ zs.toNat * 2 ^ c := Nat.mul_le_mul zs0 (Nat.pow_le_pow_right (by decide) (by omega))
    have e2 : 2 ^ 52 * 2 ^ (12 + j) = 2 ^ j * 2 ^ 64 := by rw [← Nat.pow_add, ← Nat.pow_add]; congr 1; omega
    rw [e2] at e1
    rw [Nat.pow_succ] at j4
    generalize 2 ^ j = J at *
    generalize zs.toNat * 2 ^ c = Z at *
    omega
  have hff : findFirst1Hl ph pl = 64 + j := by
    unfold findFirst1Hl
    rw [j2]
    dsimp only
    rw [if_pos (by omega)]; omega
  rw [hff]
  have hcmp : compareHlZ ph pl ((Ex : Int) - 1023 - 52 + ((Ey : Int) - 1023 - 52) + (64 + j)) ((Ex : Int) - 1023 - 52 + ((Ey : Int) - 1023 - 52))
      zs ((Ez : Int) - 1023) ((Ez : Int) - 1023 - 52) = .before := by
    unfold compareHlZ
    rw [if_pos (by omega)]
  rw [hcmp]
  dsimp only
  have hA := subShifted_exact ph pl zs ((Ez : Int) - 1023 - 52 - ((Ex : Int) - 1023 - 52 + ((Ey : Int) - 1023 - 52))) c (by omega) (by omega)
    (by rw [hP]; omega)
  rw [hP] at hA
  generalize subShifted ph pl zs _ = r at *
  obtain ⟨rh, rl⟩ := r
  dsimp only at hA ⊢
  obtain ⟨V, hVd⟩ : ∃ V, V = xs.toNat * ys.toNat - zs.toNat * 2 ^ c := ⟨_, rfl⟩
  rw [← hVd] at hA hv
  have hV0 : 2 ^ 103 ≤ V := by
    generalize xs.toNat * ys.toNat = P at *
    generalize zs.toNat * 2 ^ c = Z at *
    omega
  have hV1 : V < 2 ^ 107 := by
    generalize xs.toNat * ys.toNat = P at *
    generalize zs.toNat * 2 ^ c = Z at *
    omega
  obtain ⟨q, hq⟩ : ∃ q, q = Ex - 1 + (Ey - 1) := ⟨_, rfl⟩
  rw [← hq] at hv
  have hVl : V.log2 + q = v.log2 := by
    have h1 := (Nat.log2_eq_iff (k := V.log2) (by omega)).mp rfl
    symm
    rw [Nat.log2_eq_iff hvne, hv, Nat.pow_add, show V.log2 + q + 1 = V.log2 + 1 + q by omega, Nat.pow_add]
    exact ⟨Nat.mul_le_mul_right _ h1.1, Nat.mul_lt_mul_of_pos_right h1.2 (Nat.two_pow_pos _)⟩
  have hV103 : 103 ≤ V.log2 := by
    rw [Nat.le_log2 (by omega)]; exact hV0
  obtain ⟨k, hk⟩ : ∃ k, V.log2 = k + 52 := ⟨V.log2 - 52, by omega⟩
  obtain ⟨f1, f2, f3⟩ := finish_spec n rh rl ((Ex : Int) - 1023 - 52 + ((Ey : Int) - 1023 - 52)) V hA hV0 hV1 k (k + q - 1074) hk (by omega) (by omega)
  refine ⟨f1, f2, rne V k, ?_, ?_⟩
  · have h := rne_nearest V k (2 ^ q) (Nat.two_pow_pos _)
    rw [← Nat.pow_add, ← hv, show k + q = v.log2 - 52 by omega] at h
    exact h
  · rw [f3, Nat.mul_assoc, ← Nat.pow_add, show k + q - 1074 + 1074 = v.log2 - 52 by omega]

/-- The hypotheses can be met: with `x = y = 1 + 2^-52`, `x * y - 1/4` is `3/4 + 2^-51 + 2^-104`, which is rounded. -/
example (mac : BitVec 64 → BitVec 64 → BitVec 64 → BitVec 64) :
    Finite dbl (fma64 mac 0x3ff0000000000001#64 0x3ff0000000000001#64 0xbfd0000000000000#64).toNat :=
  (fms_partial mac 0x3ff0000000000001#64 0x3ff0000000000001#64 0xbfd0000000000000#64 (by decide +kernel) (by decide +kernel)
    (by decide +kernel) (by decide +kernel) (by decide +kernel) (by decide +kernel) (by decide +kernel) (by decide +kernel)
    (by decide +kernel) _ rfl (by decide +kernel) (by decide +kernel)).2.1

example (mac : BitVec 64 → BitVec 64 → BitVec 64 → BitVec 64) :
    fma64 mac 0x3ff0000000000001#64 0x3ff0000000000001#64 0xbfd0000000000000#64 = 0x3fe8000000000004#64 :=
  (mac_unused mac (fun _ _ _ => 0#64) _ _ _ (by decide +kernel) (by decide +kernel)).trans (by decide +kernel)

/-- Equal product and number: `3 * 5 - 15` is zero. -/
example (mac : BitVec 64 → BitVec 64 → BitVec 64 → BitVec 64) :
    fma64 mac 0x4008000000000000#64 0x4014000000000000#64 0xc02e000000000000#64 = 0#64 :=
  (mac_unused mac (fun _ _ _ => 0#64) _ _ _ (by decide +kernel) (by decide +kernel)).trans (by decide +kernel)

end Verif.Fma
