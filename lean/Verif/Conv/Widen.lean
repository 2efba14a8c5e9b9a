import Verif.Conv.Model
import Verif.Round.Scale

/-!
# C101: Widening, and lemmas
-/

namespace Verif.Conv

open Verif.Endian (shl)
open Verif.Flt
open Verif.Round

example : (widen 0x3fc00000#32).toNat = 0x3ff8000000000000 ∧ (widen 1#32).toNat = 0x36a0000000000000 ∧
    (narrow 0x3ff8000000000000#64).toNat = 0x3fc00000 ∧ (narrow 0x36a0000000000000#64).toNat = 1 := by decide +kernel

/-! ## Lemmas -/

theorem gd : Good dbl := good_of (Or.inl rfl)
theorem gf : Good flt := good_of (Or.inr rfl)

theorem explode64_spec (x : BitVec 64) : ∃ e s : BitVec 64, explode64 x = (neg dbl x.toNat, e, s) ∧
    e.toInt = (expField dbl x.toNat : Int) - 1023 ∧ s.toNat = (if expField dbl x.toNat = 0 then 0 else 2 ^ 52) + mantField dbl x.toNat := by
  obtain ⟨e, s, h1, h2, -, h4⟩ := explode_spec gd x
  exact ⟨e, s, h1, h2, h4⟩

theorem explode32_spec (x : BitVec 32) : ∃ e s : BitVec 32, explode32 x = (neg flt x.toNat, e, s) ∧
    e.toInt = (expField flt x.toNat : Int) - 127 ∧ s.toNat = (if expField flt x.toNat = 0 then 0 else 2 ^ 23) + mantField flt x.toNat := by
  obtain ⟨e, s, h1, h2, -, h4⟩ := explode_spec gf x
  exact ⟨e, s, h1, h2, h4⟩

theorem normal64 (n : Bool) (e s : BitVec 64) (E v : Nat) (he : e.toInt + 1023 = E) (hv : s.toNat = v) (h0 : E ≠ 0) (hE : E < 2047)
    (h1 : 2 ^ 52 ≤ v) (h2 : v < 2 ^ 53) :
    neg dbl (assem64 n e s).toNat = n ∧ Finite dbl (assem64 n e s).toNat ∧
      magnitude dbl (assem64 n e s).toNat = v * 2 ^ (E - 1) := by
  subst hv
  exact assem_normal gd n e s E he h0 hE h1 h2

theorem normal32 (n : Bool) (e s : BitVec 32) (E v : Nat) (he : e.toInt + 127 = E) (hv : s.toNat = v) (h0 : E ≠ 0) (hE : E < 255)
    (h1 : 2 ^ 23 ≤ v) (h2 : v < 2 ^ 24) :
    neg flt (assem32 n e s).toNat = n ∧ Finite flt (assem32 n e s).toNat ∧
      magnitude flt (assem32 n e s).toNat = v * 2 ^ (E - 1) := by
  subst hv
  exact assem_normal gf n e s E he h0 hE h1 h2

theorem denormal32 (n : Bool) (s : BitVec 32) (h2 : s.toNat < 2 ^ 23) :
    neg flt (assem32 n (-127#32) s).toNat = n ∧ Finite flt (assem32 n (-127#32) s).toNat ∧
      magnitude flt (assem32 n (-127#32) s).toNat = s.toNat := assem_denormal gf n (-127#32) s (by decide) h2

theorem zero64 (n : Bool) : neg dbl (assem64 n (-1023#64) 0#64).toNat = n ∧ Finite dbl (assem64 n (-1023#64) 0#64).toNat ∧
    magnitude dbl (assem64 n (-1023#64) 0#64).toNat = 0 := assem_denormal gd n (-1023#64) 0#64 (by decide) (by decide)

theorem fields32 (n : Bool) (e s : BitVec 32) (E : Nat) (he : e.toInt + 127 = E) (hE : E < 256) (h0 : E ≠ 0) :
    neg flt (assem32 n e s).toNat = n ∧ expField flt (assem32 n e s).toNat = E ∧
      mantField flt (assem32 n e s).toNat = s.toNat % 2 ^ 23 := assem_fields gf n e s E he hE (Or.inl h0)

theorem fields64 (n : Bool) (e s : BitVec 64) (E : Nat) (he : e.toInt + 1023 = E) (hE : E < 2048) (h0 : E ≠ 0) :
    neg dbl (assem64 n e s).toNat = n ∧ expField dbl (assem64 n e s).toNat = E ∧
      mantField dbl (assem64 n e s).toNat = s.toNat % 2 ^ 52 := assem_fields gd n e s E he hE (Or.inl h0)

theorem shl64 (x : BitVec 64) (n : Nat) (hn : n < 64) : (shl x n).toNat = x.toNat * 2 ^ n % 2 ^ 64 := shl_toNat gd x n hn

theorem norm_bounds (s j d : Nat) (h : j ≤ d) (h1 : 2 ^ j ≤ s) (h2 : s < 2 ^ (j + 1)) : 2 ^ d ≤ s * 2 ^ (d - j) ∧ s * 2 ^ (d - j) < 2 ^ (d + 1) := by
  have e1 : 2 ^ d = 2 ^ j * 2 ^ (d - j) := by rw [← Nat.pow_add]; congr 1; omega
  have e2 : 2 ^ (d + 1) = 2 ^ (j + 1) * 2 ^ (d - j) := by rw [← Nat.pow_add]; congr 1; omega
  rw [e1, e2]
  exact ⟨Nat.mul_le_mul_right _ h1, Nat.mul_lt_mul_of_pos_right h2 (Nat.two_pow_pos _)⟩

theorem exp_small (j : Nat) (hj : j ≤ 23) : (-126#64 - (23#64 - BitVec.ofNat 64 j)).toInt + 1023 = (874 + j : Nat) := by
  have : ∀ k : Fin 24, (-126#64 - (23#64 - BitVec.ofNat 64 k.val)).toInt + 1023 = (874 + k.val : Nat) := by decide +kernel
  exact this ⟨j, by omega⟩

theorem shift_small (j : Nat) (hj : j ≤ 23) : (52#64 - BitVec.ofNat 64 j).toNat = 52 - j := by
  have : ∀ k : Fin 24, (52#64 - BitVec.ofNat 64 k.val).toNat = 52 - k.val := by decide +kernel
  exact this ⟨j, by omega⟩

theorem shl_exact (xs : BitVec 64) (c d : Nat) (h : c = d) (hd : d < 64) (h2 : xs.toNat * 2 ^ d < 2 ^ 64) : (shl xs c).toNat = xs.toNat * 2 ^ d := by
  subst h
  rw [shl64 _ _ hd, Nat.mod_eq_of_lt h2]

set_option exponentiation.threshold 1000 in
theorem small64 (n : Bool) (xs : BitVec 64) (j : Nat) (hj : j ≤ 23) (h1 : 2 ^ j ≤ xs.toNat) (h2 : xs.toNat < 2 ^ (j + 1)) :
    neg dbl (assem64 n (-126#64 - (23#64 - BitVec.ofNat 64 j)) (shl xs (52#64 - BitVec.ofNat 64 j).toNat)).toNat = n ∧
    Finite dbl (assem64 n (-126#64 - (23#64 - BitVec.ofNat 64 j)) (shl xs (52#64 - BitVec.ofNat 64 j).toNat)).toNat ∧
    magnitude dbl (assem64 n (-126#64 - (23#64 - BitVec.ofNat 64 j)) (shl xs (52#64 - BitVec.ofNat 64 j).toNat)).toNat = xs.toNat * 2 ^ 925 := by
  obtain ⟨hlo, hhi⟩ := norm_bounds xs.toNat j 52 (by omega) h1 h2
  obtain ⟨z1, z2, z3⟩ := normal64 n _ _ (874 + j) _ (exp_small j hj)
    (shl_exact xs _ (52 - j) (shift_small j hj) (by omega) (Nat.lt_trans hhi (by decide))) (by omega) (by omega) hlo hhi
  refine ⟨z1, z2, z3.trans ?_⟩
  rw [Nat.mul_assoc, ← Nat.pow_add, show 52 - j + (874 + j - 1) = 925 by omega]

attribute [local irreducible] assem64 assem32 explode64 explode32 shl shr

/-! ## Widening -/

set_option exponentiation.threshold 1000 in
/-- **C101.** Widening is exact: a unit of 32 bits is `2^925` units of 64 bits. -/
theorem widen_exact (x : BitVec 32) (hx : Finite flt x.toNat) :
    neg dbl (widen x).toNat = neg flt x.toNat ∧ Finite dbl (widen x).toNat ∧
      magnitude dbl (widen x).toNat = magnitude flt x.toNat * 2 ^ 925 := by
  obtain ⟨e, s, h1, h2, h4⟩ := explode32_spec x
  have hF : mantField flt x.toNat < 2 ^ 23 := mant_lt flt x.toNat
  have hEl : expField flt x.toNat < 256 := exp_lt flt x.toNat
  have hfin : expField flt x.toNat ≠ 255 := hx
  have hsw : (s.setWidth 64).toNat = s.toNat := by
    rw [BitVec.toNat_setWidth, Nat.mod_eq_of_lt]; have := s.isLt; omega
  unfold widen
  rw [h1]
  dsimp only
  have c1 : e ≠ 128#32 := by
    rintro rfl
    have : (128#32).toInt = 128 := by decide
    omega
  rw [if_neg c1]
  by_cases c2 : e = -127#32
  · rw [if_pos c2]
    have hE0 : expField flt x.toNat = 0 := by
      have : (-127#32).toInt = -127 := by decide
      rw [c2] at h2; omega
    rw [if_pos hE0] at h4
    have hm : magnitude flt x.toNat = s.toNat := by unfold magnitude; rw [if_pos hE0]; omega
    by_cases hz : s.toNat = 0
    · have hs0 : s = 0#32 := BitVec.eq_of_toNat_eq (by simpa using hz)
      subst hs0
      have hff : findFirst1 ((0#32).setWidth 64) 23 = -1 := by decide +kernel
      rw [hff, if_pos (by decide)]
      have hden := zero64 (neg flt x.toNat)
      refine ⟨hden.1, hden.2.1, ?_⟩
      rw [hm, hz, Nat.zero_mul]
      exact hden.2.2
    · obtain ⟨j, hj1, hj2, hj3, hj4⟩ := findFirst1_spec (s.setWidth 64) 23 (by decide) (by omega) (by omega)
      rw [hj2, if_neg (by clear * -; omega), show BitVec.ofInt 64 (j : Int) = BitVec.ofNat 64 j by simp]
      obtain ⟨z1, z2, z3⟩ := small64 (neg flt x.toNat) (s.setWidth 64) j hj1 hj3 hj4
      refine ⟨z1, z2, z3.trans ?_⟩
      rw [hsw, hm]
  · rw [if_neg c2]
    have hE0 : expField flt x.toNat ≠ 0 := by
      intro h
      apply c2
      apply BitVec.eq_of_toInt_eq
      rw [h2, h]; decide
    rw [if_neg hE0] at h4
    have hm : magnitude flt x.toNat = s.toNat * 2 ^ (expField flt x.toNat - 1) := by
      unfold magnitude; rw [if_neg hE0, h4]; rfl
    have hse : (e.signExtend 64).toInt = e.toInt := BitVec.toInt_signExtend_of_le (by decide)
    have hsh : (shl (s.setWidth 64) 29).toNat = s.toNat * 2 ^ 29 := by
      rw [shl64 _ _ (by omega), hsw, Nat.mod_eq_of_lt]; omega
    obtain ⟨z1, z2, z3⟩ := normal64 (neg flt x.toNat) (e.signExtend 64) _ (expField flt x.toNat + 896) _
      (by rw [hse]; omega) hsh (by omega) (by omega) (by omega) (by omega)
    refine ⟨z1, z2, z3.trans ?_⟩
    clear z1 z2 z3
    rw [hm, Nat.mul_assoc, Nat.mul_assoc, ← Nat.pow_add, ← Nat.pow_add,
      show 29 + (expField flt x.toNat + 896 - 1) = expField flt x.toNat - 1 + 925 by omega]

/-- **C101, partial.** NaNs stay NaNs when they are widened; so does infinity become one, see below. -/
theorem widen_nan_partial (x : BitVec 32) (hx : ¬Finite flt x.toNat) :
    expField dbl (widen x).toNat = 2047 ∧ mantField dbl (widen x).toNat ≠ 0 := by
  obtain ⟨e, s, h1, h2, h4⟩ := explode32_spec x
  have hF : mantField flt x.toNat < 2 ^ 23 := mant_lt flt x.toNat
  have hfin : expField flt x.toNat = 255 := by
    unfold Finite at hx
    exact Decidable.not_not.mp hx
  rw [if_neg (by omega)] at h4
  have he : e = 128#32 := by
    apply BitVec.eq_of_toInt_eq
    rw [h2, hfin]; decide
  unfold widen
  rw [h1]
  dsimp only
  rw [if_pos he]
  have hsw : (s.setWidth 64).toNat = s.toNat := by
    rw [BitVec.toNat_setWidth, Nat.mod_eq_of_lt]; have := s.isLt; omega
  obtain ⟨-, z2, z3⟩ := fields64 (neg flt x.toNat) 1024#64 (s.setWidth 64) 2047 (by decide) (by decide) (by decide)
  exact ⟨z2, by omega⟩

end Verif.Conv
