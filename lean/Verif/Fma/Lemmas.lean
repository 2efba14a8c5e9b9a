import Verif.Fma.Model
import Verif.Conv.Props
import Mathlib.Tactic.Ring

/-!
# Lemmas for C102: arithmetic in two words
-/

namespace Verif.Fma

open Verif.Flt
open Verif.Round
open Verif.Conv

theorem ofInt_toNat (c : Nat) (h : c < 2 ^ 64) : (BitVec.ofInt 64 (c : Int)).toNat = c := by
  have : BitVec.ofInt 64 (c : Int) = BitVec.ofNat 64 c := by simp
  rw [this, BitVec.toNat_ofNat, Nat.mod_eq_of_lt h]

theorem lsh_toNat (u : BitVec 64) (s : Int) (c : Nat) (hs : s = c) (hc : c < 64) : (lsh u s).toNat = u.toNat * 2 ^ c % 2 ^ 64 := by
  subst hs
  unfold lsh ushl
  rw [ofInt_toNat c (by omega), if_neg (by omega)]
  exact shl64 _ _ hc

theorem rsh_toNat (u : BitVec 64) (s : Int) (c : Nat) (hs : s = c) (hc : c ≤ 64) : (rsh u s).toNat = u.toNat / 2 ^ c := by
  subst hs
  unfold rsh ushr
  rw [ofInt_toNat c (by omega)]
  by_cases h : c = 64
  · subst h
    rw [if_pos (by decide)]
    exact (Nat.div_eq_of_lt u.isLt).symm
  · rw [if_neg (by omega)]
    exact shr64 _ _ (by omega)

/-- Words of a shifted number. -/
theorem split_shift (a c : Nat) (hc : c < 64) : a * 2 ^ c = a / 2 ^ (64 - c) * 2 ^ 64 + a * 2 ^ c % 2 ^ 64 := by
  have h := Nat.div_add_mod (a * 2 ^ c) (2 ^ 64)
  have e : 2 ^ 64 = 2 ^ (64 - c) * 2 ^ c := by rw [← Nat.pow_add, show 64 - c + c = 64 by omega]
  have h2 : a * 2 ^ c / 2 ^ 64 = a / 2 ^ (64 - c) := by
    rw [e, Nat.mul_div_mul_right _ _ (Nat.two_pow_pos c)]
  rw [h2] at h
  rw [Nat.mul_comm (a / 2 ^ (64 - c))]
  exact h.symm

theorem add_core (h l a b : Nat) (hl : l < 2 ^ 64) (hb : b < 2 ^ 64) (hlim : h + a + 1 ≤ 2 ^ 64) (hlim2 : (h + a) * 2 ^ 64 + l + b < 2 ^ 128) :
    (if (l + b) % 2 ^ 64 < l then ((h + a) % 2 ^ 64 + 1) % 2 ^ 64 else (h + a) % 2 ^ 64) * 2 ^ 64 + (l + b) % 2 ^ 64 =
      h * 2 ^ 64 + l + (a * 2 ^ 64 + b) := by
  split <;> omega

theorem add_room (h l a b : Nat) (hno : h * 2 ^ 64 + l + (a * 2 ^ 64 + b) < 2 ^ 128) :
    h + a + 1 ≤ 2 ^ 64 ∧ (h + a) * 2 ^ 64 + l + b < 2 ^ 128 := by omega

/-- **Part of C102.** The sum in two words is exact when the number is shifted to the left and there is room. -/
theorem addShifted_exact (h l a : BitVec 64) (s : Int) (c : Nat) (hs : s = c) (hc : c < 64)
    (hno : h.toNat * 2 ^ 64 + l.toNat + a.toNat * 2 ^ c < 2 ^ 128) :
    (addShifted h l a s).1.toNat * 2 ^ 64 + (addShifted h l a s).2.toNat = h.toNat * 2 ^ 64 + l.toNat + a.toNat * 2 ^ c := by
  have e1 := lsh_toNat a s c hs hc
  have e2 := rsh_toNat a (64 - s) (64 - c) (by omega) (by omega)
  have e3 := split_shift a.toNat c hc
  have hb : a.toNat * 2 ^ c % 2 ^ 64 < 2 ^ 64 := Nat.mod_lt _ (by decide)
  unfold addShifted
  rw [if_neg (by omega), if_pos (by omega)]
  dsimp only
  have h1 : (l + lsh a s).toNat = (l.toNat + a.toNat * 2 ^ c % 2 ^ 64) % 2 ^ 64 := by rw [BitVec.toNat_add, e1]
  have h2 : (h + rsh a (64 - s)).toNat = (h.toNat + a.toNat / 2 ^ (64 - c)) % 2 ^ 64 := by rw [BitVec.toNat_add, e2]
  have h3 : (h + rsh a (64 - s) + 1#64).toNat = ((h.toNat + a.toNat / 2 ^ (64 - c)) % 2 ^ 64 + 1) % 2 ^ 64 := by
    rw [BitVec.toNat_add, h2]; rfl
  have hll := l.isLt
  rw [e3] at hno ⊢
  generalize a.toNat * 2 ^ c % 2 ^ 64 = b at *
  generalize a.toNat / 2 ^ (64 - c) = d at *
  obtain ⟨k1, k2⟩ := add_room _ _ _ _ hno
  rw [← add_core h.toNat l.toNat d b hll hb k1 k2, ← h1]
  by_cases hcar : l + lsh a s < l
  · rw [if_pos hcar, if_pos (by rw [BitVec.lt_def] at hcar; exact hcar), h3]
  · rw [if_neg hcar, if_neg (by rw [BitVec.lt_def] at hcar; exact hcar), h2]

theorem product_core (xh xl yh yl : Nat) (h1 : xh < 2 ^ 21) (h2 : xl < 2 ^ 32) (h3 : yh < 2 ^ 21) (h4 : yl < 2 ^ 32) :
    xl * yl < 2 ^ 64 ∧ xl * yh < 2 ^ 53 ∧ xh * yl < 2 ^ 53 ∧ xh * yh < 2 ^ 42 := by
  refine ⟨?_, ?_, ?_, ?_⟩
  · exact Nat.lt_of_lt_of_le (Nat.mul_lt_mul'' h2 h4) (by decide)
  · exact Nat.lt_of_lt_of_le (Nat.mul_lt_mul'' h2 h3) (by decide)
  · exact Nat.lt_of_lt_of_le (Nat.mul_lt_mul'' h1 h4) (by decide)
  · exact Nat.lt_of_lt_of_le (Nat.mul_lt_mul'' h1 h3) (by decide)

theorem product_sum (tl t1 t2 th : Nat) (h1 : tl < 2 ^ 64) :
    (if (tl + (t1 + t2) * 2 ^ 32 % 2 ^ 64) % 2 ^ 64 < tl then th + (t1 + t2) / 2 ^ 32 + 1 else th + (t1 + t2) / 2 ^ 32) * 2 ^ 64 +
      (tl + (t1 + t2) * 2 ^ 32 % 2 ^ 64) % 2 ^ 64 = th * 2 ^ 64 + (t1 + t2) * 2 ^ 32 + tl := by
  split <;> omega

/-- **Part of C102.** The product in two words is exact. -/
theorem product_exact (xs ys : BitVec 64) (hx : xs.toNat < 2 ^ 53) (hy : ys.toNat < 2 ^ 53) :
    (product xs ys).1.toNat * 2 ^ 64 + (product xs ys).2.toNat = xs.toNat * ys.toNat := by
  have a1 : (xs >>> 32).toNat = xs.toNat / 2 ^ 32 := by rw [BitVec.toNat_ushiftRight, Nat.shiftRight_eq_div_pow]
  have a2 : (ys >>> 32).toNat = ys.toNat / 2 ^ 32 := by rw [BitVec.toNat_ushiftRight, Nat.shiftRight_eq_div_pow]
  have hmask : (0xffffffff#64).toNat = 2 ^ 32 - 1 := by decide
  have a3 : (xs &&& 0xffffffff#64).toNat = xs.toNat % 2 ^ 32 := by rw [BitVec.toNat_and, hmask, Nat.and_two_pow_sub_one_eq_mod]
  have a4 : (ys &&& 0xffffffff#64).toNat = ys.toNat % 2 ^ 32 := by rw [BitVec.toNat_and, hmask, Nat.and_two_pow_sub_one_eq_mod]
  have dx := Nat.div_add_mod xs.toNat (2 ^ 32)
  have dy := Nat.div_add_mod ys.toNat (2 ^ 32)
  have b1 : xs.toNat / 2 ^ 32 < 2 ^ 21 := by omega
  have b2 : ys.toNat / 2 ^ 32 < 2 ^ 21 := by omega
  have b3 : xs.toNat % 2 ^ 32 < 2 ^ 32 := Nat.mod_lt _ (by decide)
  have b4 : ys.toNat % 2 ^ 32 < 2 ^ 32 := Nat.mod_lt _ (by decide)
  obtain ⟨c1, c2, c3, c4⟩ := product_core _ _ _ _ b1 b3 b2 b4
  unfold product
  dsimp only
  rw [← dx, ← dy]
  generalize xs.toNat / 2 ^ 32 = xh at *
  generalize ys.toNat / 2 ^ 32 = yh at *
  generalize xs.toNat % 2 ^ 32 = xl at *
  generalize ys.toNat % 2 ^ 32 = yl at *
  generalize xs >>> 32 = X at *
  generalize ys >>> 32 = Y at *
  generalize xs &&& 0xffffffff#64 = x at *
  generalize ys &&& 0xffffffff#64 = y at *
  have m1 : (x * y).toNat = xl * yl := by rw [BitVec.toNat_mul, a3, a4, Nat.mod_eq_of_lt c1]
  have m2 : (x * Y + X * y).toNat = xl * yh + xh * yl := by
    rw [BitVec.toNat_add, BitVec.toNat_mul, BitVec.toNat_mul, a3, a2, a1, a4]; omega
  have m3 : (X * Y).toNat = xh * yh := by rw [BitVec.toNat_mul, a1, a2, Nat.mod_eq_of_lt (by omega)]
  have e : (2 ^ 32 * xh + xl) * (2 ^ 32 * yh + yl) = xh * yh * 2 ^ 64 + (xl * yh + xh * yl) * 2 ^ 32 + xl * yl := by ring
  rw [e, ← product_sum _ _ _ _ c1]
  have m4 : (x * y + (x * Y + X * y) <<< 32).toNat = (xl * yl + (xl * yh + xh * yl) * 2 ^ 32 % 2 ^ 64) % 2 ^ 64 := by
    rw [BitVec.toNat_add, BitVec.toNat_shiftLeft, m1, m2, Nat.shiftLeft_eq]
  have m5 : (X * Y + (x * Y + X * y) >>> 32).toNat = xh * yh + (xl * yh + xh * yl) / 2 ^ 32 := by
    rw [BitVec.toNat_add, BitVec.toNat_ushiftRight, m2, m3, Nat.shiftRight_eq_div_pow]; omega
  have m6 : (X * Y + (x * Y + X * y) >>> 32 + 1#64).toNat = xh * yh + (xl * yh + xh * yl) / 2 ^ 32 + 1 := by
    have : (1#64).toNat = 1 := by decide
    rw [BitVec.toNat_add, m5, this]; omega
  rw [← m4]
  by_cases hc : x * y + (x * Y + X * y) <<< 32 < x * y
  · rw [if_pos hc, if_pos (by rw [BitVec.lt_def, m1] at hc; exact hc), m6]
  · rw [if_neg hc, if_neg (by rw [BitVec.lt_def, m1] at hc; exact hc), m5]

/-! ## The assembly -/

/-- Rounding of two words looks at the low one only, if the last bit kept is there. -/
theorem away_low (h l : BitVec 64) (k : Nat) (h2 : k < 64) :
    needRoundAway h l (BitVec.ofNat 64 k) = needRoundAway 0#64 l (BitVec.ofNat 64 k) := by
  have hk : (BitVec.ofNat 64 k).toInt = k := by
    have : (BitVec.ofNat 64 k).toNat = k := by rw [BitVec.toNat_ofNat, Nat.mod_eq_of_lt (by omega)]
    rw [BitVec.toInt_eq_toNat_of_lt] <;> rw [this]; omega
  have n1 : ¬(k : Int) > 64 := by omega
  have n2 : ¬(k : Int) ≥ 64 := by omega
  unfold needRoundAway
  simp only [hk, if_neg n1, if_neg n2]

/-- The rounding of two words. -/
theorem rne_words (h l k : Nat) (hk : k < 64) (b : Bool) (hb : l / 2 ^ k + b.toNat = rne l k) :
    (h * 2 ^ 64 + l) / 2 ^ k + b.toNat = rne (h * 2 ^ 64 + l) k := by
  have e : h * 2 ^ 64 = 2 ^ k * (2 * (h * 2 ^ (63 - k))) := by
    rw [show (64 : Nat) = k + (1 + (63 - k)) by omega, Nat.pow_add, Nat.pow_add]; ring
  have hp := Nat.two_pow_pos k
  have d : (h * 2 ^ 64 + l) / 2 ^ k = 2 * (h * 2 ^ (63 - k)) + l / 2 ^ k := by
    rw [e, Nat.mul_add_div hp]
  have m : (h * 2 ^ 64 + l) % 2 ^ k = l % 2 ^ k := by
    rw [e, Nat.mul_add_mod]
  unfold rne at *
  rw [d, m]
  have par : (2 * (h * 2 ^ (63 - k)) + l / 2 ^ k) % 2 = l / 2 ^ k % 2 := by omega
  rw [par]
  split at hb <;> rename_i c
  · rw [if_pos c]; omega
  · rw [if_neg c]; omega

theorem top_bit (s : BitVec 64) (h : s.toNat ≤ 2 ^ 53) : (s &&& 0x20000000000000#64 ≠ 0#64) ↔ s.toNat = 2 ^ 53 := by
  constructor
  · intro c
    by_contra hne
    apply c
    apply BitVec.eq_of_toNat_eq
    have e : (0x20000000000000#64).toNat = 2 ^ 53 := by decide
    rw [BitVec.toNat_and, e, and_pow _ _ (by omega)]
    rfl
  · intro c
    have : s = 0x20000000000000#64 := BitVec.eq_of_toNat_eq (by rw [c]; decide)
    rw [this]; decide

theorem or_words (h l : BitVec 64) (k : Nat) (h1 : 1 ≤ k) (hk : k < 64) (hh : h.toNat * 2 ^ (64 - k) < 2 ^ 64) :
    (lsh h (64 - (k : Int)) ||| rsh l k).toNat = (h.toNat * 2 ^ 64 + l.toNat) / 2 ^ k := by
  have hl := l.isLt
  have e : 2 ^ 64 = 2 ^ (64 - k) * 2 ^ k := by rw [← Nat.pow_add, show 64 - k + k = 64 by omega]
  have hr : l.toNat / 2 ^ k < 2 ^ (64 - k) := by
    rw [Nat.div_lt_iff_lt_mul (Nat.two_pow_pos _), ← e]; exact hl
  have d : (h.toNat * 2 ^ 64 + l.toNat) / 2 ^ k = h.toNat * 2 ^ (64 - k) + l.toNat / 2 ^ k := by
    rw [e, show h.toNat * (2 ^ (64 - k) * 2 ^ k) = 2 ^ k * (h.toNat * 2 ^ (64 - k)) by ring, Nat.mul_add_div (Nat.two_pow_pos _)]
  rw [BitVec.toNat_or, lsh_toNat h _ (64 - k) (by omega) (by omega), rsh_toNat l _ k rfl (by omega), Nat.mod_eq_of_lt hh, d]
  have := Nat.shiftLeft_add_eq_or_of_lt hr h.toNat
  rw [Nat.shiftLeft_eq] at this
  exact this.symm

end Verif.Fma
