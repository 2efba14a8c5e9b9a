import Verif.Aes.Model
import Mathlib.Tactic.IntervalCases

/-! # The permutations of bits in the words -/

namespace Verif.Aes

theorem rot16_bit (x : BitVec 64) {p : Nat} (hp : p < 64) : (rot16 x).getLsbD p = x.getLsbD ((p + 16) % 64) := by
  unfold rot16
  simp only [BitVec.getLsbD_or, BitVec.getLsbD_ushiftRight, BitVec.getLsbD_shiftLeft, hp, decide_true, Bool.true_and]
  by_cases h : p < 48
  · rw [Nat.mod_eq_of_lt (by omega)]
    simp [h, Nat.add_comm]
  · rw [show (p + 16) % 64 = p - 48 by omega, BitVec.getLsbD_of_ge x (16 + p) (by omega)]
    simp [h]

theorem rotr32_bit (x : BitVec 64) {p : Nat} (hp : p < 64) : (rotr32 x).getLsbD p = x.getLsbD ((p + 32) % 64) := by
  unfold rotr32
  simp only [BitVec.getLsbD_or, BitVec.getLsbD_ushiftRight, BitVec.getLsbD_shiftLeft, hp, decide_true, Bool.true_and]
  by_cases h : p < 32
  · rw [Nat.mod_eq_of_lt (by omega)]
    simp [h, Nat.add_comm]
  · rw [show (p + 32) % 64 = p - 32 by omega, BitVec.getLsbD_of_ge x (32 + p) (by omega)]
    simp [h]

theorem shiftrow_bit (x : BitVec 64) {p : Nat} (hp : p < 64) :
    (shiftrow x).getLsbD p = x.getLsbD (16 * (p / 16) + (p + 4 * (p / 16)) % 16) := by
  unfold shiftrow
  simp only [BitVec.getLsbD_or, BitVec.getLsbD_and, BitVec.getLsbD_ushiftRight, BitVec.getLsbD_shiftLeft]
  interval_cases p <;> simp

theorem invshiftrow_bit (x : BitVec 64) {p : Nat} (hp : p < 64) :
    (invshiftrow x).getLsbD p = x.getLsbD (16 * (p / 16) + (p + 16 - 4 * (p / 16)) % 16) := by
  unfold invshiftrow
  simp only [BitVec.getLsbD_or, BitVec.getLsbD_and, BitVec.getLsbD_ushiftRight, BitVec.getLsbD_shiftLeft]
  interval_cases p <;> simp

theorem spread_bit (w : BitVec 32) {p : Nat} (hp : p < 64) :
    (spread w).getLsbD p = if p % 16 < 8 then w.getLsbD (8 * (p / 16) + p % 16) else false := by
  unfold spread
  simp only [BitVec.getLsbD_or, BitVec.getLsbD_and, BitVec.getLsbD_shiftLeft, BitVec.truncate_eq_setWidth, BitVec.getLsbD_setWidth]
  interval_cases p <;> simp

theorem gather_bit (x : BitVec 64) {p : Nat} (hp : p < 32) : (gather x).getLsbD p = x.getLsbD (16 * (p / 8) + p % 8) := by
  unfold gather
  simp only [BitVec.getLsbD_or, BitVec.getLsbD_and, BitVec.getLsbD_ushiftRight, BitVec.truncate_eq_setWidth, BitVec.getLsbD_setWidth]
  interval_cases p <;> simp

theorem swap1_bit (a b : BitVec 64) {p : Nat} (hp : p < 64) :
    (swap1 a b).1.getLsbD p = (if p % 2 = 0 then a.getLsbD p else b.getLsbD (p - 1)) ∧
    (swap1 a b).2.getLsbD p = (if p % 2 = 0 then a.getLsbD (p + 1) else b.getLsbD p) := by
  unfold swap1 swap
  simp only [BitVec.getLsbD_or, BitVec.getLsbD_and, BitVec.getLsbD_ushiftRight, BitVec.getLsbD_shiftLeft]
  interval_cases p <;> simp

theorem swap2_bit (a b : BitVec 64) {p : Nat} (hp : p < 64) :
    (swap2 a b).1.getLsbD p = (if p / 2 % 2 = 0 then a.getLsbD p else b.getLsbD (p - 2)) ∧
    (swap2 a b).2.getLsbD p = (if p / 2 % 2 = 0 then a.getLsbD (p + 2) else b.getLsbD p) := by
  unfold swap2 swap
  simp only [BitVec.getLsbD_or, BitVec.getLsbD_and, BitVec.getLsbD_ushiftRight, BitVec.getLsbD_shiftLeft]
  interval_cases p <;> simp

theorem swap4_bit (a b : BitVec 64) {p : Nat} (hp : p < 64) :
    (swap4 a b).1.getLsbD p = (if p / 4 % 2 = 0 then a.getLsbD p else b.getLsbD (p - 4)) ∧
    (swap4 a b).2.getLsbD p = (if p / 4 % 2 = 0 then a.getLsbD (p + 4) else b.getLsbD p) := by
  unfold swap4 swap
  simp only [BitVec.getLsbD_or, BitVec.getLsbD_and, BitVec.getLsbD_ushiftRight, BitVec.getLsbD_shiftLeft]
  interval_cases p <;> simp

/-- A word by its number. -/
def Oct.get {α : Type} (o : Oct α) : Nat → α
  | 0 => o.q0 | 1 => o.q1 | 2 => o.q2 | 3 => o.q3 | 4 => o.q4 | 5 => o.q5 | 6 => o.q6 | _ => o.q7

theorem ortho1_bit (q : Q) {i j k : Nat} (hi : i < 8) (hj : j < 8) (hk : k < 8) :
    ((ortho1 q).get k).getLsbD (8 * i + j) =
      (q.get (k - 1 * (k / 1 % 2) + 1 * (j / 1 % 2))).getLsbD (8 * i + (j - 1 * (j / 1 % 2) + 1 * (k / 1 % 2))) := by
  have hp : 8 * i + j < 64 := by omega
  have e : (8 * i + j) % 2 = j / 1 % 2 := by omega
  rcases Nat.mod_two_eq_zero_or_one (j / 1) with h | h
  · have f : 8 * i + j + 1 = 8 * i + (j + 1) := by omega
    interval_cases k <;> simp only [Oct.get, ortho1, swap1_bit _ _ hp, e, h, f, if_true] <;> simp
  · have f : 8 * i + j - 1 = 8 * i + (j - 1) := by omega
    have g : j - 1 + 1 = j := by omega
    interval_cases k <;> simp only [Oct.get, ortho1, swap1_bit _ _ hp, e, h, f, if_false, Nat.one_ne_zero] <;> simp [g]

theorem ortho2_bit (q : Q) {i j k : Nat} (hi : i < 8) (hj : j < 8) (hk : k < 8) :
    ((ortho2 q).get k).getLsbD (8 * i + j) =
      (q.get (k - 2 * (k / 2 % 2) + 2 * (j / 2 % 2))).getLsbD (8 * i + (j - 2 * (j / 2 % 2) + 2 * (k / 2 % 2))) := by
  have hp : 8 * i + j < 64 := by omega
  have e : (8 * i + j) / 2 % 2 = j / 2 % 2 := by omega
  rcases Nat.mod_two_eq_zero_or_one (j / 2) with h | h
  · have f : 8 * i + j + 2 = 8 * i + (j + 2) := by omega
    interval_cases k <;> simp only [Oct.get, ortho2, swap2_bit _ _ hp, e, h, f, if_true] <;> simp
  · have f : 8 * i + j - 2 = 8 * i + (j - 2) := by omega
    have g : j - 2 + 2 = j := by omega
    interval_cases k <;> simp only [Oct.get, ortho2, swap2_bit _ _ hp, e, h, f, if_false, Nat.one_ne_zero] <;> simp [g]

theorem ortho4_bit (q : Q) {i j k : Nat} (hi : i < 8) (hj : j < 8) (hk : k < 8) :
    ((ortho4 q).get k).getLsbD (8 * i + j) =
      (q.get (k - 4 * (k / 4 % 2) + 4 * (j / 4 % 2))).getLsbD (8 * i + (j - 4 * (j / 4 % 2) + 4 * (k / 4 % 2))) := by
  have hp : 8 * i + j < 64 := by omega
  have e : (8 * i + j) / 4 % 2 = j / 4 % 2 := by omega
  rcases Nat.mod_two_eq_zero_or_one (j / 4) with h | h
  · have f : 8 * i + j + 4 = 8 * i + (j + 4) := by omega
    interval_cases k <;> simp only [Oct.get, ortho4, swap4_bit _ _ hp, e, h, f, if_true] <;> simp
  · have f : 8 * i + j - 4 = 8 * i + (j - 4) := by omega
    have g : j - 4 + 4 = j := by omega
    interval_cases k <;> simp only [Oct.get, ortho4, swap4_bit _ _ hp, e, h, f, if_false, Nat.one_ne_zero] <;> simp [g]

/-- `ortho` exchanges the number of the word and the place in the byte. -/
theorem ortho_bit (q : Q) {i j k : Nat} (hi : i < 8) (hj : j < 8) (hk : k < 8) :
    ((ortho q).get k).getLsbD (8 * i + j) = (q.get j).getLsbD (8 * i + k) := by
  unfold ortho
  rw [ortho4_bit _ hi hj hk, ortho2_bit _ hi (by omega) (by omega), ortho1_bit _ hi (by omega) (by omega)]
  interval_cases k <;> interval_cases j <;> rfl

end Verif.Aes
