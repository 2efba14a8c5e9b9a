import Verif.Layout.Model

/-!
# Lemmas on alignment and sizes
-/

namespace Verif.Layout

theorem align_dvd (sz a : Nat) (ha : a ≠ 0) : a ∣ align sz a := by
  unfold align
  rw [if_neg ha]
  exact Nat.dvd_sub_mod _

theorem le_align (sz a : Nat) : sz ≤ align sz a := by
  unfold align
  split
  · omega
  · rename_i h
    have := Nat.mod_lt (sz + a - 1) (Nat.pos_of_ne_zero h)
    omega

theorem align_lt (sz a : Nat) (ha : a ≠ 0) : align sz a < sz + a := by
  unfold align
  rw [if_neg ha]
  have := Nat.mod_le (sz + a - 1) a
  omega

theorem align_of_dvd (sz a : Nat) (h : a ∣ sz) : align sz a = sz := by
  by_cases ha : a = 0
  · simp [align, ha]
  · obtain ⟨k, rfl⟩ := h
    obtain ⟨m, hm⟩ := align_dvd (a * k) a ha
    have h1 := le_align (a * k) a
    have h2 := align_lt (a * k) a ha
    rw [hm] at h1 h2 ⊢
    have hk : k ≤ m := Nat.le_of_mul_le_mul_left h1 (Nat.pos_of_ne_zero ha)
    have hm : m < k + 1 := by
      apply Nat.lt_of_mul_lt_mul_left (a := a)
      rw [Nat.mul_add, Nat.mul_one]; exact h2
    rw [show m = k by omega]

/-- The 64-bit code computes `align` for powers of two as long as nothing overflows. -/
theorem align64_eq (sz : BitVec 64) (k : Nat) (hk : k < 64) (h : sz.toNat + 2 ^ k ≤ 2 ^ 64) :
    (align64 sz (BitVec.ofNat 64 (2 ^ k))).toNat = align sz.toNat (2 ^ k) := by
  have hp : 2 ^ k < 2 ^ 64 := Nat.pow_lt_pow_right (by omega) hk
  have hpos : 0 < 2 ^ k := Nat.two_pow_pos k
  have hne : BitVec.ofNat 64 (2 ^ k) ≠ 0#64 := by
    intro e
    have := congrArg BitVec.toNat e
    simp only [BitVec.toNat_ofNat] at this
    rw [Nat.mod_eq_of_lt hp] at this
    omega
  unfold align64 align
  rw [if_neg hne, if_neg (by omega)]
  have e1 : (sz + BitVec.ofNat 64 (2 ^ k) - 1#64).toNat = sz.toNat + 2 ^ k - 1 := by
    rw [BitVec.toNat_sub, BitVec.toNat_add]
    simp only [BitVec.toNat_ofNat]
    rw [Nat.mod_eq_of_lt hp]
    omega
  have e2 : BitVec.ofNat 64 (2 ^ k) - 1#64 = BitVec.ofNat 64 (2 ^ k - 1) := by
    apply BitVec.eq_of_toNat_eq
    rw [BitVec.toNat_sub, BitVec.toNat_ofNat, BitVec.toNat_ofNat, Nat.mod_eq_of_lt hp]
    simp only [BitVec.toNat_ofNat]
    omega
  rw [e2]
  have key : ∀ x : BitVec 64, (x &&& ~~~ BitVec.ofNat 64 (2 ^ k - 1)).toNat = x.toNat - x.toNat % 2 ^ k := by
    intro x
    have hsplit : x = (x &&& ~~~ BitVec.ofNat 64 (2 ^ k - 1)) + (x &&& BitVec.ofNat 64 (2 ^ k - 1)) := by
      rw [BitVec.add_eq_or_of_and_eq_zero]
      · ext i hi
        simp only [BitVec.getElem_or, BitVec.getElem_and, BitVec.getElem_not]
        cases x[i] <;> simp
      · ext i hi
        simp only [BitVec.getElem_and, BitVec.getElem_not, BitVec.getElem_zero]
        cases x[i] <;> simp
    have h2 : (x &&& BitVec.ofNat 64 (2 ^ k - 1)).toNat = x.toNat % 2 ^ k := by
      rw [BitVec.toNat_and, BitVec.toNat_ofNat, Nat.mod_eq_of_lt (by omega), Nat.and_two_pow_sub_one_eq_mod]
    have h3 : (x &&& ~~~ BitVec.ofNat 64 (2 ^ k - 1)).toNat ≤ x.toNat := by
      rw [BitVec.toNat_and]; exact Nat.and_le_left
    have h4 := congrArg BitVec.toNat hsplit
    rw [BitVec.toNat_add, h2] at h4
    have h5 := Nat.mod_le x.toNat (2 ^ k)
    have h6 := x.isLt
    generalize (x &&& ~~~ BitVec.ofNat 64 (2 ^ k - 1)).toNat = y at *
    by_cases h7 : y + x.toNat % 2 ^ k < 2 ^ 64
    · rw [Nat.mod_eq_of_lt h7] at h4; omega
    · omega
  rw [key, e1]

/-- The possible alignments. -/
def Pow (a : Nat) : Prop := a = 1 ∨ a = 2 ∨ a = 4 ∨ a = 8

theorem Pow.max {a b : Nat} (ha : Pow a) (hb : Pow b) : Pow (Max.max a b) := by
  unfold Pow at *; omega

mutual
theorem pow_align : ∀ t, Pow (min (rawalign t) 8)
  | .void => by simp [rawalign, Pow]
  | .bool => by simp [rawalign, Pow]
  | .int8 => by simp [rawalign, Pow]
  | .int16 => by simp [rawalign, Pow]
  | .int32 => by simp [rawalign, Pow]
  | .int64 => by simp [rawalign, Pow]
  | .char => by simp [rawalign, Pow]
  | .flt32 => by simp [rawalign, Pow]
  | .flt64 => by simp [rawalign, Pow]
  | .ptr => by simp [rawalign, Pow]
  | .valist => by simp [rawalign, Pow]
  | .code => by simp [rawalign, Pow]
  | .func => by simp [rawalign, Pow]
  | .slice => by simp [rawalign, Pow]
  | .name t => by rw [rawalign]; exact pow_align t
  | .array _ t => by
    rw [rawalign]
    have := pow_align t
    unfold Pow at *; omega
  | .tuple ts => by
    rw [rawalign]
    have := pow_tys ts 1 (by simp [Pow])
    unfold Pow at *; omega
  | .struct ms => by
    rw [rawalign]
    have := pow_membs ms 1 (by simp [Pow])
    unfold Pow at *; omega
  | .union us => by
    rw [rawalign]
    have := pow_ucons us 4 (by simp [Pow])
    unfold Pow at *; omega
theorem pow_tys : ∀ (ts : Tys) (a : Nat), Pow a → Pow (tysAlign a ts)
  | .nil, a, h => by rw [tysAlign]; exact h
  | .cons t ts, a, h => by rw [tysAlign]; exact pow_tys ts _ (h.max (pow_align t))
theorem pow_membs : ∀ (ms : Membs) (a : Nat), Pow a → Pow (membsAlign a ms)
  | .nil, a, h => by rw [membsAlign]; exact h
  | .cons _ t ms, a, h => by rw [membsAlign]; exact pow_membs ms _ (h.max (pow_align t))
theorem pow_ucons : ∀ (us : Ucons) (a : Nat), Pow a → Pow (uconsAlign a us)
  | .nil, a, h => by rw [uconsAlign]; exact h
  | .bare us, a, h => by rw [uconsAlign]; exact pow_ucons us _ h
  | .cons t us, a, h => by rw [uconsAlign]; exact pow_ucons us _ (h.max (pow_align t))
end

theorem tyalign_pow (t : Ty) : Pow (tyalign t) := pow_align t

theorem tyalign_ne (t : Ty) : tyalign t ≠ 0 := by
  have := tyalign_pow t
  unfold Pow at this; omega

theorem pow_dvd {a b : Nat} (ha : Pow a) (hb : Pow b) (h : a ≤ b) : a ∣ b := by
  rcases ha with rfl | rfl | rfl | rfl <;> rcases hb with rfl | rfl | rfl | rfl <;> first | decide | omega

/-- **C37**: every size is a multiple of the alignment. -/
theorem size_dvd : ∀ t, tyalign t ∣ tysize t
  | .void => by simp [tysize]
  | .bool => by simp [tyalign, rawalign, tysize]
  | .int8 => by simp [tyalign, rawalign, tysize]
  | .int16 => by simp [tyalign, rawalign, tysize]
  | .int32 => by simp [tyalign, rawalign, tysize]
  | .int64 => by simp [tyalign, rawalign, tysize]
  | .char => by simp [tyalign, rawalign, tysize]
  | .flt32 => by simp [tyalign, rawalign, tysize]
  | .flt64 => by simp [tyalign, rawalign, tysize]
  | .ptr => by simp [tyalign, rawalign, tysize]
  | .valist => by simp [tyalign, rawalign, tysize]
  | .code => by simp [tyalign, rawalign, tysize]
  | .func => by simp [tyalign, rawalign, tysize]
  | .slice => by simp [tyalign, rawalign, tysize]
  | .name t => by
    have := size_dvd t
    rw [tysize]; unfold tyalign; rw [rawalign]; exact this
  | .array none t => by rw [tysize]; exact Nat.dvd_zero _
  | .array (some n) t => by
    have := size_dvd t
    have e : tyalign (.array (some n) t) = tyalign t := by
      unfold tyalign; rw [rawalign]; omega
    rw [tysize, e]
    exact Nat.dvd_trans this (Nat.dvd_mul_left _ _)
  | .tuple ts => by rw [tysize]; exact align_dvd _ _ (tyalign_ne _)
  | .struct ms => by rw [tysize]; exact align_dvd _ _ (tyalign_ne _)
  | .union us => by rw [tysize]; exact align_dvd _ _ (tyalign_ne _)

theorem alignto_dvd (sz : Nat) (t : Ty) : tyalign t ∣ alignto sz t := align_dvd _ _ (tyalign_ne t)

theorem le_alignto (sz : Nat) (t : Ty) : sz ≤ alignto sz t := le_align _ _

/-! Sizes and alignments of the loops grow. -/

theorem le_tysSize : ∀ (ts : Tys) (sz : Nat), sz ≤ tysSize sz ts
  | .nil, sz => by rw [tysSize]
  | .cons t ts, sz => by
    rw [tysSize]
    have := le_tysSize ts (alignto sz t + tysize t)
    have := le_alignto sz t
    omega

theorem le_membsSize : ∀ (ms : Membs) (sz : Nat), sz ≤ membsSize sz ms
  | .nil, sz => by rw [membsSize]
  | .cons _ t ms, sz => by
    rw [membsSize]
    have := le_membsSize ms (alignto sz t + tysize t)
    have := le_alignto sz t
    omega

theorem le_uconsSize : ∀ (us : Ucons) (sz : Nat), sz ≤ uconsSize sz us
  | .nil, sz => by rw [uconsSize]
  | .bare us, sz => by rw [uconsSize]; exact le_uconsSize us sz
  | .cons t us, sz => by
    rw [uconsSize]
    have := le_uconsSize us (max sz (tysize t + 4))
    omega

theorem le_tysAlign : ∀ (ts : Tys) (a : Nat), a ≤ tysAlign a ts
  | .nil, a => by rw [tysAlign]
  | .cons t ts, a => by
    rw [tysAlign]
    have := le_tysAlign ts (max a (min (rawalign t) 8))
    omega

theorem le_membsAlign : ∀ (ms : Membs) (a : Nat), a ≤ membsAlign a ms
  | .nil, a => by rw [membsAlign]
  | .cons _ t ms, a => by
    rw [membsAlign]
    have := le_membsAlign ms (max a (min (rawalign t) 8))
    omega

theorem le_uconsAlign : ∀ (us : Ucons) (a : Nat), a ≤ uconsAlign a us
  | .nil, a => by rw [uconsAlign]
  | .bare us, a => by rw [uconsAlign]; exact le_uconsAlign us a
  | .cons t us, a => by
    rw [uconsAlign]
    have := le_uconsAlign us (max a (min (rawalign t) 8))
    omega

/-- `tybase`, /repo/parse/type.c:488-495. -/
def base : Ty → Ty
  | .name t => base t
  | t => t

theorem base_size : ∀ t, tysize (base t) = tysize t
  | .name t => by rw [base, tysize]; exact base_size t
  | .void | .bool | .int8 | .int16 | .int32 | .int64 | .char | .flt32 | .flt64 | .ptr | .valist | .code | .func
  | .slice | .array _ _ | .tuple _ | .struct _ | .union _ => by rw [base]; intro t h; cases h

theorem base_raw : ∀ t, rawalign (base t) = rawalign t
  | .name t => by rw [base, rawalign]; exact base_raw t
  | .void | .bool | .int8 | .int16 | .int32 | .int64 | .char | .flt32 | .flt64 | .ptr | .valist | .code | .func
  | .slice | .array _ _ | .tuple _ | .struct _ | .union _ => by rw [base]; intro t h; cases h

theorem base_align (t : Ty) : tyalign (base t) = tyalign t := by unfold tyalign; rw [base_raw]

end Verif.Layout
