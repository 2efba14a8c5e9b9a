import Verif.Alloc.Inv

/-!
# Size classes
-/

namespace Verif.Alloc

/-- `bktnum` from the shifted size on. -/
def bktof (v : Nat) : Nat :=
  let v := v ||| v >>> 1
  let v := v ||| v >>> 2
  let v := v ||| v >>> 4
  let v := v ||| v >>> 8
  let v := v ||| v >>> 16
  (bitpos[((v * 0x07c4acdd) % 2 ^ 32) >>> 27]?).getD 0

/-- All the values of the shifted size. -/
theorem bktof_table : ((List.range 16384).all fun v => decide (bktof v < 14 ∧ v < 2 * 2 ^ bktof v ∧ (bktof v = 0 ∨ 2 ^ bktof v ≤ v))) = true := by
  decide +kernel

theorem bktof_spec {v : Nat} (h : v < 16384) : bktof v < 14 ∧ v < 2 * 2 ^ bktof v ∧ (bktof v = 0 ∨ 2 ^ bktof v ≤ v) :=
  of_decide_eq_true (List.all_eq_true.1 bktof_table v (List.mem_range.2 h))

theorem bktnum_spec {sz : Nat} (h : sz ≤ 131072) : bktnum sz < 14 ∧ sz ≤ bsz (bktnum sz) ∧ (bktnum sz = 0 ∨ bsz (bktnum sz - 1) < sz) := by
  have e : bktnum sz = bktof ((sz - 1) / 8) := by
    unfold bktnum bktof
    rcases Nat.eq_zero_or_pos sz with h0 | h0
    · subst h0; rfl
    · rw [if_pos h0, Nat.shiftRight_eq_div_pow, Nat.mod_eq_of_lt (by omega)]
  rw [e, bsz_eq, bsz_eq]
  obtain ⟨h1, h2, h3⟩ := bktof_spec (v := (sz - 1) / 8) (by omega)
  obtain ⟨b, hb⟩ : ∃ b, bktof ((sz - 1) / 8) = b := ⟨_, rfl⟩
  rw [hb] at h1 h2 h3 ⊢
  refine ⟨h1, by omega, ?_⟩
  rcases h3 with h3 | h3
  · exact Or.inl h3
  · cases b with
    | zero => exact Or.inl rfl
    | succ b =>
      right
      rw [Nat.add_sub_cancel]
      rw [Nat.pow_succ] at h3
      omega

/-- The loop gives the first class large enough. -/
theorem allocloop_spec {sz : Nat} : ∀ (n k j : Nat), j ≤ 13 → k ≤ j → j - k < n → sz ≤ 16 * 2 ^ j → (j = 0 ∨ 16 * 2 ^ (j - 1) < sz) → allocloop sz n (16 * 2 ^ k) = .ok (16 * 2 ^ j)
  | 0, _, _, _, _, h, _, _ => absurd h (Nat.not_lt_zero _)
  | n + 1, k, j, hj, hk, hn, h1, h2 => by
    have hb : 2 ^ k ≤ 2 ^ 13 := Nat.pow_le_pow_right (by decide) (by omega)
    rw [allocloop, if_pos (by norm_num at hb; omega)]
    rcases Nat.lt_or_ge k j with hlt | hge
    · have h3 : 2 ^ k ≤ 2 ^ (j - 1) := Nat.pow_le_pow_right (by decide) (by omega)
      rw [if_neg (by omega), show 16 * 2 ^ k * 2 = 16 * 2 ^ (k + 1) by rw [Nat.pow_succ]; omega]
      exact allocloop_spec n (k + 1) j hj hlt (by omega) h1 h2
    · have : k = j := by omega
      subst this
      rw [if_pos h1]

theorem allocsz_small {sz : Nat} (h : sz ≤ 131072) : allocsz sz = .ok (bsz (bktnum sz)) := by
  obtain ⟨h1, h2, h3⟩ := bktnum_spec h
  unfold allocsz
  rw [if_pos h]
  rw [bsz_eq] at *
  exact allocloop_spec 64 0 _ (by omega) (by omega) (by omega) h2 h3

theorem align_spec (v : Nat) {a : Nat} (ha : 0 < a) : v ≤ align v a ∧ align v a % a = 0 ∧ align v a < v + a := by
  unfold align
  have h1 := Nat.div_add_mod (v + a - 1) a
  have h2 := Nat.mod_lt (v + a - 1) ha
  rw [Nat.mul_comm] at h1
  refine ⟨by omega, Nat.mul_mod_left _ _, by omega⟩

end Verif.Alloc
