import Verif.Ctbig.Conv

/-!
# Multiplying by the base, modulo m

Helper lemmas for C88: the loops of `growmod`, and the estimate of the quotient.
-/

namespace Verif.Ctbig

theorem gt_nat (a b : W) : (Ct.gt false a b) = if b.toNat < a.toNat then 1 else 0 := by
  rw [Ct.gt_means (by decide)]
  simp only [BitVec.lt_def]
  rfl

theorem eq_nat (a b : W) : (Ct.eq false a b) = if a.toNat = b.toNat then 1 else 0 := by
  rw [Ct.eq_means (by decide)]
  simp only [BitVec.toNat_inj]
  rfl

/-- `r - q·m`, digit by digit. -/
theorem subMul_ok (q : W) : ∀ (ms xs : List W) (cc : BitVec 64) (tb : W), ms.length = xs.length → cc.toNat < 2 ^ 32 → (tb = 0 ∨ tb = 1) →
    (subMul q ms xs cc tb).1.length = xs.length ∧
    val xs + (subMul q ms xs cc tb).2.1.toNat * (2 ^ 32) ^ xs.length = val (subMul q ms xs cc tb).1 + q.toNat * val ms + cc.toNat ∧
    (subMul q ms xs cc tb).2.1.toNat < 2 ^ 32 ∧
    ((subMul q ms xs cc tb).2.2 = 0 ∨ (subMul q ms xs cc tb).2.2 = 1) ∧
    ((subMul q ms xs cc tb).2.2 = 1 ↔ val ms < val (subMul q ms xs cc tb).1 ∨ (val (subMul q ms xs cc tb).1 = val ms ∧ tb = 1))
  | [], [], cc, tb, _, hc, ht => by
    refine ⟨rfl, ?_, hc, ht, ?_⟩
    · simp [subMul, val]
    · simp [subMul]
  | mw :: ms, xw :: xs, cc, tb, hl, hc, ht => by
    have hm := mw.isLt
    have hq := q.isLt
    have hx := xw.isLt
    have hp : mw.toNat * q.toNat ≤ (2 ^ 32 - 1) * (2 ^ 32 - 1) := Nat.mul_le_mul (by omega) (by omega)
    have hz : (mw.setWidth 64 * q.setWidth 64 + cc).toNat = mw.toNat * q.toNat + cc.toNat := by
      rw [BitVec.toNat_add, BitVec.toNat_mul, w64, w64]; omega
    unfold subMul
    dsimp only
    generalize mw.setWidth 64 * q.setWidth 64 + cc = zl at hz ⊢
    have hlo := low32 zl
    generalize (zl.setWidth 32 : W) = zw at hlo ⊢
    have hzw := zw.isLt
    have hn : (xw - zw).toNat = if zw.toNat ≤ xw.toNat then xw.toNat - zw.toNat else 2 ^ 32 + xw.toNat - zw.toNat := by
      rw [BitVec.toNat_sub]; split <;> omega
    generalize xw - zw = nx at hn ⊢
    have hnx := nx.isLt
    have hcc : (zl >>> 32 + (Ct.gt false nx xw).setWidth 64).toNat = zl.toNat / 2 ^ 32 + (if zw.toNat ≤ xw.toNat then 0 else 1) := by
      rw [BitVec.toNat_add, high32, w64, gt_nat]
      split at hn
      · rw [if_neg (show ¬ xw.toNat < nx.toNat by omega), if_pos ‹_›]
        have := zl.isLt
        simp only [show (0 : W).toNat = 0 from rfl]
        omega
      · rw [if_pos (show xw.toNat < nx.toNat by omega), if_neg ‹_›]
        have := zl.isLt
        simp only [show (1 : W).toNat = 1 from rfl]
        omega
    generalize (zl >>> 32 + (Ct.gt false nx xw).setWidth 64) = c2 at hcc ⊢
    have htb : Ct.mux (Ct.eq false nx mw) tb (Ct.gt false nx mw) =
        if mw.toNat < nx.toNat ∨ (nx.toNat = mw.toNat ∧ tb = 1) then 1 else 0 := by
      rw [eq_nat, gt_nat]
      by_cases he : nx.toNat = mw.toNat
      · rw [if_pos he, mux1]
        rcases ht with rfl | rfl
        · rw [if_neg]
          intro h
          rcases h with h | h
          · omega
          · exact absurd h.2 (by decide)
        · rw [if_pos (.inr ⟨he, rfl⟩)]
      · rw [if_neg he, mux0]
        by_cases hg : mw.toNat < nx.toNat
        · rw [if_pos hg, if_pos (.inl hg)]
        · rw [if_neg hg, if_neg]
          intro h
          rcases h with h | h
          · exact hg h
          · exact he h.1
    generalize Ct.mux (Ct.eq false nx mw) tb (Ct.gt false nx mw) = t2 at htb ⊢
    have ht2 : t2 = 0 ∨ t2 = 1 := by rw [htb]; split <;> simp
    have hc2 : c2.toNat < 2 ^ 32 := by
      rw [hcc]; split <;> omega
    obtain ⟨i1, i2, i3, i5, i4⟩ := subMul_ok q ms xs c2 t2 (by simpa using hl) hc2 ht2
    generalize subMul q ms xs c2 t2 = o at i1 i2 i3 i4 i5 ⊢
    refine ⟨by rw [List.length_cons, i1, List.length_cons], ?_, i3, i5, ?_⟩
    · rw [val, val, val, List.length_cons, bsucc, Nat.mul_left_comm, Nat.mul_add, Nat.mul_left_comm q.toNat, Nat.mul_comm q.toNat mw.toNat]
      rw [hcc] at i2
      generalize q.toNat * val ms = A at *
      generalize o.2.1.toNat * (2 ^ 32) ^ xs.length = D at *
      generalize mw.toNat * q.toNat = P at *
      split at hn
      · rw [if_pos ‹_›] at i2
        omega
      · rw [if_neg ‹_›] at i2
        omega
    · rw [i4, val, val]
      have h1 : t2 = 1 ↔ mw.toNat < nx.toNat ∨ (nx.toNat = mw.toNat ∧ tb = 1) := by
        rw [htb]; split
        · simp_all
        · constructor
          · intro h; exact absurd h (by decide)
          · intro h; contradiction
      rw [h1]
      have : (tb = 1) ∨ ¬ (tb = 1) := Decidable.em _
      constructor
      · rintro (h | ⟨h, h' | h'⟩)
        · left; omega
        · left; omega
        · right; exact ⟨by omega, h'.2⟩
      · rintro (h | ⟨h, h'⟩)
        · by_cases hh : val ms < val o.1
          · exact .inl hh
          · right
            refine ⟨by omega, .inl (by omega)⟩
        · right
          exact ⟨by omega, .inr ⟨by omega, h'⟩⟩

/-- Knuth's bound on the quotient of the leading digits (TAOCP 4.3.1): with the top
bit of the divisor set it is at most two too large, and never too small. -/
theorem knuth {B P u1 u2 lo v1 vl Q : Nat} (_hB : 0 < B) (hv : B ≤ 2 * v1) (hP : 0 < P) (hu2 : u2 < B) (hlo : lo < P) (hvl : vl < P)
    (hQ : Q = ((u1 * B + u2) * P + lo) / (v1 * P + vl)) (hlt : u1 < v1) :
    Q ≤ (u1 * B + u2) / v1 ∧ (u1 * B + u2) / v1 ≤ Q + 2 := by
  have hv1 : 0 < v1 := by omega
  have hm : 0 < v1 * P + vl := Nat.lt_of_lt_of_le (Nat.mul_pos hv1 hP) (Nat.le_add_right ..)
  generalize hU : u1 * B + u2 = U at *
  have hUB : U < v1 * B := by
    have : (u1 + 1) * B ≤ v1 * B := Nat.mul_le_mul_right _ hlt
    rw [Nat.add_mul, Nat.one_mul] at this
    omega
  constructor
  · rw [hQ, Nat.le_div_iff_mul_le hv1]
    have h1 : ((U * P + lo) / (v1 * P + vl)) * (v1 * P + vl) ≤ U * P + lo := Nat.div_mul_le_self ..
    generalize (U * P + lo) / (v1 * P + vl) = Q' at h1 ⊢
    have h2 : Q' * v1 * P ≤ U * P + lo := by
      refine Nat.le_trans ?_ h1
      rw [Nat.mul_add, Nat.mul_assoc]
      exact Nat.le_add_right ..
    have h3 : Q' * v1 * P < (U + 1) * P := by rw [Nat.add_mul]; omega
    have := Nat.lt_of_mul_lt_mul_right h3
    omega
  · have hg : (U / v1) * v1 ≤ U := Nat.div_mul_le_self ..
    have hgB : U / v1 < B := by
      rw [Nat.div_lt_iff_lt_mul hv1, Nat.mul_comm]; exact hUB
    generalize U / v1 = g at hg hgB ⊢
    by_cases h2 : g ≤ 2
    · omega
    have : g - 2 ≤ Q := by
      rw [hQ, Nat.le_div_iff_mul_le hm]
      have e1 : (g - 2) * (v1 * P + vl) = (g - 2) * v1 * P + (g - 2) * vl := by rw [Nat.mul_add, Nat.mul_assoc]
      have e2 : (g - 2) * vl ≤ (g - 2) * P := Nat.mul_le_mul_left _ (by omega)
      have e3 : (g - 2) * v1 + (g - 2) ≤ U := by
        have : (g - 2) * v1 = g * v1 - 2 * v1 := Nat.sub_mul ..
        have : 2 * v1 ≤ g * v1 := Nat.mul_le_mul_right _ (by omega)
        omega
      have e4 := Nat.mul_le_mul_right P e3
      rw [Nat.add_mul] at e4
      omega
    omega

end Verif.Ctbig
