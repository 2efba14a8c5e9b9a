import Verif.Date.Model
import Verif.Date.Spec

/-! # Lemmas: the day number of a date -/

namespace Verif.Date

theorem leap_iff (y : Nat) : leap y = true ↔ y % 400 = 0 ∨ (y % 4 = 0 ∧ y % 100 ≠ 0) := by
  unfold leap
  simp

/-- The month counted from March. -/
def march (m : Nat) : Nat := if m > 2 then m - 3 else m + 9

/-- The year of that March. -/
def myear (v : Day) : Nat := if v.m > 2 then v.y else v.y - 1

/-- The day number of a date: 1 is 1 March of year 0. -/
def dnum (v : Day) : Nat :=
  myear v / 100 * 146097 / 4 + 1461 * (myear v % 100) / 4 + (153 * march v.m + 2) / 5 + v.d

theorem mlen_feb (y : Nat) : mlen y 2 = if leap y then 29 else 28 := rfl

theorem cent (c : Nat) : c * 146097 / 4 = 36524 * c + c / 4 := by omega
theorem four (a : Nat) : 1461 * a / 4 = 365 * a + a / 4 := by omega

theorem dnum_next_year (y : Nat) (h : 1 ≤ y) : dnum ⟨y, 3, 1⟩ = dnum ⟨y, 2, if leap y then 29 else 28⟩ + 1 := by
  simp only [dnum, myear, march, cent, four]
  have hl := leap_iff y
  obtain ⟨x, rfl⟩ : ∃ x, y = x + 1 := ⟨y - 1, by omega⟩
  have hd : (x % 100 = 99 ∧ (x + 1) / 100 = x / 100 + 1 ∧ (x + 1) % 100 = 0) ∨
      (x % 100 < 99 ∧ (x + 1) / 100 = x / 100 ∧ (x + 1) % 100 = x % 100 + 1) := by omega
  by_cases hy : leap (x + 1) = true
  · rw [if_pos hy]
    have := hl.mp hy
    simp only [show (3 : Nat) > 2 from by omega, show ¬ (2 : Nat) > 2 from by omega, if_true, if_false, Nat.add_sub_cancel]
    rcases hd with ⟨h1, h2, h3⟩ | ⟨h1, h2, h3⟩
    · rw [h1, h2, h3]
      have : (x / 100 + 1) / 4 = x / 100 / 4 + 1 := by omega
      omega
    · rw [h2, h3]
      have : (x % 100 + 1) / 4 = x % 100 / 4 + 1 := by omega
      omega
  · rw [if_neg hy]
    have : ¬ ((x + 1) % 400 = 0 ∨ ((x + 1) % 4 = 0 ∧ (x + 1) % 100 ≠ 0)) := fun h => hy (hl.mpr h)
    simp only [show (3 : Nat) > 2 from by omega, show ¬ (2 : Nat) > 2 from by omega, if_true, if_false, Nat.add_sub_cancel]
    rcases hd with ⟨h1, h2, h3⟩ | ⟨h1, h2, h3⟩
    · rw [h1, h2, h3]
      have : (x / 100 + 1) / 4 = x / 100 / 4 := by omega
      omega
    · rw [h2, h3]
      have : (x % 100 + 1) / 4 = x % 100 / 4 := by omega
      omega

theorem dnum_next (v : Day) (h : v.Valid) : dnum v.next = dnum v + 1 := by
  obtain ⟨y, m, d⟩ := v
  obtain ⟨h1, h2, h3, h4, h5⟩ := h
  simp only at h1 h2 h3 h4 h5
  rw [Day.next]
  simp only
  split
  · simp only [dnum, myear, march]; omega
  · next hd =>
    have hd' : d = mlen y m := by omega
    split
    · next hm =>
      by_cases hm2 : m = 2
      · subst hm2
        rw [hd', mlen_feb]
        exact dnum_next_year y h1
      · rw [hd']
        have : m = 1 ∨ m = 3 ∨ m = 4 ∨ m = 5 ∨ m = 6 ∨ m = 7 ∨ m = 8 ∨ m = 9 ∨ m = 10 ∨ m = 11 := by omega
        rcases this with rfl | rfl | rfl | rfl | rfl | rfl | rfl | rfl | rfl | rfl <;>
          simp [dnum, myear, march, mlen]
    · next hm =>
      have : m = 12 := by omega
      subst this
      rw [hd']
      simp [dnum, myear, march, mlen]

theorem next_valid (v : Day) (h : v.Valid) : v.next.Valid := by
  obtain ⟨y, m, d⟩ := v
  obtain ⟨h1, h2, h3, h4, h5⟩ := h
  simp only at h1 h2 h3 h4 h5
  have ml : ∀ y m, 1 ≤ mlen y m := by intro y m; unfold mlen; (repeat' split) <;> omega
  rw [Day.next]
  simp only
  split
  · exact ⟨h1, h2, h3, by simp, by simp only; omega⟩
  · split
    · exact ⟨h1, by simp, by simp only; omega, by simp, ml _ _⟩
    · exact ⟨by simp, by simp, by simp, by simp, ml _ _⟩

theorem civil_valid : ∀ n, (civil n).Valid
  | 0 => by unfold civil Day.Valid; decide
  | n + 1 => next_valid _ (civil_valid n)

theorem civil_dnum : ∀ n, dnum (civil n) = 307 + n
  | 0 => by decide
  | n + 1 => by rw [civil, dnum_next _ (civil_valid n), civil_dnum n]; omega

/-- The day of the year counted from 1 March. -/
def doy (v : Day) : Nat := (153 * march v.m + 2) / 5 + v.d

theorem doy_le (v : Day) (h : v.Valid) : 1 ≤ doy v ∧ doy v ≤ 366 ∧
    (doy v = 366 → (myear v + 1) % 400 = 0 ∨ ((myear v + 1) % 4 = 0 ∧ (myear v + 1) % 100 ≠ 0)) := by
  obtain ⟨y, m, d⟩ := v
  obtain ⟨h1, h2, h3, h4, h5⟩ := h
  simp only at h1 h2 h3 h4 h5
  by_cases hm2 : m = 2
  · subst hm2
    rw [mlen_feb] at h5
    simp only [doy, march, myear]
    rw [if_neg (by omega), if_neg (by omega)]
    have hl := leap_iff y
    split at h5
    · next hy =>
      have := hl.mp hy
      refine ⟨by omega, by omega, fun _ => ?_⟩
      rw [Nat.sub_add_cancel h1]; exact this
    · exact ⟨by omega, by omega, by omega⟩
  · have : m = 1 ∨ m = 3 ∨ m = 4 ∨ m = 5 ∨ m = 6 ∨ m = 7 ∨ m = 8 ∨ m = 9 ∨ m = 10 ∨ m = 11 ∨ m = 12 := by omega
    rcases this with rfl | rfl | rfl | rfl | rfl | rfl | rfl | rfl | rfl | rfl | rfl <;>
      simp [doy, march, mlen] at h5 ⊢ <;> omega

theorem tdiv_nat (a b : Nat) : (a : Int).tdiv (b : Int) = ((a / b : Nat) : Int) := by
  rw [Int.tdiv_eq_ediv_of_nonneg (by omega)]; rfl

/-- The code recovers the date from the day number. -/
theorem ymd_dnum (v : Day) (h : v.Valid) : ymd (dnum v : Int) = ((v.y : Int), (v.m : Int), (v.d : Int)) := by
  have hdoy := doy_le v h
  obtain ⟨h1, h2, h3, h4, h5⟩ := h
  have hN : dnum v = 36524 * (myear v / 100) + myear v / 100 / 4 + (365 * (myear v % 100) + myear v % 100 / 4) + doy v := by
    rw [dnum, doy, cent, four]; omega
  obtain ⟨k, hk⟩ : ∃ k, k = doy v := ⟨_, rfl⟩
  obtain ⟨Y, hY⟩ : ∃ Y, Y = myear v := ⟨_, rfl⟩
  have hmd : ((5 * (k : Int) - 3).tdiv 153) = march v.m ∧ (5 * (k : Int) - 3 - 153 * march v.m + 5).tdiv 5 = v.d := by
    rw [hk, Int.tdiv_eq_ediv_of_nonneg (by omega)]
    have h5' : v.d ≤ 31 ∧ (v.m = 2 → v.d ≤ 29) ∧ (v.m = 4 ∨ v.m = 6 ∨ v.m = 9 ∨ v.m = 11 → v.d ≤ 30) := by
      unfold mlen at h5
      split at h5
      · split at h5 <;> omega
      · split at h5 <;> omega
    have e : (5 * (doy v : Int) - 3) / 153 = march v.m := by
      unfold doy march
      have : v.m = 1 ∨ v.m = 2 ∨ v.m = 3 ∨ v.m = 4 ∨ v.m = 5 ∨ v.m = 6 ∨ v.m = 7 ∨ v.m = 8 ∨ v.m = 9 ∨ v.m = 10 ∨
        v.m = 11 ∨ v.m = 12 := by omega
      rcases this with h | h | h | h | h | h | h | h | h | h | h | h <;> rw [h] at h5' ⊢ <;> simp <;> omega
    refine ⟨e, ?_⟩
    have hb : march v.m ≤ 11 := by unfold march; split <;> omega
    have e2 : doy v = (153 * march v.m + 2) / 5 + v.d := rfl
    rw [Int.tdiv_eq_ediv_of_nonneg (by omega)]
    omega
  rw [hN, ← hk, ← hY]
  rw [← hk, ← hY] at hdoy
  obtain ⟨c, hc⟩ : ∃ c, c = Y / 100 := ⟨_, rfl⟩
  obtain ⟨a, ha⟩ : ∃ a, a = Y % 100 := ⟨_, rfl⟩
  rw [← hc, ← ha]
  have hYe : Y = 100 * c + a := by omega
  have ha99 : a ≤ 99 := by omega
  have hdoy' : 1 ≤ k ∧ k ≤ 366 ∧ (k = 366 → a % 4 = 3 ∧ (a = 99 → c % 4 = 3)) := by
    refine ⟨hdoy.1, hdoy.2.1, fun h => ?_⟩
    rcases hdoy.2.2 h with h | h <;> omega
  clear hdoy
  have hc4 : c = 4 * (c / 4) + c % 4 := by omega
  have ha4 : a = 4 * (a / 4) + a % 4 := by omega
  have hc3 : c % 4 ≤ 3 := by omega
  have ha3 : a % 4 ≤ 3 := by omega
  obtain ⟨cq, hcq⟩ : ∃ cq, cq = c / 4 := ⟨_, rfl⟩
  obtain ⟨cr, hcr⟩ : ∃ cr, cr = c % 4 := ⟨_, rfl⟩
  obtain ⟨aq, haq⟩ : ∃ aq, aq = a / 4 := ⟨_, rfl⟩
  obtain ⟨ar, har⟩ : ∃ ar, ar = a % 4 := ⟨_, rfl⟩
  rw [← hcq, ← hcr] at hc4
  rw [← haq, ← har] at ha4
  rw [← hcr] at hc3 hdoy'
  rw [← har] at ha3 hdoy'
  rw [← hcq, ← haq]
  clear hcq hcr haq har
  have hN' : ∃ N : Nat, N = 365 * a + aq + k := ⟨_, rfl⟩
  obtain ⟨N, hNe⟩ := hN'
  have hb1 : 4 * N ≤ 146097 + cr := by omega
  rw [show 36524 * c + cq + (365 * a + aq) + k = 36524 * c + cq + N by omega]
  have s1 : (4 * ((36524 * c + cq + N : Nat) : Int) - 1).tdiv Days400y = c := by
    rw [Int.tdiv_eq_ediv_of_nonneg (by omega), show Days400y = 146097 from rfl]
    omega
  have s2 : (4 * ((36524 * c + cq + N : Nat) : Int) - 1 - Days400y * c).tdiv 4 = (N : Int) - 1 := by
    rw [show Days400y = 146097 from rfl, Int.tdiv_eq_ediv_of_nonneg (by omega)]
    omega
  have s3 : (4 * ((N : Int) - 1) + 3).tdiv Days4y = a := by
    rw [show Days4y = 1461 from rfl, Int.tdiv_eq_ediv_of_nonneg (by omega)]
    omega
  have s4 : (4 * ((N : Int) - 1) + 3 - Days4y * a + 4).tdiv 4 = k := by
    rw [show Days4y = 1461 from rfl, Int.tdiv_eq_ediv_of_nonneg (by omega)]
    omega
  simp only [ymd, s1, s2, s3, s4, hmd.1, hmd.2]
  have hm : (v.m > 2 → Y = v.y) ∧ (¬ v.m > 2 → Y = v.y - 1) := by
    rw [hY, myear]; constructor <;> intro h <;> simp [h]
  have hM : (v.m > 2 → march v.m = v.m - 3) ∧ (¬ v.m > 2 → march v.m = v.m + 9) := by
    rw [march]; constructor <;> intro h <;> simp [h]
  by_cases hc : v.m > 2
  · have e1 := hm.1 hc
    have e2 : ((march v.m : Nat) : Int) = v.m - 3 := by have := hM.1 hc; omega
    have e3 : 100 * (c : Int) + a = v.y := by omega
    have lt : (v.m : Int) - 3 < 10 := by omega
    simp only [e2, e3, if_pos lt]
    rw [if_neg (by omega), show (v.m : Int) - 3 + 3 = v.m by omega]
  · have e1 := hm.2 hc
    have e2 : ((march v.m : Nat) : Int) = v.m + 9 := by have := hM.2 hc; omega
    have e3 : 100 * (c : Int) + a = v.y - 1 := by omega
    have lt : ¬ (v.m : Int) + 9 < 10 := by omega
    simp only [e2, e3, if_neg lt]
    rw [if_neg (by omega), show (v.m : Int) + 9 - 9 = v.m by omega, show (v.y : Int) - 1 + 1 = v.y by omega]

end Verif.Date
