import Verif.Chartype.Model

namespace Verif.Chartype

/-- First entry of row `i` (helper). -/
def start (t : List Nat) (w i : Nat) : Nat := t.getD (i * w) 0

theorem rdChk_getD {t : List Nat} {i : Nat} (h : i < t.length) : rdChk t i = .ok (t.getD i 0) := by
  rw [rdChk_ok h]; simp [List.getD, h]

theorem rdChk_drop {t : List Nat} {a i : Nat} (h : a + i < t.length) :
    rdChk (t.drop a) i = .ok (t.getD (a + i) 0) := by
  rw [rdChk_ok (by simp; omega)]
  simp [List.getD, h]

/-- The binary search ends at a row `k'` inside the searched window with the
two comparisons it has made. -/
theorem findcLoop_spec (c w : Nat) (hw : 0 < w) (t : List Nat) (n : Nat) : ∀ (k : Nat), 1 ≤ n →
    (k + n) * w ≤ t.length →
    ∃ k', findcLoop c w (t.drop (k * w)) n = .ok (t.drop (k' * w)) ∧ k ≤ k' ∧ k' < k + n ∧
      (k' = k ∨ start t w k' ≤ c) ∧ (k' + 1 = k + n ∨ c < start t w (k' + 1)) := by
  induction n using Nat.strongRecOn with
  | _ n ih =>
    intro k hn hl
    unfold findcLoop
    by_cases h : 1 < n
    · rw [dif_pos h]
      have e1 : (k + n / 2) * w + (n - n / 2) * w ≤ t.length := by
        rw [← Nat.add_mul]
        calc _ = (k + n) * w := by congr 1; omega
          _ ≤ _ := hl
      have hpos : 0 < (n - n / 2) * w := Nat.mul_pos (by omega) hw
      have hkm : k * w + n / 2 * w = (k + n / 2) * w := by rw [Nat.add_mul]
      have hs : slice (t.drop (k * w)) (n / 2 * w) (t.drop (k * w)).length =
          .ok (t.drop ((k + n / 2) * w)) := by
        rw [slice_suffix (by rw [List.length_drop]; omega), List.drop_drop, hkm]
      simp only
      rw [hs, Res.bind_ok, rdChk_drop (by omega), Res.bind_ok, Nat.add_zero]
      change ∃ k', (if c ≥ start t w (k + n / 2) then _ else _) = _ ∧ _
      split
      · next hc =>
        obtain ⟨k', h1, h2, h3, h4, h5⟩ := ih (n - n / 2) (by omega) (k + n / 2) (by omega)
          (by calc _ = (k + n) * w := by congr 1; omega
                _ ≤ _ := hl)
        refine ⟨k', h1, by omega, by omega, Or.inr ?_, by omega⟩
        rcases h4 with rfl | h4
        · exact hc
        · exact h4
      · next hc =>
        obtain ⟨k', h1, h2, h3, h4, h5⟩ := ih (n / 2) (by omega) k (by omega)
          (by have : (k + n / 2) * w ≤ (k + n) * w := Nat.mul_le_mul_right _ (by omega)
              omega)
        refine ⟨k', h1, by omega, by omega, h4, Or.inr ?_⟩
        rcases h5 with h5 | h5
        · rw [h5]; omega
        · exact h5
    · rw [dif_neg h]
      exact ⟨k, rfl, by omega, by omega, Or.inl rfl, Or.inl (by omega)⟩

/-- Rows sorted by their first entry. -/
def Sorted (t : List Nat) (w : Nat) : Prop :=
  ∀ i, i + 1 < t.length / w → start t w i < start t w (i + 1)

/-- Linear-time check that consecutive rows are related by `f`, used to evaluate
`Sorted` and `Disj` on the tables. -/
def rowsB (w : Nat) (f : List Nat → List Nat → Bool) : Nat → List Nat → Bool
  | 0, _ => true
  | n + 1, t => f t (t.drop w) && rowsB w f n (t.drop w)

theorem rowsB_spec (w : Nat) (f : List Nat → List Nat → Bool) (n : Nat) : ∀ t, rowsB w f n t = true →
    ∀ i, i < n → f (t.drop (i * w)) (t.drop ((i + 1) * w)) = true := by
  induction n with
  | zero => intro t _ i hi; omega
  | succ n ih =>
    intro t h i hi
    simp only [rowsB, Bool.and_eq_true] at h
    cases i with
    | zero => simpa using h.1
    | succ i =>
      have := ih _ h.2 i (by omega)
      rw [List.drop_drop, List.drop_drop] at this
      rw [show (i + 1) * w = w + i * w by rw [Nat.add_mul]; omega,
        show (i + 1 + 1) * w = w + (i + 1) * w by rw [Nat.add_mul (i + 1)]; omega]
      exact this

theorem sorted_of_rowsB {t : List Nat} {w : Nat}
    (h : rowsB w (fun a b => decide (a.getD 0 0 < b.getD 0 0)) (t.length / w - 1) t = true) : Sorted t w := by
  intro i hi
  have := rowsB_spec _ _ _ _ h i (by omega)
  simpa [start, List.getD] using this

theorem sorted_le {t : List Nat} {w : Nat} (hs : Sorted t w) {i j : Nat} (hij : i ≤ j)
    (hj : j < t.length / w) : start t w i ≤ start t w j := by
  induction j with
  | zero => have : i = 0 := by omega
            subst this; omega
  | succ j ih =>
    by_cases h : i = j + 1
    · subst h; omega
    · have h1 := ih (by omega) (by omega)
      have h2 := hs j hj
      omega

theorem sorted_lt {t : List Nat} {w : Nat} (hs : Sorted t w) {i j : Nat} (hij : i < j)
    (hj : j < t.length / w) : start t w i < start t w j := by
  have h1 := sorted_le hs (i := i + 1) (j := j) (by omega) hj
  have h2 := hs i (by omega)
  omega

/-- `findc` returns the last row starting at or below `c`. -/
theorem findc_spec (c w : Nat) (hw : 0 < w) (t : List Nat) (hs : Sorted t w) (hn : 1 ≤ t.length / w) :
    (c < start t w 0 ∧ findc c t (t.length / w) w = .ok none) ∨
    (start t w 0 ≤ c ∧ ∃ k, k < t.length / w ∧ findc c t (t.length / w) w = .ok (some (t.drop (k * w))) ∧
      start t w k ≤ c ∧ ∀ j, j < t.length / w → k < j → c < start t w j) := by
  have hl : t.length / w * w ≤ t.length := Nat.div_mul_le_self _ _
  obtain ⟨k, h1, -, h3, h4, h5⟩ := findcLoop_spec c w hw t (t.length / w) 0 hn (by simpa using hl)
  have hk : k * w < t.length := by
    have : (k + 1) * w ≤ t.length / w * w := Nat.mul_le_mul_right _ (by omega)
    rw [Nat.add_mul] at this
    omega
  have hlen : (t.drop (k * w)).length ≠ 0 := by rw [List.length_drop]; omega
  rw [Nat.zero_mul, List.drop_zero] at h1
  have hf : findc c t (t.length / w) w =
      if c ≥ start t w k then .ok (some (t.drop (k * w))) else .ok none := by
    unfold findc
    rw [h1, Res.bind_ok, if_pos hlen, rdChk_drop (by omega), Res.bind_ok, Nat.add_zero]
    rfl
  rw [hf]
  by_cases hc : start t w 0 ≤ c
  · right
    have hkc : start t w k ≤ c := by
      rcases h4 with rfl | h4
      · exact hc
      · exact h4
    refine ⟨hc, k, by omega, by rw [if_pos hkc], hkc, ?_⟩
    intro j hj hkj
    rcases h5 with h5 | h5
    · omega
    · have := sorted_le hs (i := k + 1) (j := j) (by omega) hj
      omega
  · left
    refine ⟨by omega, ?_⟩
    have := sorted_le hs (i := 0) (j := k) (by omega) (by omega)
    rw [if_neg (by omega)]

/-- Rows are disjoint ranges. -/
def Disj (t : List Nat) (w : Nat) : Prop :=
  ∀ i, i + 1 < t.length / w → t.getD (i * w + 1) 0 < start t w (i + 1)

theorem disj_of_rowsB {t : List Nat} {w : Nat}
    (h : rowsB w (fun a b => decide (a.getD 1 0 < b.getD 0 0)) (t.length / w - 1) t = true) : Disj t w := by
  intro i hi
  have := rowsB_spec _ _ _ _ h i (by omega)
  simpa [start, List.getD] using this

theorem row_lt {t : List Nat} {w k : Nat} (hk : k < t.length / w) {i : Nat} (hi : i < w) :
    k * w + i < t.length := by
  have hl : t.length / w * w ≤ t.length := Nat.div_mul_le_self _ _
  have : (k + 1) * w ≤ t.length / w * w := Nat.mul_le_mul_right _ (by omega)
  rw [Nat.add_mul] at this
  omega

theorem sorted_rnums : Sorted rnums 2 := sorted_of_rowsB (by decide +kernel)
theorem disj_rnums : Disj rnums 2 := disj_of_rowsB (by decide +kernel)
theorem sorted_rspace2 : Sorted rspace2 2 := sorted_of_rowsB (by decide +kernel)
theorem disj_rspace2 : Disj rspace2 2 := disj_of_rowsB (by decide +kernel)
theorem sorted_width0 : Sorted width0 2 := sorted_of_rowsB (by decide +kernel)
theorem disj_width0 : Disj width0 2 := disj_of_rowsB (by decide +kernel)
theorem sorted_width2 : Sorted width2 2 := sorted_of_rowsB (by decide +kernel)
theorem disj_width2 : Disj width2 2 := disj_of_rowsB (by decide +kernel)
theorem sorted_rtoupper2 : Sorted rtoupper2 3 := sorted_of_rowsB (by decide +kernel)
theorem disj_rtoupper2 : Disj rtoupper2 3 := disj_of_rowsB (by decide +kernel)
theorem sorted_rtolower2 : Sorted rtolower2 3 := sorted_of_rowsB (by decide +kernel)
theorem disj_rtolower2 : Disj rtolower2 3 := disj_of_rowsB (by decide +kernel)
theorem sorted_ralpha2 : Sorted ralpha2 2 := sorted_of_rowsB (by decide +kernel)
theorem disj_ralpha2 : Disj ralpha2 2 := disj_of_rowsB (by decide +kernel)
theorem sorted_rtoupper1 : Sorted rtoupper1 2 := sorted_of_rowsB (by decide +kernel)
theorem sorted_rtolower1 : Sorted rtolower1 2 := sorted_of_rowsB (by decide +kernel)
theorem sorted_ralpha1 : Sorted ralpha1 1 := sorted_of_rowsB (by decide +kernel)
theorem sorted_rtotitle1 : Sorted rtotitle1 2 := sorted_of_rowsB (by decide +kernel)

/-- What a range lookup decides. -/
theorem range_lookup (c w : Nat) (hw : 1 < w) (t : List Nat) (hs : Sorted t w) (hd : Disj t w)
    (hn : 1 ≤ t.length / w) :
    (c < start t w 0 ∧ findc c t (t.length / w) w = .ok none) ∨
    (start t w 0 ≤ c ∧ ∃ k, k < t.length / w ∧ findc c t (t.length / w) w = .ok (some (t.drop (k * w))) ∧
      inRow c (t.drop (k * w)) = .ok (decide (start t w k ≤ c ∧ c ≤ t.getD (k * w + 1) 0)) ∧
      start t w k ≤ c ∧
      ∀ i, i < t.length / w → start t w i ≤ c → c ≤ t.getD (i * w + 1) 0 → i = k) := by
  rcases findc_spec c w (by omega) t hs hn with h | ⟨h0, k, hk, hf, hk1, hk2⟩
  · exact Or.inl h
  · right
    refine ⟨h0, k, hk, hf, ?_, hk1, ?_⟩
    · unfold inRow
      rw [rdChk_drop (by have := row_lt hk (i := 0) (by omega); omega), Res.bind_ok, Nat.add_zero]
      rw [if_pos (by exact hk1), rdChk_drop (row_lt hk hw), Res.bind_ok]
      simp [hk1]
    · intro i hi h1 h2
      rcases Nat.lt_trichotomy i k with h | h | h
      · exfalso
        have e1 := hd i (by omega)
        have e2 := sorted_le hs (i := i + 1) (j := k) (by omega) hk
        omega
      · exact h
      · have := hk2 i hi h; omega

theorem single_lookup (c w : Nat) (hw : 0 < w) (t : List Nat) (hs : Sorted t w) (hn : 1 ≤ t.length / w) :
    (c < start t w 0 ∧ findc c t (t.length / w) w = .ok none) ∨
    (start t w 0 ≤ c ∧ ∃ k, k < t.length / w ∧ findc c t (t.length / w) w = .ok (some (t.drop (k * w))) ∧
      isRow c (t.drop (k * w)) = .ok (decide (c = start t w k)) ∧
      ∀ i, i < t.length / w → c = start t w i → i = k) := by
  rcases findc_spec c w hw t hs hn with h | ⟨h0, k, hk, hf, hk1, hk2⟩
  · exact Or.inl h
  · right
    refine ⟨h0, k, hk, hf, ?_, ?_⟩
    · unfold isRow
      rw [rdChk_drop (by have := row_lt hk hw; omega), Res.bind_ok, Nat.add_zero]
      rfl
    · intro i hi h1
      rcases Nat.lt_trichotomy i k with h | h | h
      · have := sorted_lt hs h hk; omega
      · exact h
      · have := hk2 i hi h; omega

end Verif.Chartype
