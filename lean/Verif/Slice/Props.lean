import Verif.Slice.Model
import Verif.Utf.Props

/-!
# C54, C47, C63: slice utilities, string buffers, whole-file helpers
-/

namespace Verif.Slice
variable {α : Type}

/-- An allocator that gives at least what is asked for (assumption about `slalloc`). -/
def Fresh (fresh : Nat → List α) : Prop := ∀ n, n ≤ (fresh n).length

theorem growLoop_ge (len nel : Nat) : len ≤ growLoop len nel := by
  fun_induction growLoop len nel with
  | case1 nel h ih => exact ih
  | case2 nel h => omega

/-- **C54, `slgrow`.**  Changing the length keeps the common prefix. -/
theorem slgrow_spec (fresh : Nat → List α) (hf : Fresh fresh) (sl : Sl α) (len : Nat) :
    ∃ sl', slgrow fresh sl len = .ok sl' ∧ sl'.data.length = len ∧
      sl'.data.take sl.data.length = sl.data.take len := by
  unfold slgrow
  split
  · next h =>
    refine ⟨_, rfl, by simp; omega, ?_⟩
    simp only
    rw [List.take_take, Nat.min_comm, ← List.take_take, List.take_left]
  · next h =>
    have h1 := growLoop_ge len sl.data.length
    have h2 := hf (growLoop len sl.data.length)
    simp only
    rw [if_neg (by omega)]
    have h3 : ¬ len < sl.data.length := by omega
    rw [if_neg h3]
    refine ⟨_, rfl, by simp; omega, ?_⟩
    rw [List.take_length, List.take_take, Nat.min_eq_left (by omega), List.take_left,
      List.take_of_length_le (by omega)]

/-- **C54, `slzgrow`.** -/
theorem slzgrow_spec (fresh : Nat → List α) (hf : Fresh fresh) (zero : α) (sl : Sl α) (len : Nat) :
    ∃ sl', slzgrow fresh zero sl len = .ok sl' ∧
      sl'.data = sl.data.take len ++ List.replicate (len - sl.data.length) zero := by
  unfold slzgrow
  obtain ⟨sl', h1, h2, h3⟩ := slgrow_spec fresh hf sl len
  rw [h1, Res.bind_ok]
  split
  · exact ⟨_, rfl, by rw [h3]⟩
  · refine ⟨_, rfl, ?_⟩
    rw [show len - sl.data.length = 0 by omega, ← h3, List.take_of_length_le (by omega)]
    simp

theorem putLoop_spec (idx : Nat) (n : Nat) : ∀ (a m b : List α) (z : α), a.length = idx → m.length = n →
    ∃ y, putLoop idx n (a ++ m ++ z :: b) = .ok (a ++ y :: m ++ b) := by
  induction n with
  | zero =>
    intro a m b z ha hm
    have := List.length_eq_zero_iff.1 hm
    subst this
    exact ⟨z, by simp [putLoop]⟩
  | succ n ih =>
    intro a m b z ha hm
    have hne : m ≠ [] := by rintro rfl; simp at hm
    obtain ⟨m', x, rfl⟩ : ∃ m' x, m = m' ++ [x] := ⟨_, _, (List.dropLast_concat_getLast hne).symm⟩
    have hm' : m'.length = n := by simpa using hm
    unfold putLoop
    have e1 : rdChk (a ++ (m' ++ [x]) ++ z :: b) (idx + n) = .ok x := by
      rw [rdChk_ok (by simp; omega)]
      subst ha hm'
      simp
    have e2 : wrChk (a ++ (m' ++ [x]) ++ z :: b) (idx + n + 1) x = .ok (a ++ m' ++ x :: (x :: b)) := by
      rw [wrChk_ok _ (by simp; omega), List.set_append_right _ _ (by simp; omega),
        show idx + n + 1 - (a ++ (m' ++ [x])).length = 0 by simp; omega]
      simp
    rw [e1, Res.bind_ok, e2, Res.bind_ok]
    obtain ⟨y, hy⟩ := ih a m' (x :: b) x ha hm'
    exact ⟨y, by rw [hy]; simp⟩

/-- **C54, `slput`** inserts at any index up to the length. -/
theorem slput_spec (fresh : Nat → List α) (hf : Fresh fresh) (sl : Sl α) (idx : Nat) (elt : α)
    (h : idx ≤ sl.data.length) :
    ∃ sl', slput fresh sl idx elt = .ok sl' ∧ sl'.data = sl.data.take idx ++ elt :: sl.data.drop idx := by
  unfold slput
  simp only
  obtain ⟨sl', h1, h2, h3⟩ := slgrow_spec fresh hf sl (sl.data.length + 1)
  rw [h1, Res.bind_ok]
  have hd : ∃ z, sl'.data = sl.data ++ [z] := by
    have hne : sl'.data ≠ [] := by intro he; rw [he] at h2; simp at h2
    refine ⟨sl'.data.getLast hne, ?_⟩
    conv => lhs; rw [← List.dropLast_concat_getLast hne]
    congr 1
    rw [List.dropLast_eq_take, h2, Nat.add_sub_cancel, h3, List.take_of_length_le (by omega)]
  obtain ⟨z, hz⟩ := hd
  have e : sl'.data = sl.data.take idx ++ sl.data.drop idx ++ z :: [] := by
    rw [List.take_append_drop, hz]
  obtain ⟨y, hy⟩ := putLoop_spec idx (sl.data.length - idx) (sl.data.take idx) (sl.data.drop idx) [] z
    (by simp; omega) (by simp)
  rw [e, hy, Res.bind_ok, wrChk_ok _ (by simp; omega), Res.bind_ok]
  refine ⟨_, rfl, ?_⟩
  simp only [List.append_nil]
  rw [List.set_append, if_neg (by simp; omega)]
  simp [Nat.min_eq_left h]

/-- Beyond the length `slput` aborts. -/
theorem slput_abort (fresh : Nat → List α) (hf : Fresh fresh) (sl : Sl α) (idx : Nat) (elt : α)
    (h : sl.data.length < idx) : slput fresh sl idx elt = .abort := by
  unfold slput
  simp only
  obtain ⟨sl', h1, h2, -⟩ := slgrow_spec fresh hf sl (sl.data.length + 1)
  rw [h1, Res.bind_ok, show sl.data.length - idx = 0 by omega]
  simp only [putLoop, Res.bind_ok, wrChk]
  rw [if_neg (by omega)]
  rfl

theorem delLoop_spec (n : Nat) : ∀ (a m : List α) (x : α), m.length = n →
    ∃ y, delLoop n a.length (a ++ x :: m) = .ok (a ++ m ++ [y]) := by
  induction n with
  | zero =>
    intro a m x hm
    have := List.length_eq_zero_iff.1 hm
    subst this
    exact ⟨x, by simp [delLoop]⟩
  | succ n ih =>
    intro a m x hm
    cases m with
    | nil => simp at hm
    | cons y m =>
      unfold delLoop
      have e1 : rdChk (a ++ x :: y :: m) (a.length + 1) = .ok y := by
        rw [rdChk_ok (by simp)]
        simp
      have e2 : wrChk (a ++ x :: y :: m) a.length y = .ok (a ++ [y] ++ y :: m) := by
        rw [wrChk_ok _ (by simp)]
        simp
      rw [e1, Res.bind_ok, e2, Res.bind_ok]
      obtain ⟨w, hw⟩ := ih (a ++ [y]) m y (by simpa using hm)
      rw [List.length_append, List.length_singleton] at hw
      exact ⟨w, by rw [hw]; simp⟩

/-- **C54, `sldel`** removes the element at an index in range. -/
theorem sldel_spec (sl : Sl α) (idx : Nat) (h : idx < sl.data.length) :
    ∃ sl', sldel sl idx = .ok sl' ∧ sl'.data = sl.data.eraseIdx idx := by
  unfold sldel
  have e : sl.data = sl.data.take idx ++ sl.data[idx] :: sl.data.drop (idx + 1) := by
    rw [← List.drop_eq_getElem_cons h, List.take_append_drop]
  obtain ⟨y, hy⟩ := delLoop_spec (sl.data.length - 1 - idx) (sl.data.take idx) (sl.data.drop (idx + 1)) sl.data[idx]
    (by simp; omega)
  rw [← e, List.length_take, Nat.min_eq_left (by omega)] at hy
  rw [hy, Res.bind_ok, if_neg (by simp)]
  refine ⟨_, rfl, ?_⟩
  simp only
  rw [List.take_left' (by simp), List.eraseIdx_eq_take_drop_succ]

/-- **C54, `slpush`.** -/
theorem slpush_spec (fresh : Nat → List α) (hf : Fresh fresh) (sl : Sl α) (elt : α) :
    ∃ sl', slpush fresh sl elt = .ok sl' ∧ sl'.data = sl.data ++ [elt] := by
  unfold slpush
  obtain ⟨sl', h1, h2, h3⟩ := slgrow_spec fresh hf sl (sl.data.length + 1)
  rw [h1, Res.bind_ok, wrChk_ok _ (by omega), Res.bind_ok]
  refine ⟨_, rfl, ?_⟩
  simp only
  rw [h2, Nat.add_sub_cancel]
  have hne : sl'.data ≠ [] := by intro he; rw [he] at h2; simp at h2
  have e : sl'.data = sl.data ++ [sl'.data.getLast hne] := by
    conv => lhs; rw [← List.dropLast_concat_getLast hne]
    congr 1
    rw [List.dropLast_eq_take, h2, Nat.add_sub_cancel, h3, List.take_of_length_le (by omega)]
  rw [e]
  simp

/-- **C54, `slpop`.** -/
theorem slpop_spec (fresh : Nat → List α) (hf : Fresh fresh) (sl : Sl α) (l : List α) (x : α)
    (h : sl.data = l ++ [x]) : ∃ sl', slpop fresh sl = .ok (x, sl') ∧ sl'.data = l := by
  unfold slpop
  rw [if_neg (by rw [h]; simp), rdChk_ok (by rw [h]; simp), Res.bind_ok]
  obtain ⟨sl', h1, h2, h3⟩ := slgrow_spec fresh hf sl (sl.data.length - 1)
  rw [h1, Res.bind_ok]
  have hl : sl.data.length = l.length + 1 := by rw [h]; simp
  refine ⟨sl', ?_, ?_⟩
  · simp [h]
  · rw [List.take_of_length_le (by omega)] at h3
    rw [h3, hl, h, Nat.add_sub_cancel, List.take_left]

/-- **C54, `sljoin`.** -/
theorem sljoin_spec (fresh : Nat → List α) (hf : Fresh fresh) (dst : Sl α) (src : List α) :
    ∃ sl', sljoin fresh dst src = .ok sl' ∧ sl'.data = dst.data ++ src := by
  unfold sljoin
  simp only
  obtain ⟨sl', h1, h2, h3⟩ := slgrow_spec fresh hf dst (dst.data.length + src.length)
  rw [h1, Res.bind_ok, slice_suffix (by omega), Res.bind_ok, if_neg (by simp; omega)]
  refine ⟨_, rfl, ?_⟩
  simp only
  rw [h3, List.take_of_length_le (by omega)]

/-- **C54, `slfill`.** -/
theorem slfill_spec (v : α) (l : List α) : slfill v l.length l = .ok (List.replicate l.length v) := by
  have gen : ∀ (n : Nat) (k : Nat) (m : List α), m.length = n →
      slfill v n (List.replicate k v ++ m) = .ok (List.replicate (k + n) v) := by
    intro n
    induction n with
    | zero =>
      intro k m hm
      have := List.length_eq_zero_iff.1 hm
      subst this
      simp [slfill]
    | succ n ih =>
      intro k m hm
      cases m with
      | nil => simp at hm
      | cons x m =>
        have hm : m.length = n := by simpa using hm
        unfold slfill
        have e : (List.replicate k v ++ x :: m).length - (n + 1) = k := by simp; omega
        rw [e, wrChk_ok _ (by simp), Res.bind_ok]
        have e2 : (List.replicate k v ++ x :: m).set k v = List.replicate (k + 1) v ++ m := by
          rw [List.set_append, if_neg (by simp)]
          simp [List.replicate_succ', List.append_assoc]
        rw [e2, ih (k + 1) m hm]
        congr 2
        omega
  simpa using gen l.length 0 l rfl

theorem forall2_length {R : α → α → Prop} {a b : List α} (h : List.Forall₂ R a b) : a.length = b.length := by
  induction h with
  | nil => rfl
  | cons _ _ ih => simp [ih]

/-- **C54, slice equality** is pointwise equality. -/
theorem sleq_spec (e : α → α → Bool) (a b : List α) : ∃ r, sleq e a b = .ok r ∧
    (r = true ↔ List.Forall₂ (fun x y => e x y = true) a b) := by
  unfold sleq
  split
  · next h => exact ⟨false, rfl, by simp; intro hf; exact h (forall2_length hf)⟩
  · next h =>
    have gen : ∀ (n : Nat) (pa a pb b : List α), a.length = n → b.length = n → pa.length = pb.length →
        ∃ r, sleqLoop e (pa ++ a) (pb ++ b) n = .ok r ∧ (r = true ↔ List.Forall₂ (fun x y => e x y = true) a b) := by
      intro n
      induction n with
      | zero =>
        intro pa a pb b ha hb _
        have := List.length_eq_zero_iff.1 ha
        have := List.length_eq_zero_iff.1 hb
        subst a b
        exact ⟨true, rfl, by simp⟩
      | succ n ih =>
        intro pa a pb b ha hb hp
        cases a with
        | nil => simp at ha
        | cons x a =>
          cases b with
          | nil => simp at hb
          | cons y b =>
            have ha : a.length = n := by simpa using ha
            have hb : b.length = n := by simpa using hb
            unfold sleqLoop
            have e0 : (pa ++ x :: a).length - (n + 1) = pa.length := by simp; omega
            have e1 : rdChk (pa ++ x :: a) pa.length = .ok x := by rw [rdChk_ok (by simp)]; simp
            have e2 : rdChk (pb ++ y :: b) pa.length = .ok y := by rw [hp, rdChk_ok (by simp)]; simp
            rw [e0, e1, Res.bind_ok, e2, Res.bind_ok]
            cases hxy : e x y with
            | false => exact ⟨false, rfl, by simp [hxy]⟩
            | true =>
              obtain ⟨r, g1, g2⟩ := ih (pa ++ [x]) a (pb ++ [y]) b ha hb (by simp [hp])
              refine ⟨r, ?_, by simp [hxy, g2]⟩
              simp only [Bool.not_true, Bool.false_eq_true, if_false]
              simpa using g1
    have := gen a.length [] a [] b rfl (by omega) rfl
    simpa using this

/-- Growing through a reallocation, inserting and deleting. -/
example : (slput (fun n => List.replicate (n + 2) 0) ⟨[1, 2, 3], []⟩ 1 9).map Sl.data = .ok [1, 9, 2, 3] ∧
    (sldel ⟨[1, 2, 3], [7]⟩ 0).map Sl.data = .ok [2, 3] := by
  constructor <;> decide +kernel

end Verif.Slice
