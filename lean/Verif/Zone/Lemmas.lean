import Verif.Zone.Model

/-! # Lemmas on reading time zone files -/

namespace Verif.Zone

open Spec (be32 cnt kindBytes leapBytes encode Fits Sound)

theorem fetchbe32_ok (v : BitVec 32) (r : List Byte) : fetchbe32 (be32 v ++ r) = .ok (v, r) := by
  have h4 : (be32 v).length = 4 := rfl
  unfold fetchbe32
  rw [if_pos (by simp [h4]), slice_prefix (by simp [h4]), slice_suffix (by simp [h4])]
  rw [List.take_left' h4, List.drop_left' h4]
  simp only [Res.bind_ok]
  rw [Endian.getbe32_spec 32 (by omega) _ (by simp [h4])]
  simp only [Res.bind_ok, Res.pure_eq]
  rw [List.take_of_length_le (by simp [h4])]
  have : Endian.beVal (be32 v) = v.toNat := by
    simp only [be32, Endian.beVal, List.foldl_cons, List.foldl_nil, BitVec.extractLsb'_toNat, Nat.shiftRight_eq_div_pow]
    have := v.isLt
    omega
  rw [this, BitVec.ofNat_toNat, BitVec.setWidth_eq]

theorem fetchbe8_ok (b : Byte) (r : List Byte) : fetchbe8 (b :: r) = .ok (b, r) := by
  unfold fetchbe8
  rw [if_pos (by simp), slice_suffix (by simp), rdChk_ok (by simp)]
  rfl

theorem fetchttinfo_ok (k : Spec.Kind) (r : List Byte) : fetchttinfo (kindBytes k ++ r) = .ok (k, r) := by
  unfold fetchttinfo kindBytes
  rw [List.append_assoc, fetchbe32_ok]
  simp only [Res.bind_ok, List.cons_append, List.nil_append, fetchbe8_ok, Res.pure_eq]

theorem fetchleap_ok (x : BitVec 32 × BitVec 32) (r : List Byte) : fetchleap (leapBytes x ++ r) = .ok (x, r) := by
  unfold fetchleap leapBytes
  rw [List.append_assoc, fetchbe32_ok]
  simp only [Res.bind_ok, fetchbe32_ok, Res.pure_eq]

theorem fill_ok {α : Type} (f : List Byte → Res (α × List Byte)) (g : α → List Byte) (h : ∀ x r, f (g x ++ r) = .ok (x, r))
    (xs : List α) (r : List Byte) : fill f xs.length (xs.flatMap g ++ r) = .ok (xs, r) := by
  induction xs with
  | nil => rfl
  | cons x xs ih =>
    rw [List.length_cons, fill, List.flatMap_cons, List.append_assoc, h]
    simp only [Res.bind_ok, ih, Res.pure_eq]

theorem fill8_ok (xs r : List Byte) : fill fetchbe8 xs.length (xs ++ r) = .ok (xs, r) := by
  have := fill_ok fetchbe8 (fun b => [b]) (fun x r => fetchbe8_ok x r) xs r
  simpa using this

theorem size_ok {n : Nat} (h : n < 2 ^ 31) : size (BitVec.ofNat 32 n) = .ok n := by
  unfold size
  have e : (BitVec.ofNat 32 n).toNat = n := by simp; omega
  rw [if_neg, e]
  rw [BitVec.toInt_eq_toNat_of_lt (by rw [e]; omega), e]
  omega

theorem search_zero {cur t : BitVec 32} {ts : List (BitVec 32)} (h : t.toInt ≤ cur.toInt) : search cur (t :: ts) = 0 := by
  rw [search, if_neg (by omega)]

theorem search_all {cur : BitVec 32} (l : List (BitVec 32)) (h : ∀ t ∈ l, cur.toInt < t.toInt) : search cur l = l.length := by
  induction l with
  | nil => rfl
  | cons t ts ih =>
    rw [search, if_pos (h t (by simp)), ih (fun x hx => h x (by simp [hx]))]
    rfl

end Verif.Zone
