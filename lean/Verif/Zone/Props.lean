import Verif.Zone.Lemmas

/-!
# C96: time zone files are read back, and offsets looked up in them
-/

namespace Verif.Zone

open Spec (be32 cnt encode Fits Sound offsetAt passed)

/-! ## Reading files -/

/-- Reading a file gives back what was written, whatever version it has and whatever follows the data. -/
theorem load_encode (hdr : List Byte) (hh : hdr.length = 16) (z : Spec.Data) (h : Fits z) (rest : List Byte) :
    load (some (encode hdr z ++ rest)) = .ok z := by
  obtain ⟨h0, h1, h2, h3, h4, h5, h6⟩ := h
  have hp : ([0x54, 0x5a, 0x69, 0x66] : List Byte).length = 4 := rfl
  unfold load encode
  simp only [List.append_assoc]
  rw [slice_prefix (by simp), List.take_left' hp]
  simp only [Res.bind_ok, if_true]
  rw [slice_suffix (by simp [hh]), ← List.append_assoc _ hdr, List.drop_left' (by simp [hh])]
  simp only [Res.bind_ok, loadData, cnt, fetchbe32_ok, size_ok h1, size_ok h2, size_ok h3, size_ok h4, size_ok h5, size_ok h6]
  rw [fill_ok fetchbe32 be32 fetchbe32_ok]
  simp only [Res.bind_ok]
  rw [← h0, fill8_ok]
  simp only [Res.bind_ok]
  rw [fill_ok fetchttinfo Spec.kindBytes fetchttinfo_ok]
  simp only [Res.bind_ok]
  rw [fill8_ok]
  simp only [Res.bind_ok]
  rw [fill_ok fetchleap Spec.leapBytes fetchleap_ok]
  simp only [Res.bind_ok]
  rw [fill8_ok]
  simp only [Res.bind_ok]
  rw [fill8_ok]
  simp only [Res.bind_ok, Res.pure_eq]

/-- A zone with two transitions: winter and summer time. -/
def exZone : Spec.Data where
  time := [100, 200]
  timetype := [1, 0]
  kinds := [⟨3600, 0, 0⟩, ⟨7200, 1, 4⟩]
  abbrevs := [0x57, 0, 0x53, 0]
  leap := [(7, 1)]
  isstd := [1, 0]
  isgmt := [0, 0]

example : Sound exZone := by
  unfold Sound Fits exZone
  refine ⟨⟨rfl, ?_, ?_, ?_, ?_, ?_, ?_⟩, by decide +kernel, by decide, by decide +kernel⟩ <;> simp

example : load (some (encode (List.replicate 16 0) exZone ++ [1, 2])) = .ok exZone := by decide +kernel

/-- A file of four bytes is read beyond its end. -/
theorem load_short : load (some [0x54, 0x5a, 0x69, 0x66]) = .ub := by decide +kernel

/-- An empty file stops the program. -/
theorem load_empty : load (some []) = .abort := by decide +kernel

/-! ## Looking up offsets -/

/-- The claim: for a file that makes sense, and times of 32 bits (in seconds), the offset is found. -/
def FullClaim : Prop :=
  ∀ (hdr : List Byte) (z : Spec.Data) (tm : Int), hdr.length = 16 → Sound z → -2 ^ 31 * 1000000 ≤ tm → tm < 2 ^ 31 * 1000000 →
    findtzoff (some (encode hdr z)) tm = .ok (offsetAt z tm)

/-- What is found instead: always the first transition, and before it the program stops. -/
theorem lookup_exact (z : Spec.Data) (h : Sound z) (t0 : BitVec 32) (ts : List (BitVec 32)) (ht : z.time = t0 :: ts) (tm : Int) :
    offset z tm =
      if (BitVec.ofInt 32 (tm.tdiv 1000000)).toInt < t0.toInt then .abort
      else .ok ((z.timetype[0]?.bind (fun t => z.kinds[t.toNat]?)).map (fun k => k.gmtoff.toInt * 1000000)) := by
  obtain ⟨⟨hl, _⟩, hs, _, hk⟩ := h
  unfold offset
  rw [if_neg (by rw [ht]; simp)]
  rw [ht] at hs hl
  split
  · rename_i hc
    rw [ht, search_all]
    · unfold rdChk
      rw [List.getElem?_eq_none (by omega)]
      rfl
    · intro t hm
      rcases List.mem_cons.1 hm with rfl | hm
      · exact hc
      · have := (List.pairwise_cons.1 hs).1 t hm
        omega
  · rename_i hc
    rw [ht, search_zero (by omega)]
    have h0 : 0 < z.timetype.length := by rw [hl]; simp
    rw [rdChk_ok h0]
    have hm := hk _ (List.getElem_mem h0)
    simp only [Res.bind_ok]
    rw [rdChk_ok hm, List.getElem?_eq_getElem h0]
    simp [hm]

theorem passed_one {t0 : BitVec 32} {ts : List (BitVec 32)} {z : Spec.Data} {tm : Int} (ht : z.time = t0 :: ts)
    (h0 : t0.toInt * 1000000 ≤ tm) (h1 : ∀ t ∈ ts, tm < t.toInt * 1000000) : passed z tm = 1 := by
  unfold passed
  rw [ht, List.filter_cons_of_pos (by simpa using h0), List.filter_eq_nil_iff.2]
  · rfl
  · intro t hm
    have := h1 t hm
    simp
    omega

/-- The offset is right after the first transition and before the second, from 1970 to 2038.  Missing: all other times. -/
theorem findtzoff_partial (hdr : List Byte) (hh : hdr.length = 16) (z : Spec.Data) (h : Sound z) (t0 : BitVec 32)
    (ts : List (BitVec 32)) (ht : z.time = t0 :: ts) (tm : Int) (hn : 0 ≤ tm) (hm : tm < 2 ^ 31 * 1000000)
    (h0 : t0.toInt * 1000000 ≤ tm) (h1 : ∀ t ∈ ts, tm < t.toInt * 1000000) :
    findtzoff (some (encode hdr z)) tm = .ok (offsetAt z tm) := by
  have hl := load_encode hdr hh z h.1 []
  rw [List.append_nil] at hl
  unfold findtzoff
  rw [hl]
  simp only [Res.bind_ok]
  rw [lookup_exact z h t0 ts ht tm]
  have hq : tm.tdiv 1000000 = tm / 1000000 := Int.tdiv_eq_ediv_of_nonneg hn
  have hc : (BitVec.ofInt 32 (tm.tdiv 1000000)).toInt = tm / 1000000 := by
    rw [hq, BitVec.toInt_ofInt, Int.bmod_eq_of_le (by omega) (by omega)]
  rw [if_neg (by rw [hc]; omega)]
  unfold offsetAt
  rw [passed_one ht h0 h1]

example : findtzoff (some (encode (List.replicate 16 0) exZone)) 150000000 = .ok (some 7200000000) ∧
    offsetAt exZone 150000000 = some 7200000000 := by
  constructor <;> decide +kernel

/-- After the second transition the offset is still that of the first. -/
theorem lookup_violated : findtzoff (some (encode (List.replicate 16 0) exZone)) 250000000 = .ok (some 7200000000) ∧
    offsetAt exZone 250000000 = some 3600000000 := by
  constructor <;> decide +kernel

/-- Before the first transition the program stops. -/
theorem before_violated : findtzoff (some (encode (List.replicate 16 0) exZone)) 50000000 = .abort ∧
    offsetAt exZone 50000000 = some 3600000000 := by
  constructor <;> decide +kernel

/-- A zone that has always had the same offset. -/
def fixedZone : Spec.Data := { exZone with time := [], timetype := [] }

/-- A zone without transitions is said not to exist. -/
theorem fixed_violated : findtzoff (some (encode (List.replicate 16 0) fixedZone)) 50000000 = .ok none ∧
    offsetAt fixedZone 50000000 = some 3600000000 := by
  constructor <;> decide +kernel

/-- A zone with a transition at the beginning of 1970. -/
def epochZone : Spec.Data := { exZone with time := [0], timetype := [1] }

/-- A microsecond before 1970 counts as 1970: the division rounds towards zero. -/
theorem round_violated : findtzoff (some (encode (List.replicate 16 0) epochZone)) (-1) = .ok (some 7200000000) ∧
    offsetAt epochZone (-1) = some 3600000000 := by
  constructor <;> decide +kernel

/-- The claim does not hold. -/
theorem findtzoff_violated : ¬FullClaim := by
  intro h
  have hs : Sound exZone := by
    unfold Sound Fits exZone
    refine ⟨⟨rfl, ?_, ?_, ?_, ?_, ?_, ?_⟩, by decide +kernel, by decide, by decide +kernel⟩ <;> simp
  have := h (List.replicate 16 0) exZone 250000000 (by simp) hs (by omega) (by omega)
  rw [lookup_violated.1, lookup_violated.2] at this
  exact absurd this (by decide)

end Verif.Zone
