import Verif.Round.Model
import Verif.Flt.Props

/-! # Lemmas on rounding to integers -/

namespace Verif.Round

open Verif.Endian (shl)
open Verif.Flt

/-- The exponent of the unit in which magnitudes are counted. -/
def unit (f : Fmt) : Nat := f.bias + f.m - 1

theorem std_room {f : Fmt} (hf : f.Std) : f.bias + f.m + 1 < 2 ^ f.e - 1 ∧ f.m < f.bias := by
  rcases hf with rfl | rfl <;> decide

/-- A pattern from its fields. -/
theorem fields_of {f : Fmt} (g : Good f) (s : Bool) (E F b : Nat) (hE : E < 2 ^ f.e) (hF : F < 2 ^ f.m)
    (hb : b = s.toNat * 2 ^ (f.w - 1) + E * 2 ^ f.m + F) :
    neg f b = s ∧ expField f b = E ∧ mantField f b = F := by
  have hem : 2 ^ (f.w - 1) = 2 ^ f.e * 2 ^ f.m := by rw [← Nat.pow_add]; congr 1; have := g.sum; omega
  have hbm : b / 2 ^ f.m = s.toNat * 2 ^ f.e + E := by
    rw [hb, hem, ← Nat.mul_assoc, ← Nat.add_mul, Nat.mul_comm _ (2 ^ f.m), Nat.mul_add_div (Nat.two_pow_pos _),
      Nat.div_eq_of_lt hF, Nat.add_zero]
  refine ⟨?_, ?_, ?_⟩
  · unfold neg
    have : b / 2 ^ (f.w - 1) = s.toNat := by
      rw [show f.w - 1 = f.m + f.e by have := g.sum; omega, Nat.pow_add, ← Nat.div_div_eq_div_mul, hbm, Nat.mul_comm,
        Nat.mul_add_div (Nat.two_pow_pos _), Nat.div_eq_of_lt hE, Nat.add_zero]
    rw [this]
    cases s <;> rfl
  · unfold expField
    rw [hbm, Nat.mul_comm, Nat.mul_add_mod, Nat.mod_eq_of_lt hE]
  · unfold mantField
    rw [hb, hem, ← Nat.mul_assoc, ← Nat.add_mul, Nat.mul_comm _ (2 ^ f.m), Nat.mul_add_mod, Nat.mod_eq_of_lt hF]

/-- Fields of a pattern. -/
theorem of_fields {f : Fmt} (g : Good f) (b : Nat) (hb : b < 2 ^ f.w) :
    b = (neg f b).toNat * 2 ^ (f.w - 1) + expField f b * 2 ^ f.m + mantField f b := by
  have hem : 2 ^ (f.w - 1) = 2 ^ f.e * 2 ^ f.m := by rw [← Nat.pow_add]; congr 1; have := g.sum; omega
  have hblt : b / 2 ^ (f.w - 1) < 2 := by
    rw [Nat.div_lt_iff_lt_mul (Nat.two_pow_pos _), ← Nat.pow_succ']
    have e : (f.w - 1).succ = f.w := by have := g.w; omega
    rwa [e]
  have hsign : (neg f b).toNat = b / 2 ^ (f.w - 1) := by
    unfold neg
    by_cases h : b / 2 ^ (f.w - 1) = 1
    · rw [h]; rfl
    · have : b / 2 ^ (f.w - 1) = 0 := by
        generalize b / 2 ^ (f.w - 1) = q at *
        omega
      rw [this]; rfl
  have hd : b / 2 ^ (f.w - 1) = b / 2 ^ f.m / 2 ^ f.e := by
    rw [Nat.div_div_eq_div_mul, ← Nat.pow_add]; congr 2; have := g.sum; omega
  have hdm := Nat.div_add_mod (b / 2 ^ f.m) (2 ^ f.e)
  have hdm2 := Nat.div_add_mod b (2 ^ f.m)
  rw [hsign, hd, hem, ← Nat.mul_assoc, ← Nat.add_mul]
  unfold expField mantField
  rw [Nat.mul_comm (b / 2 ^ f.m / 2 ^ f.e), hdm, Nat.mul_comm, hdm2]

theorem mant_lt (f : Fmt) (b : Nat) : mantField f b < 2 ^ f.m := Nat.mod_lt _ (Nat.two_pow_pos _)
theorem exp_lt (f : Fmt) (b : Nat) : expField f b < 2 ^ f.e := Nat.mod_lt _ (Nat.two_pow_pos _)

/-! ## Masks -/

/-- `x & ~(2^k - 1)`. -/
theorem clear_low {w : Nat} (x mask : BitVec w) (k : Nat) (hm : mask.toNat = 2 ^ k - 1) :
    (x &&& ~~~mask).toNat = x.toNat - x.toNat % 2 ^ k := by
  have h1 : (x &&& mask).toNat = x.toNat % 2 ^ k := by
    rw [BitVec.toNat_and, hm, Nat.and_two_pow_sub_one_eq_mod]
  have h2 : (x &&& ~~~mask) + (x &&& mask) = x := by
    rw [BitVec.add_eq_or_of_and_eq_zero]
    · ext i hi
      simp only [BitVec.getElem_or, BitVec.getElem_and, BitVec.getElem_not]
      cases x[i] <;> cases mask[i] <;> rfl
    · ext i hi
      simp only [BitVec.getElem_and, BitVec.getElem_not, BitVec.getElem_zero]
      cases x[i] <;> cases mask[i] <;> rfl
  have h3 : (x &&& ~~~mask).toNat ≤ x.toNat := by
    rw [BitVec.toNat_and]; exact Nat.and_le_left
  have h4 : x - (x &&& mask) = x &&& ~~~mask := by
    have := congrArg (· - (x &&& mask)) h2
    simp only [BitVec.add_sub_cancel] at this
    exact this.symm
  have h5 : x.toNat % 2 ^ k ≤ x.toNat := Nat.mod_le _ _
  rw [← h4, BitVec.toNat_sub_of_le (by rw [BitVec.le_def, h1]; exact h5), h1]

theorem sigmask_shr {f : Fmt} (g : Good f) (e : Nat) (he : e ≤ f.m) : (shr (sigmask f) e).toNat = 2 ^ (f.m - e) - 1 := by
  have := g.sum
  rw [shr_toNat g _ _ (by omega), sigmask, mask_toNat g _ (by omega)]
  have h : 2 ^ f.m = 2 ^ (f.m - e) * 2 ^ e := by rw [← Nat.pow_add]; congr 1; omega
  have h1 := Nat.two_pow_pos e
  have h2 := Nat.two_pow_pos (f.m - e)
  rw [h]
  generalize 2 ^ (f.m - e) = a at *
  generalize 2 ^ e = b at *
  obtain ⟨a, rfl⟩ : ∃ a', a = a' + 1 := ⟨a - 1, by omega⟩
  rw [Nat.add_sub_cancel, show (a + 1) * b - 1 = b * a + (b - 1) by rw [Nat.add_mul, Nat.mul_comm]; omega,
    Nat.mul_add_div h1, Nat.div_eq_of_lt (by omega), Nat.add_zero]

theorem onebit_shr {f : Fmt} (g : Good f) (e : Nat) (he : e ≤ f.m) : (shr (shl 1#f.w f.m) e).toNat = 2 ^ (f.m - e) := by
  have := g.sum
  rw [shr_toNat g _ _ (by omega), bit_toNat g _ (by omega), Nat.pow_div he (by decide)]

theorem negmask_toNat {f : Fmt} (g : Good f) : (negmask f).toNat = 2 ^ (f.w - 1) := by
  have := g.w
  exact bit_toNat g _ (by omega)

/-! ## Magnitudes -/

theorem mag_lt_one {f : Fmt} (hf : f.Std) (b : Nat) (h : expField f b < f.bias) : magnitude f b < 2 ^ unit f := by
  have hm := mant_lt f b
  unfold magnitude unit
  have hb := (bias_lt (good_of hf)).2
  split
  · exact Nat.lt_of_lt_of_le hm (Nat.pow_le_pow_right (by decide) (by omega))
  · have : 2 ^ (f.bias + f.m - 1) = 2 ^ (f.m + 1) * 2 ^ (f.bias - 2) := by rw [← Nat.pow_add]; congr 1; omega
    rw [this]
    have h1 : 2 ^ f.m + mantField f b < 2 ^ (f.m + 1) := by rw [Nat.pow_succ]; omega
    have h2 : 2 ^ (expField f b - 1) ≤ 2 ^ (f.bias - 2) := Nat.pow_le_pow_right (by decide) (by omega)
    exact Nat.mul_lt_mul_of_lt_of_le h1 h2 (Nat.two_pow_pos _)

theorem mag_big {f : Fmt} (hf : f.Std) (b : Nat) (h : f.bias + f.m ≤ expField f b) : 2 ^ unit f ∣ magnitude f b := by
  have hb := (bias_lt (good_of hf)).2
  unfold magnitude unit
  rw [if_neg (by omega)]
  exact Nat.dvd_mul_left_of_dvd (Nat.pow_dvd_pow 2 (by omega)) _

theorem mag_zero {f : Fmt} (g : Good f) (b : BitVec f.w) : magnitude f b.toNat = 0 ↔ iszero f b = true := by
  have hb := of_fields g b.toNat b.isLt
  have hp := Nat.two_pow_pos f.m
  have hz : magnitude f b.toNat = 0 ↔ expField f b.toNat = 0 ∧ mantField f b.toNat = 0 := by
    unfold magnitude
    split
    · rename_i h; simp [h]
    · rename_i h
      simp only [h, false_and, iff_false]
      have := Nat.two_pow_pos (expField f b.toNat - 1)
      intro e
      rcases Nat.mul_eq_zero.1 e with e | e <;> omega
  rw [hz]
  unfold iszero
  rw [Bool.or_eq_true, beq_iff_eq, beq_iff_eq, ← BitVec.toNat_inj, ← BitVec.toNat_inj, negmask_toNat g]
  constructor
  · rintro ⟨h1, h2⟩
    rw [h1, h2] at hb
    cases hn : neg f b.toNat
    · left; rw [hn] at hb; simpa using hb
    · right; rw [hn] at hb; simpa using hb
  · have hE : 0 < 2 ^ f.e := Nat.two_pow_pos _
    rintro (h | h)
    · obtain ⟨-, h1, h2⟩ := fields_of g false 0 0 b.toNat hE hp (by simpa using h)
      exact ⟨h1, h2⟩
    · obtain ⟨-, h1, h2⟩ := fields_of g true 0 0 b.toNat hE hp (by simpa using h)
      exact ⟨h1, h2⟩

/-! ## Floor -/

/-- Rounding a magnitude down or up to whole numbers. -/
def whole (f : Fmt) (up : Bool) (v : Nat) : Nat :=
  (if up then (v + 2 ^ unit f - 1) / 2 ^ unit f else v / 2 ^ unit f) * 2 ^ unit f

theorem whole_dvd (f : Fmt) (up : Bool) (v : Nat) (h : 2 ^ unit f ∣ v) : whole f up v = v := by
  obtain ⟨q, rfl⟩ := h
  have hp := Nat.two_pow_pos (unit f)
  unfold whole
  rw [Nat.mul_div_cancel_left _ hp, Nat.add_sub_assoc hp, Nat.mul_add_div hp, Nat.div_eq_of_lt (by omega), Nat.add_zero]
  cases up <;> simp [Nat.mul_comm]

theorem whole_down (f : Fmt) (q r v : Nat) (hr : r < 2 ^ unit f) (hv : v = q * 2 ^ unit f + r) : whole f false v = q * 2 ^ unit f := by
  have hp := Nat.two_pow_pos (unit f)
  subst hv
  unfold whole
  rw [if_neg (by decide), Nat.mul_comm q, Nat.mul_add_div hp, Nat.div_eq_of_lt hr, Nat.add_zero, Nat.mul_comm]

theorem whole_up (f : Fmt) (q r v : Nat) (h0 : 0 < r) (hr : r < 2 ^ unit f) (hv : v = q * 2 ^ unit f + r) :
    whole f true v = (q + 1) * 2 ^ unit f := by
  have hp := Nat.two_pow_pos (unit f)
  subst hv
  unfold whole
  rw [if_pos rfl, show q * 2 ^ unit f + r + 2 ^ unit f - 1 = 2 ^ unit f * (q + 1) + (r - 1) by
    rw [Nat.mul_add, Nat.mul_comm q]; omega, Nat.mul_add_div hp, Nat.div_eq_of_lt (by omega), Nat.add_zero]

/-- A number from 1 on that has a fractional part in its format, by its parts. -/
theorem mag_parts {f : Fmt} (hf : f.Std) (b e : Nat) (he : expField f b = f.bias + e) (hm : e ≤ f.m) :
    magnitude f b = (2 ^ f.m + mantField f b) / 2 ^ (f.m - e) * 2 ^ unit f +
      mantField f b % 2 ^ (f.m - e) * 2 ^ (f.bias + e - 1) ∧
    mantField f b % 2 ^ (f.m - e) * 2 ^ (f.bias + e - 1) < 2 ^ unit f := by
  have hb := (bias_lt (good_of hf)).2
  have hu : 2 ^ unit f = 2 ^ (f.m - e) * 2 ^ (f.bias + e - 1) := by
    rw [← Nat.pow_add]; unfold unit; congr 1; omega
  have hd : 2 ^ (f.m - e) ∣ 2 ^ f.m := Nat.pow_dvd_pow 2 (by omega)
  have hr : (2 ^ f.m + mantField f b) % 2 ^ (f.m - e) = mantField f b % 2 ^ (f.m - e) := by
    rw [Nat.add_mod, Nat.mod_eq_zero_of_dvd hd, Nat.zero_add, Nat.mod_mod]
  constructor
  · unfold magnitude
    rw [if_neg (by omega), he, hu, ← Nat.mul_assoc, ← Nat.add_mul, ← hr, Nat.div_add_mod']
  · rw [hu]
    exact Nat.mul_lt_mul_of_pos_right (Nat.mod_lt _ (Nat.two_pow_pos _)) (Nat.two_pow_pos _)

theorem floor_spec {f : Fmt} (hf : f.Std) (x : BitVec f.w) (hfin : expField f x.toNat ≠ 2 ^ f.e - 1) :
    neg f (floor f x).toNat = neg f x.toNat ∧ expField f (floor f x).toNat ≠ 2 ^ f.e - 1 ∧
      magnitude f (floor f x).toNat = whole f (neg f x.toNat) (magnitude f x.toNat) := by
  have g := good_of hf
  have hsum := g.sum
  have hroom := std_room hf
  have hbias := bias_lt g
  have hE := exp_lt f x.toNat
  have hF := mant_lt f x.toNat
  obtain ⟨e, s, h1, h2, h3, h4⟩ := explode_spec g x
  unfold floor
  rw [h1]
  dsimp only
  by_cases c1 : (decide ((f.m : Int) ≤ e.toInt) || iszero f x) = true
  · rw [if_pos c1]
    refine ⟨rfl, hfin, (whole_dvd f _ _ ?_).symm⟩
    rw [Bool.or_eq_true, decide_eq_true_eq] at c1
    rcases c1 with c1 | c1
    · exact mag_big hf _ (by omega)
    · rw [(mag_zero g x).2 c1]; exact Nat.dvd_zero _
  rw [if_neg c1]
  rw [Bool.or_eq_true, decide_eq_true_eq, not_or] at c1
  obtain ⟨c1, cz⟩ := c1
  have hpos : 0 < magnitude f x.toNat := Nat.pos_of_ne_zero (fun h => cz ((mag_zero g x).1 h))
  by_cases c2 : e.toInt < 0
  · rw [if_pos c2]
    have hlt := mag_lt_one hf x.toNat (by omega)
    cases hn : neg f x.toNat
    · rw [if_neg (by decide)]
      obtain ⟨z1, z2, z3⟩ := fields_of g false 0 0 (0#f.w).toNat (Nat.two_pow_pos _) (Nat.two_pow_pos _) (by simp)
      refine ⟨z1, by omega, ?_⟩
      rw [whole_down f 0 _ _ hlt (by omega)]
      unfold magnitude
      rw [if_pos z2, z3, Nat.zero_mul]
    · rw [if_pos rfl]
      have hno : (negone f).toNat = true.toNat * 2 ^ (f.w - 1) + f.bias * 2 ^ f.m + 0 := by
        have := fields_toNat g true (BitVec.ofNat f.w f.bias) 0#f.w
        have e1 : BitVec.ofNat f.w true.toNat = 1#f.w := rfl
        have e2 : BitVec.ofNat f.w f.bias &&& BitVec.ofNat f.w (2 ^ f.e - 1) = BitVec.ofNat f.w f.bias := by
          apply BitVec.eq_of_toNat_eq
          rw [BitVec.toNat_and, bias_toNat g, emask_toNat g, Nat.and_two_pow_sub_one_eq_mod, Nat.mod_eq_of_lt (by omega)]
        rw [e1, e2, bias_toNat g, Nat.mod_eq_of_lt (a := f.bias) (by omega)] at this
        have e3 : 0#f.w &&& (shl 1#f.w f.m - 1#f.w) = 0#f.w := by simp
        rw [e3, BitVec.or_zero] at this
        unfold negone negmask
        rw [this]
        simp
      obtain ⟨z1, z2, z3⟩ := fields_of g true f.bias 0 _ (by omega) (Nat.two_pow_pos _) hno
      refine ⟨z1, by omega, ?_⟩
      rw [whole_up f 0 _ _ hpos hlt (by omega)]
      unfold magnitude
      rw [if_neg (by omega), z2, z3, Nat.add_zero, ← Nat.pow_add, Nat.zero_add, Nat.one_mul]
      unfold unit
      congr 1
      omega
  rw [if_neg c2]
  obtain ⟨k, hk⟩ : ∃ k : Nat, e.toInt = k := ⟨e.toInt.toNat, by omega⟩
  have hkm : k < f.m := by omega
  have hek : e.toNat = k := by
    have h := BitVec.toInt_eq_toNat_cond e
    have := e.isLt
    rw [hk] at h
    split at h <;> omega
  have hEk : expField f x.toNat = f.bias + k := by omega
  have hE0 : expField f x.toNat ≠ 0 := by omega
  rw [if_neg hE0] at h4
  obtain ⟨p1, p2⟩ := mag_parts hf x.toNat k hEk (by omega)
  have hmask := sigmask_shr g k (by omega)
  have hd : 2 ^ (f.m - k) ∣ 2 ^ f.m := Nat.pow_dvd_pow 2 (by omega)
  have hu : 2 ^ unit f = 2 ^ (f.m - k) * 2 ^ (f.bias + k - 1) := by
    rw [← Nat.pow_add]; unfold unit; congr 1; omega
  have hr : (2 ^ f.m + mantField f x.toNat) % 2 ^ (f.m - k) = mantField f x.toNat % 2 ^ (f.m - k) := by
    rw [Nat.add_mod, Nat.mod_eq_zero_of_dvd hd, Nat.zero_add, Nat.mod_mod]
  have hq := Nat.div_add_mod' (2 ^ f.m + mantField f x.toNat) (2 ^ (f.m - k))
  rw [hr] at hq
  have hkp := Nat.two_pow_pos (f.m - k)
  have hrlt : mantField f x.toNat % 2 ^ (f.m - k) < 2 ^ (f.m - k) := Nat.mod_lt _ hkp
  have hrle : mantField f x.toNat % 2 ^ (f.m - k) ≤ mantField f x.toNat := Nat.mod_le _ _
  rw [hek]
  cases hn : neg f x.toNat
  · rw [if_neg (by decide)]
    have hs' : (s &&& ~~~shr (sigmask f) k).toNat = 2 ^ f.m + mantField f x.toNat - mantField f x.toNat % 2 ^ (f.m - k) := by
      rw [clear_low s _ _ hmask, h4, hr]
    obtain ⟨t, ht⟩ : ∃ t, t = s &&& ~~~shr (sigmask f) k := ⟨_, rfl⟩
    rw [← ht] at hs' ⊢
    have hex := explode_assem hf false e t (by omega) (by omega)
    have hde := explode_spec g (assem f false e t)
    rw [hex] at hde
    obtain ⟨e', t', d1, d2, -, d4⟩ := hde
    simp only [Prod.mk.injEq] at d1
    obtain ⟨d0, rfl, rfl⟩ := d1
    have hEE : expField f (assem f false e t).toNat = f.bias + k := by omega
    refine ⟨d0.symm, by omega, ?_⟩
    rw [whole_down f _ _ _ p2 p1]
    unfold magnitude
    rw [if_neg (by omega)] at d4 ⊢
    rw [← d4, hs', hEE, hu, ← Nat.mul_assoc]
    congr 1
    omega
  · rw [if_pos rfl]
    have hsm : (s &&& shr (sigmask f) k).toNat = mantField f x.toNat % 2 ^ (f.m - k) := by
      rw [BitVec.toNat_and, hmask, Nat.and_two_pow_sub_one_eq_mod, h4, hr]
    by_cases c3 : s &&& shr (sigmask f) k = 0#f.w
    · rw [if_pos c3]
      rw [c3] at hsm
      have hz : mantField f x.toNat % 2 ^ (f.m - k) = 0 := by rw [← hsm]; simp
      refine ⟨hn, hfin, (whole_dvd f _ _ ?_).symm⟩
      rw [p1, hz, Nat.zero_mul, Nat.add_zero]
      exact Nat.dvd_mul_left _ _
    · rw [if_neg c3]
      have hnz : 0 < mantField f x.toNat % 2 ^ (f.m - k) := by
        rw [← hsm]
        exact Nat.pos_of_ne_zero (fun h => c3 (BitVec.eq_of_toNat_eq (by simpa using h)))
      have hxb := of_fields g x.toNat x.isLt
      rw [hn] at hxb
      have hxm : x.toNat % 2 ^ (f.m - k) = mantField f x.toNat % 2 ^ (f.m - k) := by
        unfold mantField
        rw [Nat.mod_mod_of_dvd _ hd]
      have hem : 2 ^ f.w = 2 * (2 ^ f.e * 2 ^ f.m) := by rw [← Nat.pow_add, ← Nat.pow_succ']; congr 1; omega
      have hem1 : 2 ^ (f.w - 1) = 2 ^ f.e * 2 ^ f.m := by rw [← Nat.pow_add]; congr 1; omega
      -- the low part rounded up
      obtain ⟨F', hF'⟩ : ∃ F', F' = mantField f x.toNat - mantField f x.toNat % 2 ^ (f.m - k) + 2 ^ (f.m - k) := ⟨_, rfl⟩
      have hF'le : F' ≤ 2 ^ f.m := by
        obtain ⟨c, hc⟩ := hd
        have hdm := Nat.div_add_mod (mantField f x.toNat) (2 ^ (f.m - k))
        have hlt : mantField f x.toNat / 2 ^ (f.m - k) < c := by
          rw [Nat.div_lt_iff_lt_mul hkp, Nat.mul_comm, ← hc]; exact hF
        have : 2 ^ (f.m - k) * (mantField f x.toNat / 2 ^ (f.m - k) + 1) ≤ 2 ^ (f.m - k) * c := Nat.mul_le_mul_left _ hlt
        rw [Nat.mul_add, ← hc] at this
        omega
      have hE1 : (expField f x.toNat + 1) * 2 ^ f.m < 2 ^ f.e * 2 ^ f.m := Nat.mul_lt_mul_of_pos_right (by omega) (Nat.two_pow_pos _)
      rw [Nat.add_mul] at hE1
      have hbn : ((x &&& ~~~shr (sigmask f) k) + shr (shl 1#f.w f.m) k).toNat =
          true.toNat * 2 ^ (f.w - 1) + expField f x.toNat * 2 ^ f.m + F' := by
        rw [BitVec.toNat_add, clear_low x _ _ hmask, onebit_shr g k (by omega), hxm, Nat.mod_eq_of_lt]
        · have : true.toNat = 1 := rfl
          rw [this] at hxb ⊢
          omega
        · have : true.toNat = 1 := rfl
          rw [this] at hxb
          rw [hem]
          rw [hem1] at hxb
          omega
      have hmag : magnitude f ((x &&& ~~~shr (sigmask f) k) + shr (shl 1#f.w f.m) k).toNat =
          (2 ^ f.m + F') * 2 ^ (f.bias + k - 1) ∧
          neg f ((x &&& ~~~shr (sigmask f) k) + shr (shl 1#f.w f.m) k).toNat = true ∧
          expField f ((x &&& ~~~shr (sigmask f) k) + shr (shl 1#f.w f.m) k).toNat ≠ 2 ^ f.e - 1 := by
        by_cases hlt : F' < 2 ^ f.m
        · obtain ⟨z1, z2, z3⟩ := fields_of g true (expField f x.toNat) F' _ hE hlt hbn
          refine ⟨?_, z1, by omega⟩
          unfold magnitude
          rw [if_neg (by omega), z2, z3, hEk]
        · have hF2 : F' = 2 ^ f.m := by omega
          obtain ⟨z1, z2, z3⟩ := fields_of g true (expField f x.toNat + 1) 0
            ((x &&& ~~~shr (sigmask f) k) + shr (shl 1#f.w f.m) k).toNat (by omega) (Nat.two_pow_pos _)
            (by rw [hbn, hF2, Nat.add_mul]; omega)
          refine ⟨?_, z1, by omega⟩
          unfold magnitude
          rw [if_neg (by omega), z2, z3, hEk, hF2, Nat.add_zero, ← Nat.two_mul, show f.bias + k + 1 - 1 = f.bias + k - 1 + 1 by omega,
            Nat.pow_succ]
          generalize 2 ^ f.m = a
          generalize 2 ^ (f.bias + k - 1) = c
          rw [Nat.mul_comm c 2, ← Nat.mul_assoc, Nat.mul_comm a 2]
      refine ⟨hmag.2.1, hmag.2.2, ?_⟩
      rw [hmag.1, whole_up f _ _ _ (Nat.mul_pos hnz (Nat.two_pow_pos _)) p2 p1, hu, ← Nat.mul_assoc]
      congr 1
      rw [Nat.add_mul]
      omega

theorem fneg_spec {f : Fmt} (g : Good f) (x : BitVec f.w) :
    neg f (fneg f x).toNat = !neg f x.toNat ∧ expField f (fneg f x).toNat = expField f x.toNat ∧
      magnitude f (fneg f x).toNat = magnitude f x.toNat := by
  have hsum := g.sum
  have hxb := of_fields g x.toNat x.isLt
  have hE := exp_lt f x.toNat
  have hF := mant_lt f x.toNat
  have hb : (fneg f x).toNat = (!neg f x.toNat).toNat * 2 ^ (f.w - 1) + expField f x.toNat * 2 ^ f.m + mantField f x.toNat := by
    have hem1 : 2 ^ (f.w - 1) = 2 ^ f.e * 2 ^ f.m := by rw [← Nat.pow_add]; congr 1; omega
    have hE1 : (expField f x.toNat + 1) * 2 ^ f.m ≤ 2 ^ f.e * 2 ^ f.m := Nat.mul_le_mul_right _ (by omega)
    rw [Nat.add_mul] at hE1
    obtain ⟨r, hr⟩ : ∃ r, r = expField f x.toNat * 2 ^ f.m + mantField f x.toNat := ⟨_, rfl⟩
    have hrl : r < 2 ^ (f.w - 1) := by omega
    have hxor : ∀ b : Bool, ((b.toNat <<< (f.w - 1) + r) ^^^ (1 <<< (f.w - 1))) = ((!b).toNat <<< (f.w - 1) + r) := by
      intro b
      rw [Nat.shiftLeft_add_eq_or_of_lt hrl, Nat.shiftLeft_add_eq_or_of_lt hrl]
      apply Nat.eq_of_testBit_eq
      intro i
      rw [Nat.testBit_xor, Nat.testBit_or, Nat.testBit_or, Nat.testBit_shiftLeft, Nat.testBit_shiftLeft, Nat.testBit_shiftLeft]
      by_cases hi : i < f.w - 1
      · simp [show ¬(i ≥ f.w - 1) by omega]
      · have hri : r.testBit i = false :=
          Nat.testBit_lt_two_pow (Nat.lt_of_lt_of_le hrl (Nat.pow_le_pow_right (by decide) (by omega)))
        rw [hri]
        cases b <;> simp
    have := hxor (neg f x.toNat)
    rw [Nat.shiftLeft_eq, Nat.shiftLeft_eq, Nat.shiftLeft_eq, Nat.one_mul] at this
    unfold fneg
    rw [BitVec.toNat_xor, negmask_toNat g, Nat.add_assoc, ← hr, ← this]
    congr 1
    rw [hr, ← Nat.add_assoc]
    exact hxb
  obtain ⟨z1, z2, z3⟩ := fields_of g _ _ _ _ hE hF hb
  refine ⟨z1, z2, ?_⟩
  unfold magnitude
  rw [z2, z3]

theorem sign_bit {f : Fmt} (g : Good f) (x : BitVec f.w) : x &&& negmask f ≠ 0#f.w ↔ neg f x.toNat = true := by
  have hw := g.w
  unfold negmask
  rw [Ne, hasbit g x _ (by omega)]
  unfold neg
  have hblt : x.toNat / 2 ^ (f.w - 1) < 2 := by
    rw [Nat.div_lt_iff_lt_mul (Nat.two_pow_pos _), ← Nat.pow_succ']
    have e : (f.w - 1).succ = f.w := by omega
    rw [e]; exact x.isLt
  generalize x.toNat / 2 ^ (f.w - 1) = q at *
  rw [decide_eq_true_eq]
  omega

end Verif.Round
