import Verif.Round.Props

/-!
# C99: rounding to the nearest integer
-/

namespace Verif.Round

open Verif.Endian (shl)
open Verif.Flt

/-- `r` is the integer nearest to `v / u`, and even if there are two. -/
def Nearest (r v u : Int) : Prop := 2 * (r * u - v) ≤ u ∧ 2 * (v - r * u) ≤ u ∧ ((2 * (r * u - v) = u ∨ 2 * (v - r * u) = u) → r % 2 = 0)

/-- There is only one such integer. -/
theorem nearest_unique (r r' v u : Int) (hu : 0 < u) (h : Nearest r v u) (h' : Nearest r' v u) : r = r' := by
  obtain ⟨a1, a2, a3⟩ := h
  obtain ⟨b1, b2, b3⟩ := h'
  have key : ∀ a b : Int, 2 * (a * u - v) ≤ u → 2 * (v - b * u) ≤ u → (2 * (a * u - v) = u → a % 2 = 0) →
      (2 * (v - b * u) = u → b % 2 = 0) → ¬b < a := by
    intro a b h1 h2 h3 h4 hlt
    have e : (a - b) * u = a * u - b * u := Int.sub_mul a b u
    have h5 : (1 : Int) * u ≤ (a - b) * u := Int.mul_le_mul_of_nonneg_right (by omega) (by omega)
    have h6 := h3 (by omega)
    have h7 := h4 (by omega)
    have h8 : (2 : Int) * u ≤ (a - b) * u := Int.mul_le_mul_of_nonneg_right (by omega) (by omega)
    omega
  have k1 := key r r' a1 b2 (fun h => a3 (Or.inl h)) (fun h => b3 (Or.inr h))
  have k2 := key r' r b1 a2 (fun h => b3 (Or.inl h)) (fun h => a3 (Or.inr h))
  omega

theorem nearest_neg (r v u : Int) (h : Nearest r v u) : Nearest (-r) (-v) u := by
  obtain ⟨a1, a2, a3⟩ := h
  unfold Nearest
  rw [Int.neg_mul]
  refine ⟨by omega, by omega, fun h => ?_⟩
  have := a3 (by omega)
  omega

theorem rne_nearest (s k c : Nat) (hc : 0 < c) : Nearest (rne s k : Int) ((s * c : Nat) : Int) ((2 ^ k * c : Nat) : Int) := by
  have hp := Nat.two_pow_pos k
  have hd := Nat.div_add_mod s (2 ^ k)
  have hl := Nat.mod_lt s hp
  have core : Nearest (rne s k : Int) (s : Int) ((2 ^ k : Nat) : Int) := by
    unfold rne
    generalize 2 ^ k = u at *
    generalize s / u = q at *
    generalize s % u = t at *
    have hq : ((u * q : Nat) : Int) = (q : Int) * (u : Int) := by simp [Int.mul_comm]
    split
    · rename_i h
      unfold Nearest
      have e : (((q + 1 : Nat) : Int)) * (u : Int) = (q : Int) * u + u := by
        rw [Int.natCast_add, Int.add_mul]; simp
      rw [e]
      refine ⟨by omega, by omega, fun h' => by omega⟩
    · rename_i h
      unfold Nearest
      refine ⟨by omega, by omega, fun h' => by omega⟩
  obtain ⟨a1, a2, a3⟩ := core
  unfold Nearest
  have hc' : (0 : Int) < c := by omega
  have e1 : (rne s k : Int) * ((2 ^ k * c : Nat) : Int) = (rne s k : Int) * ((2 ^ k : Nat) : Int) * c := by
    rw [Int.natCast_mul, Int.mul_assoc]
  have f1 : 2 * ((rne s k : Int) * ((2 ^ k * c : Nat) : Int) - ((s * c : Nat) : Int)) =
      2 * ((rne s k : Int) * ((2 ^ k : Nat) : Int) - s) * c := by
    rw [e1, Int.natCast_mul, ← Int.sub_mul, Int.mul_assoc]
  have f2 : 2 * (((s * c : Nat) : Int) - (rne s k : Int) * ((2 ^ k * c : Nat) : Int)) =
      2 * ((s : Int) - (rne s k : Int) * ((2 ^ k : Nat) : Int)) * c := by
    rw [e1, Int.natCast_mul, ← Int.sub_mul, Int.mul_assoc]
  rw [f1, f2, Int.natCast_mul (2 ^ k) c]
  refine ⟨Int.mul_le_mul_of_nonneg_right a1 (by omega), Int.mul_le_mul_of_nonneg_right a2 (by omega), fun h => a3 ?_⟩
  rcases h with h | h
  · exact Or.inl (Int.eq_of_mul_eq_mul_right (by omega) h)
  · exact Or.inr (Int.eq_of_mul_eq_mul_right (by omega) h)

/-! ## The rounding bit -/

theorem bne_zero {w : Nat} (x : BitVec w) : (x != 0#w) = true ↔ x.toNat ≠ 0 := by
  rw [bne_iff_ne, Ne, ← BitVec.toNat_inj]
  simp

theorem ushl_one (k : Nat) (hk : k < 64) : ushl 1#64 (BitVec.ofNat 64 k) = shl 1#64 k := by
  unfold ushl
  have : (BitVec.ofNat 64 k).toNat = k := by rw [BitVec.toNat_ofNat]; omega
  rw [this, if_neg (by omega)]

theorem ushl_bit (l : BitVec 64) (k : Nat) (hk : k < 64) :
    (l &&& ushl 1#64 (BitVec.ofNat 64 k) != 0#64) = true ↔ l.toNat / 2 ^ k % 2 = 1 := by
  have g : Good dbl := good_of (Or.inl rfl)
  rw [ushl_one k hk, bne_iff_ne, Ne]
  have := hasbit g l k hk
  rw [show (l &&& shl 1#64 k = 0#64) ↔ l.toNat / 2 ^ k % 2 = 0 from this]
  omega

theorem ushr_ones (k : Nat) (h1 : 1 ≤ k) (h2 : k ≤ 64) :
    (ushr (-1#64) (1#64 + 64#64 - BitVec.ofNat 64 k)).toNat = 2 ^ (k - 1) - 1 := by
  have g : Good dbl := good_of (Or.inl rfl)
  have e : (1#64 + 64#64 - BitVec.ofNat 64 k).toNat = 65 - k := by
    rw [BitVec.toNat_sub_of_le]
    · rw [BitVec.toNat_ofNat, Nat.mod_eq_of_lt (by omega)]; rfl
    · rw [BitVec.le_def, BitVec.toNat_ofNat, Nat.mod_eq_of_lt (by omega)]
      show k ≤ 65
      omega
  unfold ushr
  rw [e]
  by_cases hk : k = 1
  · subst hk; rfl
  · rw [if_neg (by omega)]
    have h : (shr (-1#64 : BitVec 64) (65 - k)).toNat = (-1#64 : BitVec 64).toNat / 2 ^ (65 - k) :=
      shr_toNat g (-1#64 : BitVec 64) (65 - k) (show 65 - k < 64 by omega)
    rw [h]
    have e2 : (-1#64 : BitVec 64).toNat = 2 ^ 64 - 1 := by decide
    rw [e2]
    have e3 : (2 : Nat) ^ 64 = 2 ^ (k - 1) * 2 ^ (65 - k) := by rw [← Nat.pow_add]; congr 1; omega
    have p1 := Nat.two_pow_pos (k - 1)
    have p2 := Nat.two_pow_pos (65 - k)
    rw [e3]
    generalize 2 ^ (k - 1) = a at *
    generalize 2 ^ (65 - k) = b at *
    obtain ⟨a, rfl⟩ : ∃ a', a = a' + 1 := ⟨a - 1, by omega⟩
    rw [Nat.add_sub_cancel, show (a + 1) * b - 1 = b * a + (b - 1) by rw [Nat.add_mul, Nat.mul_comm]; omega,
      Nat.mul_add_div p2, Nat.div_eq_of_lt (by omega), Nat.add_zero]

/-- With nothing above, `need_round_away` says whether rounding to nearest, ties to even, goes up. -/
theorem needRoundAway_spec (l : BitVec 64) (k : Nat) (h1 : 1 ≤ k) (h2 : k < 64) :
    l.toNat / 2 ^ k + (needRoundAway 0#64 l (BitVec.ofNat 64 k)).toNat = rne l.toNat k := by
  have g : Good dbl := good_of (Or.inl rfl)
  have hk : (BitVec.ofNat 64 k).toInt = k := by
    rw [BitVec.toInt_eq_toNat_of_lt, BitVec.toNat_ofNat, Nat.mod_eq_of_lt (by omega)]
    rw [BitVec.toNat_ofNat, Nat.mod_eq_of_lt (by omega)]; omega
  have hkn : (BitVec.ofNat 64 k).toNat = k := by rw [BitVec.toNat_ofNat, Nat.mod_eq_of_lt (by omega)]
  have hkn1 : (BitVec.ofNat 64 (k - 1)).toNat = k - 1 := by rw [BitVec.toNat_ofNat, Nat.mod_eq_of_lt (by omega)]
  have hk1 : BitVec.ofNat 64 k - 1#64 = BitVec.ofNat 64 (k - 1) := by
    apply BitVec.eq_of_toNat_eq
    have h1' : (1#64).toNat = 1 := rfl
    rw [BitVec.toNat_sub_of_le (by rw [BitVec.le_def, hkn, h1']; exact h1), hkn, hkn1, h1']
  have hbey : (l &&& ushr (-1#64) (1#64 + 64#64 - BitVec.ofNat 64 k) != 0#64) = true ↔ l.toNat % 2 ^ (k - 1) ≠ 0 := by
    rw [bne_zero, BitVec.toNat_and, ushr_ones k h1 (by omega), Nat.and_two_pow_sub_one_eq_mod]
  have hfir := ushl_bit l (k - 1) (by omega)
  have hodd := ushl_bit l k h2
  have hsplit : l.toNat % 2 ^ k = l.toNat % 2 ^ (k - 1) + 2 ^ (k - 1) * (l.toNat / 2 ^ (k - 1) % 2) := by
    conv => lhs; rw [show k = k - 1 + 1 by omega]
    exact Nat.mod_pow_succ
  have hpow : 2 ^ k = 2 * 2 ^ (k - 1) := by rw [← Nat.pow_succ']; congr 1; omega
  have hlow := Nat.mod_lt l.toNat (Nat.two_pow_pos (k - 1))
  unfold needRoundAway
  rw [if_neg (by omega)]
  dsimp only
  rw [hk1]
  unfold rne
  rw [hsplit]
  have hb : l.toNat / 2 ^ (k - 1) % 2 = 0 ∨ l.toNat / 2 ^ (k - 1) % 2 = 1 := by omega
  cases hf : (l &&& ushl 1#64 (BitVec.ofNat 64 (k - 1)) != 0#64)
  · have h0 : l.toNat / 2 ^ (k - 1) % 2 = 0 := by
      rcases hb with h | h
      · exact h
      · rw [hfir.2 h] at hf; cases hf
    rw [h0, Nat.mul_zero, Nat.add_zero]
    rw [if_neg (c := 2 * (l.toNat % 2 ^ (k - 1)) > 2 ^ k ∨ _) (by omega)]
    simp
  · have h0 := hfir.1 hf
    rw [h0, Nat.mul_one]
    cases hby : (l &&& ushr (-1#64) (1#64 + 64#64 - BitVec.ofNat 64 k) != 0#64)
    · have hz : l.toNat % 2 ^ (k - 1) = 0 := by
        apply Classical.byContradiction
        intro h
        rw [hbey.2 h] at hby
        cases hby
      rw [hz, Nat.zero_add]
      simp only [Bool.not_true, Bool.false_eq_true, ↓reduceIte]
      rw [if_neg (c := (BitVec.ofNat 64 k).toInt ≥ 64) (by omega)]
      cases ho : (l &&& ushl 1#64 (BitVec.ofNat 64 k) != 0#64)
      · have : ¬l.toNat / 2 ^ k % 2 = 1 := fun h => by rw [hodd.2 h] at ho; cases ho
        rw [if_neg (by omega)]; rfl
      · rw [if_pos (Or.inr ⟨by omega, hodd.1 ho⟩)]; rfl
    · have hz := hbey.1 hby
      rw [if_pos (c := 2 * (l.toNat % 2 ^ (k - 1) + 2 ^ (k - 1)) > 2 ^ k ∨ _) (Or.inl (by omega))]
      rfl

/-! ## Rounding -/

theorem pow_w {f : Fmt} (g : Good f) : 2 ^ f.w = 2 * 2 ^ (f.w - 1) := by
  rw [← Nat.pow_succ']; congr 1; have := g.w; omega

theorem toInt_small {f : Fmt} (g : Good f) (x : BitVec f.w) (h : x.toNat < 2 ^ (f.w - 1)) : x.toInt = x.toNat := by
  rw [BitVec.toInt_eq_toNat_of_lt]
  rw [pow_w g]; omega

theorem toInt_small_neg {f : Fmt} (g : Good f) (x : BitVec f.w) (h : x.toNat < 2 ^ (f.w - 1)) : (-x).toInt = -(x.toNat : Int) := by
  have hp := pow_w g
  have h0 : ((2 ^ f.w : Nat) : Int) = 2 * ((2 ^ (f.w - 1) : Nat) : Int) := by rw [hp]; simp
  rw [BitVec.toInt_neg, toInt_small g x h, Int.bmod_eq_of_le] <;> omega

/-- A shift count or bit position, from an exponent. -/
theorem sub_exp {f : Fmt} (g : Good f) (e : BitVec f.w) (j : Nat) (hj : (f.m : Int) - e.toInt = j) (hl : j ≤ f.m + 1) :
    BitVec.ofNat f.w f.m - e = BitVec.ofNat f.w j := by
  have hs := g.sum
  have he := g.e11
  have hm32 : 2 ^ 31 ≤ 2 ^ (f.w - 1) := Nat.pow_le_pow_right (by decide) (by have := g.w; omega)
  have hp := pow_w g
  have hmw : f.m < 64 := by have := g.w; omega
  have hmn : (BitVec.ofNat f.w f.m).toInt = f.m := by
    rw [toInt_small g] <;> rw [BitVec.toNat_ofNat, Nat.mod_eq_of_lt (by omega)]; omega
  have hjn : (BitVec.ofNat f.w j).toInt = j := by
    rw [toInt_small g] <;> rw [BitVec.toNat_ofNat, Nat.mod_eq_of_lt (by omega)]; omega
  apply BitVec.eq_of_toInt_eq
  have h0 : ((2 ^ f.w : Nat) : Int) = 2 * ((2 ^ (f.w - 1) : Nat) : Int) := by rw [hp]; simp
  rw [BitVec.toInt_sub, hmn, hjn, hj, Int.bmod_eq_of_le] <;> omega

/-- **C99.**  For finite numbers less than `2^63` (`2^31` with 32 bits) in magnitude, `rn` gives the nearest integer, the
even one of two. -/
theorem rn_nearest {f : Fmt} (hf : f.Std) (x : BitVec f.w) (hx : expField f x.toNat < f.bias + (f.w - 1)) :
    Nearest (rn f x).toInt (val f x.toNat) (one f) := by
  have g := good_of hf
  have hsum := g.sum
  have hroom := std_room hf
  have hbias := bias_lt g
  have hF := mant_lt f x.toNat
  have hw31 : 2 ^ 31 ≤ 2 ^ (f.w - 1) := Nat.pow_le_pow_right (by decide) (by have := g.w; omega)
  have hone : one f = ((2 ^ unit f : Nat) : Int) := by unfold one; simp
  obtain ⟨e, s, h1, h2, h3, h4⟩ := explode_spec g x
  -- it is enough to treat positive results
  have fin : ∀ i : BitVec f.w, i.toNat < 2 ^ (f.w - 1) → Nearest (i.toNat : Int) (magnitude f x.toNat : Int) (one f) →
      Nearest (if neg f x.toNat then -i else i).toInt (val f x.toNat) (one f) := by
    intro i hi hn
    unfold val
    cases neg f x.toNat
    · simp only [Bool.false_eq_true, ↓reduceIte]
      rw [toInt_small g i hi]; exact hn
    · simp only [↓reduceIte]
      rw [toInt_small_neg g i hi]; exact nearest_neg _ _ _ hn
  unfold rn
  rw [h1]
  dsimp only
  rw [if_neg (by omega)]
  by_cases c1 : e.toInt ≥ f.m
  · rw [if_pos c1]
    obtain ⟨j, hj⟩ : ∃ j : Nat, e.toInt = f.m + j := ⟨(e.toInt - f.m).toNat, by omega⟩
    have hE : expField f x.toNat = f.bias + f.m + j := by omega
    rw [if_neg (by omega)] at h4
    have hsub : (e - BitVec.ofNat f.w f.m).toNat = j := by
      have hmn : (BitVec.ofNat f.w f.m).toInt = f.m := by
        have := g.w
        rw [toInt_small g] <;> rw [BitVec.toNat_ofNat, Nat.mod_eq_of_lt (by have := pow_w g; omega)]; omega
      have h0 : ((2 ^ f.w : Nat) : Int) = 2 * ((2 ^ (f.w - 1) : Nat) : Int) := by rw [pow_w g]; simp
      have ht : (e - BitVec.ofNat f.w f.m).toInt = j := by
        rw [BitVec.toInt_sub, hmn, hj, Int.bmod_eq_of_le] <;> (have := g.w; omega)
      have h := BitVec.toInt_eq_toNat_cond (e - BitVec.ofNat f.w f.m)
      have := (e - BitVec.ofNat f.w f.m).isLt
      rw [ht] at h
      split at h <;> omega
    rw [hsub]
    have hlt : s.toNat * 2 ^ j < 2 ^ (f.w - 1) := by
      have : 2 ^ (f.m + 1) * 2 ^ j ≤ 2 ^ (f.w - 1) := by
        rw [← Nat.pow_add]; exact Nat.pow_le_pow_right (by decide) (by omega)
      have h5 : s.toNat < 2 ^ (f.m + 1) := by rw [Nat.pow_succ]; omega
      exact Nat.lt_of_lt_of_le (Nat.mul_lt_mul_of_pos_right h5 (Nat.two_pow_pos _)) this
    have hsh : (shl s j).toNat = s.toNat * 2 ^ j := by
      rw [shl_toNat g _ _ (by omega), Nat.mod_eq_of_lt (by have := pow_w g; omega)]
    have hneg : (if neg f x.toNat then -1#f.w * shl s j else shl s j) = if neg f x.toNat then -shl s j else shl s j := by
      cases neg f x.toNat
      · rfl
      · simp only [↓reduceIte]; rw [BitVec.neg_mul, BitVec.one_mul]
    rw [hneg]
    refine fin _ (by rw [hsh]; exact hlt) ?_
    have hmag : magnitude f x.toNat = s.toNat * 2 ^ j * 2 ^ unit f := by
      unfold magnitude unit
      rw [if_neg (by omega), ← h4, Nat.mul_assoc, ← Nat.pow_add]
      congr 2
      omega
    rw [hsh, hmag, hone]
    have hp : (0 : Int) < ((2 ^ unit f : Nat) : Int) := by have := Nat.two_pow_pos (unit f); omega
    unfold Nearest
    rw [Int.natCast_mul (s.toNat * 2 ^ j)]
    refine ⟨by omega, by omega, fun h => ?_⟩
    omega
  · rw [if_neg c1]
    by_cases c2 : e.toInt < -1
    · rw [if_pos c2]
      have hlt : 2 * magnitude f x.toNat < 2 ^ unit f := by
        unfold magnitude
        have hu : 2 ^ unit f = 2 * (2 ^ (f.m + 1) * 2 ^ (f.bias - 3)) := by
          rw [← Nat.pow_add, ← Nat.pow_succ']; unfold unit; congr 1
          have := g.me
          have := g.e2
          omega
        rw [hu]
        have h5 : 2 ^ f.m + mantField f x.toNat < 2 ^ (f.m + 1) := by rw [Nat.pow_succ]; omega
        split
        · have : 2 ^ (f.m + 1) * 1 ≤ 2 ^ (f.m + 1) * 2 ^ (f.bias - 3) := Nat.mul_le_mul_left _ (Nat.two_pow_pos _)
          omega
        · have h6 : 2 ^ (expField f x.toNat - 1) ≤ 2 ^ (f.bias - 3) := Nat.pow_le_pow_right (by decide) (by omega)
          have := Nat.mul_lt_mul_of_lt_of_le h5 h6 (Nat.two_pow_pos _)
          omega
      have hv : ∀ v : Int, v = magnitude f x.toNat ∨ v = -(magnitude f x.toNat : Int) → Nearest (0#f.w).toInt v (one f) := by
        intro v hv
        rw [hone]
        unfold Nearest
        have e0 : (0#f.w).toInt = 0 := by simp
        rw [e0]
        refine ⟨by omega, by omega, fun _ => by omega⟩
      apply hv
      unfold val
      split
      · exact Or.inr rfl
      · exact Or.inl rfl
    · rw [if_neg c2]
      obtain ⟨j, hj⟩ : ∃ j : Nat, (f.m : Int) - e.toInt = j := ⟨(f.m - e.toInt).toNat, by omega⟩
      have hj1 : 1 ≤ j := by omega
      have hj2 : j ≤ f.m + 1 := by omega
      have hE0 : expField f x.toNat ≠ 0 := by have := g.me; have := g.e2; omega
      rw [if_neg hE0] at h4
      have hjw : j < f.w := by have := g.e2; omega
      have hj64 : j < 64 := by have := g.w; omega
      have hjn : (BitVec.ofNat f.w j).toNat = j := by
        rw [BitVec.toNat_ofNat, Nat.mod_eq_of_lt (by have := pow_w g; omega)]
      have hse : (BitVec.ofNat f.w j).signExtend 64 = BitVec.ofNat 64 j := by
        apply BitVec.eq_of_toInt_eq
        rw [BitVec.toInt_signExtend_of_le (by have := g.w; omega), toInt_small g _ (by omega), hjn,
          BitVec.toInt_eq_toNat_of_lt, BitVec.toNat_ofNat, Nat.mod_eq_of_lt (by omega)]
        rw [BitVec.toNat_ofNat, Nat.mod_eq_of_lt (by omega)]; omega
      have hsw : (s.setWidth 64).toNat = s.toNat := by
        rw [BitVec.toNat_setWidth, Nat.mod_eq_of_lt]
        have := s.isLt
        have : 2 ^ f.w ≤ 2 ^ 64 := Nat.pow_le_pow_right (by decide) (by have := g.w; omega)
        omega
      rw [sub_exp g e j hj hj2, hse, hjn]
      have hnr := needRoundAway_spec (s.setWidth 64) j hj1 hj64
      rw [hsw] at hnr
      have hdiv : s.toNat / 2 ^ j ≤ s.toNat := Nat.div_le_self _ _
      have hs2 : s.toNat < 2 ^ (f.m + 1) := by rw [Nat.pow_succ]; omega
      have hhalf : s.toNat / 2 ^ j < 2 ^ f.m := by
        rw [Nat.div_lt_iff_lt_mul (Nat.two_pow_pos _)]
        refine Nat.lt_of_lt_of_le hs2 ?_
        rw [← Nat.pow_add]
        exact Nat.pow_le_pow_right (by decide) (by omega)
      have hmw : 2 ^ f.m * 2 ≤ 2 ^ (f.w - 1) := by
        rw [← Nat.pow_succ]; exact Nat.pow_le_pow_right (by decide) (by have := g.e2; omega)
      have hpm := Nat.two_pow_pos f.m
      have hi : (if needRoundAway 0#64 (s.setWidth 64) (BitVec.ofNat 64 j) then shr s j + 1#f.w else shr s j).toNat = rne s.toNat j := by
        rw [← hnr]
        cases needRoundAway 0#64 (s.setWidth 64) (BitVec.ofNat 64 j)
        · simp only [Bool.false_eq_true, ↓reduceIte]
          rw [shr_toNat g _ _ hjw]; rfl
        · simp only [↓reduceIte]
          rw [BitVec.toNat_add, shr_toNat g _ _ hjw, one_toNat g, Nat.mod_eq_of_lt (by have := pow_w g; omega)]; rfl
      refine fin _ ?_ ?_
      · rw [hi, ← hnr]
        have := Bool.toNat_le (needRoundAway 0#64 (s.setWidth 64) (BitVec.ofNat 64 j))
        omega
      · rw [hi]
        have h5 := rne_nearest s.toNat j (2 ^ (expField f x.toNat - 1)) (Nat.two_pow_pos _)
        have hmag : magnitude f x.toNat = s.toNat * 2 ^ (expField f x.toNat - 1) := by
          unfold magnitude; rw [if_neg hE0, h4]
        have hu : 2 ^ unit f = 2 ^ j * 2 ^ (expField f x.toNat - 1) := by
          rw [← Nat.pow_add]; unfold unit; congr 1; omega
        rw [hmag, hone, hu]
        exact h5

/-- **C99.**  Numbers of greater magnitude, infinities and NaNs give the least integer (the exact result for its own value). -/
theorem rn_large {f : Fmt} (hf : f.Std) (x : BitVec f.w) (hx : f.bias + (f.w - 1) ≤ expField f x.toNat) :
    rn f x = BitVec.intMin f.w := by
  have g := good_of hf
  have hw := g.w
  obtain ⟨e, s, h1, h2, h3, h4⟩ := explode_spec g x
  unfold rn
  rw [h1]
  dsimp only
  rw [if_pos (by omega)]
  apply BitVec.eq_of_toNat_eq
  rw [negmask_toNat g, BitVec.toNat_intMin, Nat.mod_eq_of_lt]
  have := pow_w g
  have := Nat.two_pow_pos (f.w - 1)
  omega

/-- 2.5, -3.5, 0.5, 0.75. -/
example : (rn dbl 0x4004000000000000#64).toInt = 2 ∧ (rn dbl 0xc00c000000000000#64).toInt = -4 ∧
    (rn dbl 0x3fe0000000000000#64).toInt = 0 ∧ (rn flt 0x3f400000#32).toInt = 1 := by decide +kernel
example : expField dbl (0xc00c000000000000#64).toNat < dbl.bias + (dbl.w - 1) := by decide +kernel

end Verif.Round
