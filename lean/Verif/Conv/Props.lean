import Verif.Conv.Widen

/-!
# C101: Narrowing
-/

namespace Verif.Conv

open Verif.Endian (shl)
open Verif.Flt
open Verif.Round

/-! ## Lemmas -/

theorem and_pow (a k : Nat) (h : a < 2 ^ k) : a &&& 2 ^ k = 0 := by
  apply Nat.eq_of_testBit_eq
  intro i
  rw [Nat.testBit_and, Nat.testBit_two_pow]
  by_cases c : k = i
  · subst c; rw [Nat.testBit_lt_two_pow h]; simp
  · simp [c]

theorem shl23 : shl 1#32 23 = 0x800000#32 := by decide
theorem shl24 : shl 1#32 24 = 0x1000000#32 := by decide

theorem and_pow32 (t : BitVec 32) (k : Nat) (p : BitVec 32) (hp : p.toNat = 2 ^ k) (h : t.toNat < 2 ^ k) : t &&& p = 0#32 := by
  apply BitVec.eq_of_toNat_eq
  rw [BitVec.toNat_and, hp, and_pow _ _ h]
  simp

theorem shr64 (x : BitVec 64) (n : Nat) (hn : n < 64) : (shr x n).toNat = x.toNat / 2 ^ n := shr_toNat gd x n hn

theorem round_at (s : BitVec 64) (k : Nat) (h0 : 30 ≤ k) (h1 : k < 1000) (hs : s.toNat < 2 ^ 53) :
    (ushr s (BitVec.ofNat 64 k)).toNat + (needRoundAway 0#64 s (BitVec.ofNat 64 k)).toNat = rne s.toNat k ∧
      (ushr s (BitVec.ofNat 64 k)).toNat < 2 ^ 23 := by
  have hk : (BitVec.ofNat 64 k).toNat = k := by rw [BitVec.toNat_ofNat, Nat.mod_eq_of_lt (by omega)]
  have hpk : 2 ^ 30 ≤ 2 ^ k := Nat.pow_le_pow_right (by decide) h0
  by_cases c : k < 64
  · have e : (ushr s (BitVec.ofNat 64 k)).toNat = s.toNat / 2 ^ k := by
      unfold ushr
      rw [hk, if_neg (by omega), shr64 _ _ c]
    rw [e, needRoundAway_spec s k (by omega) c]
    refine ⟨rfl, ?_⟩
    rw [Nat.div_lt_iff_lt_mul (Nat.two_pow_pos _)]
    exact Nat.lt_of_lt_of_le hs (Nat.le_trans (show 2 ^ 53 ≤ 2 ^ 23 * 2 ^ 30 by decide) (Nat.mul_le_mul_left _ hpk))
  · have e : ushr s (BitVec.ofNat 64 k) = 0#64 := by
      unfold ushr
      rw [hk, if_pos (by omega)]
    have hki : (BitVec.ofNat 64 k).toInt = k := by
      rw [BitVec.toInt_eq_toNat_of_lt] <;> rw [hk]; omega
    have hn : needRoundAway 0#64 s (BitVec.ofNat 64 k) = false := by
      by_cases c2 : k = 64
      · subst c2
        have hl : s &&& ushl 1#64 (BitVec.ofNat 64 64 - 1#64) = 0#64 := by
          apply BitVec.eq_of_toNat_eq
          rw [BitVec.toNat_and, show (ushl 1#64 (BitVec.ofNat 64 64 - 1#64)).toNat = 2 ^ 63 by decide,
            and_pow _ _ (Nat.lt_trans hs (by decide))]
          simp
        unfold needRoundAway
        rw [hki, if_neg (by decide)]
        dsimp only
        rw [hl]
        rfl
      · unfold needRoundAway
        rw [hki, if_pos (by omega)]
        dsimp only
        rw [BitVec.zero_and]
        rfl
    have hr : rne s.toNat k = 0 := by
      have h64 : 2 ^ 64 ≤ 2 ^ k := Nat.pow_le_pow_right (by decide) (by omega)
      have hlt : 2 * s.toNat < 2 ^ k := by omega
      unfold rne
      rw [Nat.mod_eq_of_lt (by omega), Nat.div_eq_of_lt (by omega), if_neg]
      rintro (h | ⟨h, -⟩) <;> omega
    rw [e, hn, hr]
    decide

theorem round29 (s : BitVec 64) (h0 : 2 ^ 52 ≤ s.toNat) (hs : s.toNat < 2 ^ 53) :
    (shr s 29).toNat + (needRoundAway 0#64 s 29#64).toNat = rne s.toNat 29 ∧
      (shr s 29).toNat < 2 ^ 24 ∧ 2 ^ 23 ≤ (shr s 29).toNat := by
  rw [shr64 _ _ (by decide)]
  refine ⟨needRoundAway_spec s 29 (by decide) (by decide), ?_, ?_⟩ <;> omega

theorem set32 (t : BitVec 64) (h : t.toNat < 2 ^ 32) : (t.setWidth 32).toNat = t.toNat := by
  rw [BitVec.toNat_setWidth, Nat.mod_eq_of_lt h]

theorem succ32 (t : BitVec 32) (h : t.toNat < 2 ^ 24) : (t + 1#32).toNat = t.toNat + 1 := by
  have : (1#32).toNat = 1 := by decide
  rw [BitVec.toNat_add, this, Nat.mod_eq_of_lt]; omega

theorem shr_top : (shr 0x1000000#32 1).toNat = 2 ^ 23 := by decide

attribute [local irreducible] assem64 assem32 explode64 explode32 needRoundAway ushr shl shr

theorem assem_top (n : Bool) (t : BitVec 32) (k : Nat) (ht : t.toNat = k) (hk : k ≤ 2 ^ 23) (e : BitVec 32) (he : e = if k = 2 ^ 23 then -126#32 else -127#32) :
    neg flt (assem32 n e t).toNat = n ∧ Finite flt (assem32 n e t).toNat ∧ magnitude flt (assem32 n e t).toNat = k := by
  by_cases c : k = 2 ^ 23
  · rw [if_pos c] at he
    subst he
    obtain ⟨z1, z2, z3⟩ := normal32 n (-126#32) t 1 k (by decide) ht (by decide) (by decide) (by omega) (by omega)
    exact ⟨z1, z2, z3.trans (by simp)⟩
  · rw [if_neg c] at he
    subst he
    obtain ⟨z1, z2, z3⟩ := denormal32 n t (by omega)
    exact ⟨z1, z2, z3.trans ht⟩

theorem narrowSmall_spec (n : Bool) (e s : BitVec 64) (E : Nat) (he : e.toInt = (E : Int) - 1023) (h0 : 1 ≤ E) (h1 : E ≤ 896)
    (hs : s.toNat < 2 ^ 53) :
    neg flt (narrowSmall n e s).toNat = n ∧ Finite flt (narrowSmall n e s).toNat ∧
      magnitude flt (narrowSmall n e s).toNat = rne s.toNat (926 - E) := by
  have c1 : e ≠ -1023#64 := by
    rintro rfl
    have : (-1023#64).toInt = -1023 := by decide
    omega
  have hsh : 29#64 + (-126#64 - e) = BitVec.ofNat 64 (926 - E) := by
    apply BitVec.eq_of_toInt_eq
    have a1 : (29#64).toInt = 29 := by decide
    have a2 : (-126#64).toInt = -126 := by decide
    have a3 : (BitVec.ofNat 64 (926 - E)).toInt = ((926 - E : Nat) : Int) := by
      have : (BitVec.ofNat 64 (926 - E)).toNat = 926 - E := by rw [BitVec.toNat_ofNat, Nat.mod_eq_of_lt (by omega)]
      rw [BitVec.toInt_eq_toNat_of_lt] <;> rw [this]; omega
    have a4 : (-126#64 - e).toInt = 897 - E := by
      rw [BitVec.toInt_sub, a2, he, Int.bmod_eq_of_le] <;> omega
    rw [BitVec.toInt_add, a1, a4, a3, Int.bmod_eq_of_le] <;> omega
  unfold narrowSmall
  rw [if_neg c1]
  dsimp only
  rw [hsh]
  obtain ⟨r1, r2⟩ := round_at s (926 - E) (by omega) (by omega) hs
  have hts := set32 (ushr s (BitVec.ofNat 64 (926 - E))) (Nat.lt_trans r2 (by decide))
  clear hsh c1 he
  generalize ushr s (BitVec.ofNat 64 (926 - E)) = t at *
  generalize t.setWidth 32 = u at *
  cases hb : needRoundAway 0#64 s (BitVec.ofNat 64 (926 - E)) with
  | false =>
    rw [hb] at r1
    rw [if_neg (by decide)]
    have r1' : t.toNat = rne s.toNat (926 - E) := r1
    exact assem_top n u _ (hts.trans r1') (by omega) _ (by rw [if_neg (by omega)])
  | true =>
    rw [hb] at r1
    rw [if_pos rfl]
    have r1' : t.toNat + 1 = rne s.toNat (926 - E) := r1
    have hsu := succ32 u (by omega)
    by_cases c : t.toNat + 1 = 2 ^ 23
    · have hu : u + 1#32 = 0x800000#32 := BitVec.eq_of_toNat_eq (by rw [hsu, hts, c]; decide)
      rw [if_pos (by rw [hu, shl23]; decide)]
      exact assem_top n (u + 1#32) _ (by rw [hsu, hts]; exact r1') (by omega) _ (by rw [if_pos (by omega)]; decide)
    · have hz := and_pow32 (u + 1#32) 23 (shl 1#32 23) (by rw [shl23]; decide) (by omega)
      rw [if_neg (by rw [hz]; simp)]
      exact assem_top n (u + 1#32) _ (by rw [hsu, hts]; exact r1') (by omega) _ (by rw [if_neg (by omega)])

/-- The middle part of `narrow`. -/
theorem mid_spec (te : BitVec 32) (s : BitVec 64) (E : Nat) (he : te.toInt = (E : Int) - 1023) (h0 : 896 ≤ E) (h1 : E ≤ 1150)
    (hs0 : 2 ^ 52 ≤ s.toNat) (hs : s.toNat < 2 ^ 53) (p : BitVec 32 × BitVec 32)
    (hp : p = if needRoundAway 0#64 s 29#64 then
        if (shr s 29).setWidth 32 + 1#32 &&& shl 1#32 24 ≠ 0#32 then (te + 1#32, shr ((shr s 29).setWidth 32 + 1#32) 1)
        else (te, (shr s 29).setWidth 32 + 1#32)
      else (te, (shr s 29).setWidth 32)) :
    2 ^ 23 ≤ rne s.toNat 29 ∧ rne s.toNat 29 ≤ 2 ^ 24 ∧
    p.1.toInt = (E : Int) - 1023 + (if rne s.toNat 29 = 2 ^ 24 then 1 else 0) ∧
    p.2.toNat = if rne s.toNat 29 = 2 ^ 24 then 2 ^ 23 else rne s.toNat 29 := by
  obtain ⟨r1, r2, r3⟩ := round29 s hs0 hs
  have hts := set32 (shr s 29) (Nat.lt_trans r2 (by decide))
  generalize shr s 29 = t at *
  generalize t.setWidth 32 = u at *
  cases hb : needRoundAway 0#64 s 29#64 with
  | false =>
    rw [hb] at r1 hp
    rw [if_neg (by decide)] at hp
    subst hp
    have r1' : t.toNat = rne s.toNat 29 := r1
    rw [if_neg (by omega), if_neg (by omega)]
    refine ⟨by omega, by omega, by dsimp only; omega, ?_⟩
    exact hts.trans r1'
  | true =>
    rw [hb] at r1 hp
    rw [if_pos rfl] at hp
    have r1' : t.toNat + 1 = rne s.toNat 29 := r1
    have hsu := succ32 u (by omega)
    by_cases c : t.toNat + 1 = 2 ^ 24
    · have hu : u + 1#32 = 0x1000000#32 := BitVec.eq_of_toNat_eq (by rw [hsu, hts, c]; decide)
      rw [hu, shl24, if_pos (by decide)] at hp
      subst hp
      rw [if_pos (by omega), if_pos (by omega)]
      refine ⟨by omega, by omega, ?_, shr_top⟩
      have : (1#32).toInt = 1 := by decide
      dsimp only
      rw [BitVec.toInt_add, this, he, Int.bmod_eq_of_le] <;> omega
    · have hz := and_pow32 (u + 1#32) 24 (shl 1#32 24) (by rw [shl24]; decide) (by omega)
      rw [hz, if_neg (by simp)] at hp
      subst hp
      rw [if_neg (by omega), if_neg (by omega)]
      refine ⟨by omega, by omega, by dsimp only; omega, ?_⟩
      dsimp only
      rw [hsu, hts, r1']

theorem log_of (S E : Nat) (h0 : 1 ≤ E) (h1 : 2 ^ 52 ≤ S) (h2 : S < 2 ^ 53) : (S * 2 ^ (E - 1)).log2 = E + 51 := by
  have hp := Nat.two_pow_pos (E - 1)
  have hne : S * 2 ^ (E - 1) ≠ 0 := Nat.mul_ne_zero (by omega) (by omega)
  rw [Nat.log2_eq_iff hne]
  constructor
  · have : 2 ^ (E + 51) = 2 ^ 52 * 2 ^ (E - 1) := by rw [← Nat.pow_add, show 52 + (E - 1) = E + 51 by omega]
    rw [this]; exact Nat.mul_le_mul_right _ h1
  · have : 2 ^ (E + 51 + 1) = 2 ^ 53 * 2 ^ (E - 1) := by rw [← Nat.pow_add, show 53 + (E - 1) = E + 51 + 1 by omega]
    rw [this]; exact Nat.mul_lt_mul_of_pos_right h2 hp

theorem limit_flt : limit flt = 2 ^ 24 * 2 ^ 253 := by decide +kernel

/-- A carry out of 24 bits is a carry out of 23 bits, too. -/
theorem carry_twice (S : Nat) (h : S < 2 ^ 53) (c : rne S 29 = 2 ^ 24) : rne S 30 = 2 ^ 23 := by
  unfold rne at *
  have h29 : (2 : Nat) ^ 29 = 536870912 := by decide
  have h30 : (2 : Nat) ^ 30 = 1073741824 := by decide
  have h24 : (2 : Nat) ^ 24 = 16777216 := by decide
  have h23 : (2 : Nat) ^ 23 = 8388608 := by decide
  have h53 : (2 : Nat) ^ 53 = 9007199254740992 := by decide
  rw [h29, h24] at c
  rw [h53] at h
  rw [h30, h23]
  split at c <;> split <;> omega

/-- The distance of neighbours around a number of `v` units of 64 bits, as a power of two of units of 32 bits: 24 bits are kept. -/
def spacing (v : Nat) : Nat := v.log2 - 948

/-- Whether the number `b` of 32 bits is `v` units of 64 bits, rounded to the nearest, the even one of two; too large ones become
infinite. -/
def Rounded (v b : Nat) : Prop := ∃ n : Nat, Nearest (n : Int) (v : Int) ((2 ^ (925 + spacing v) : Nat) : Int) ∧
  (n * 2 ^ spacing v < limit flt → Finite flt b ∧ magnitude flt b = n * 2 ^ spacing v) ∧
  (limit flt ≤ n * 2 ^ spacing v → expField flt b = 255 ∧ mantField flt b = 0)

theorem small_rounded (S E b : Nat) (h0 : 1 ≤ E) (h1 : E ≤ 896) (hs0 : 2 ^ 52 ≤ S) (hs : S < 2 ^ 53) (hf : Finite flt b)
    (hm : magnitude flt b = rne S (926 - E)) : Rounded (S * 2 ^ (E - 1)) b := by
  have hsp : spacing (S * 2 ^ (E - 1)) = 0 := by unfold spacing; rw [log_of S E h0 hs0 hs]; omega
  refine ⟨rne S (926 - E), ?_, ?_, ?_⟩
  · have h := rne_nearest S (926 - E) (2 ^ (E - 1)) (Nat.two_pow_pos _)
    rw [← Nat.pow_add, show 926 - E + (E - 1) = 925 + 0 by omega] at h
    rw [hsp]; exact h
  · intro _
    rw [hsp]
    exact ⟨hf, hm.trans (Nat.mul_one _).symm⟩
  · intro h
    exfalso
    have hF := mant_lt flt b
    have hb : rne S (926 - E) ≤ 2 ^ 24 := by
      have hd : S / 2 ^ (926 - E) ≤ S / 2 ^ 30 := Nat.div_le_div_left (Nat.pow_le_pow_right (by decide) (by omega)) (by decide)
      have hd2 : S / 2 ^ 30 < 2 ^ 23 := by omega
      unfold rne
      split <;> omega
    rw [hsp, limit_flt] at h
    have h' : 2 ^ 24 * 2 ^ 253 ≤ 2 ^ 24 * 1 := Nat.le_trans h (Nat.mul_le_mul_right _ hb)
    exact absurd h' (by decide +kernel)

set_option exponentiation.threshold 1000 in
/-- **C101, partial.** Narrowing a number less than `2^1023` rounds to the nearest, the even one of two, also to denormal
numbers; numbers too large become infinite. -/
theorem narrow_partial (x : BitVec 64) (hx : expField dbl x.toNat < 2046) :
    neg flt (narrow x).toNat = neg dbl x.toNat ∧ Rounded (magnitude dbl x.toNat) (narrow x).toNat := by
  obtain ⟨e, s, h1, h2, h4⟩ := explode64_spec x
  have hF : mantField dbl x.toNat < 2 ^ 52 := mant_lt dbl x.toNat
  have hm : expField dbl x.toNat ≠ 0 → magnitude dbl x.toNat = s.toNat * 2 ^ (expField dbl x.toNat - 1) := by
    intro h
    unfold magnitude; rw [if_neg h, h4, if_neg h]; rfl
  have hm0 : expField dbl x.toNat = 0 → magnitude dbl x.toNat < 2 ^ 52 := by
    intro h
    unfold magnitude; rw [if_pos h]; exact hF
  unfold narrow
  rw [h1]
  dsimp only
  clear h1
  generalize magnitude dbl x.toNat = X at *
  generalize neg dbl x.toNat = n at *
  generalize expField dbl x.toNat = E at *
  generalize mantField dbl x.toNat = F at *
  by_cases hE0 : E = 0
  · subst hE0
    have he : e = -1023#64 := BitVec.eq_of_toInt_eq (by rw [h2]; decide)
    rw [if_neg (by rw [h2]; decide), if_neg (by rw [h2]; decide)]
    unfold narrowSmall
    rw [if_pos he]
    obtain ⟨z1, z2, z3⟩ := denormal32 n 0#32 (by decide)
    refine ⟨z1, 0, ?_, ?_, ?_⟩
    · have hX := hm0 rfl
      have hp : 2 ^ 925 ≤ 2 ^ (925 + spacing X) := Nat.pow_le_pow_right (by decide) (by omega)
      have hX2 : X * 2 < 2 ^ 925 := Nat.lt_trans (Nat.mul_lt_mul_of_pos_right hX (by decide)) (by decide +kernel)
      generalize 2 ^ (925 + spacing X) = P at *
      generalize 2 ^ 925 = Q at *
      clear z1 z2 z3 he h2 h4
      unfold Nearest
      refine ⟨by omega, by omega, fun h => by omega⟩
    · intro _
      refine ⟨z2, z3.trans ?_⟩
      rw [Nat.zero_mul]; decide
    · intro h
      rw [Nat.zero_mul, limit_flt] at h
      exact absurd h (by decide +kernel)
  have hX := hm hE0
  rw [if_neg hE0] at h4
  have hs0 : 2 ^ 52 ≤ s.toNat := by omega
  have hs : s.toNat < 2 ^ 53 := by omega
  subst hX
  clear hm hm0 h4
  have hsp : spacing (s.toNat * 2 ^ (E - 1)) = E + 51 - 948 := by unfold spacing; rw [log_of _ E (by omega) hs0 hs]
  have hnear : 897 ≤ E → Nearest (rne s.toNat 29 : Int) ((s.toNat * 2 ^ (E - 1) : Nat) : Int)
      ((2 ^ (925 + spacing (s.toNat * 2 ^ (E - 1))) : Nat) : Int) := by
    intro h
    have h := rne_nearest s.toNat 29 (2 ^ (E - 1)) (Nat.two_pow_pos _)
    rw [← Nat.pow_add, show 29 + (E - 1) = 925 + (E + 51 - 948) by omega] at h
    rw [hsp]; exact h
  by_cases c1 : 128 ≤ e.toInt
  · rw [if_pos c1]
    have hne : ¬(e = 1023#64 ∧ s ≠ 0#64) := by
      rintro ⟨rfl, -⟩
      have : (1023#64).toInt = 1023 := by decide
      omega
    rw [if_neg hne]
    obtain ⟨z1, z2, z3⟩ := fields32 n 128#32 0#32 255 (by decide) (by decide) (by decide)
    obtain ⟨r1, r2, r3⟩ := round29 s hs0 hs
    refine ⟨z1, rne s.toNat 29, hnear (by omega), ?_, fun _ => ⟨z2, z3⟩⟩
    intro h
    exfalso
    rw [hsp, limit_flt] at h
    have hp : 2 ^ 254 ≤ 2 ^ (E + 51 - 948) := Nat.pow_le_pow_right (by decide) (by omega)
    have h5 : 2 ^ 23 * 2 ^ 254 ≤ rne s.toNat 29 * 2 ^ (E + 51 - 948) := Nat.mul_le_mul (by omega) hp
    have h6 : 2 ^ 23 * 2 ^ 254 < 2 ^ 24 * 2 ^ 253 := Nat.lt_of_le_of_lt h5 h
    exact absurd h6 (by decide +kernel)
  rw [if_neg c1]
  by_cases c2 : -127 ≤ e.toInt
  · rw [if_pos c2]
    have hte : (e.setWidth 32).toInt = (E : Int) - 1023 := by
      clear hnear hsp hs hs0 c1 hE0
      have a1 := BitVec.toInt_eq_toNat_cond e
      have a2 := BitVec.toInt_eq_toNat_cond (e.setWidth 32)
      rw [BitVec.toNat_setWidth] at a2
      have a3 := e.isLt
      rw [h2] at a1
      rw [a2]
      split at a1 <;> split <;> omega
    obtain ⟨k1, k2, k3, k4⟩ := mid_spec (e.setWidth 32) s E hte (by omega) (by omega) hs0 hs _ rfl
    generalize hp : (if needRoundAway 0#64 s 29#64 = true then
        if (shr s 29).setWidth 32 + 1#32 &&& shl 1#32 24 ≠ 0#32 then (e.setWidth 32 + 1#32, shr ((shr s 29).setWidth 32 + 1#32) 1)
        else (e.setWidth 32, (shr s 29).setWidth 32 + 1#32)
      else (e.setWidth 32, (shr s 29).setWidth 32)) = p at *
    obtain ⟨te, ts⟩ := p
    clear hp hte
    dsimp only at k3 k4 ⊢
    by_cases c3 : -126 ≤ te.toInt
    · rw [if_pos c3]
      by_cases hE : E = 896
      · subst hE
        have hc : rne s.toNat 29 = 2 ^ 24 := by
          by_contra hc
          rw [if_neg hc] at k3
          omega
        rw [if_pos hc] at k3 k4
        obtain ⟨z1, z2, z3⟩ := normal32 n te ts 1 (2 ^ 23) (by omega) k4 (by decide) (by decide) (by decide) (by decide)
        exact ⟨z1, small_rounded s.toNat 896 _ (by decide) (by decide) hs0 hs z2 (z3.trans (by rw [carry_twice _ hs hc]))⟩
      · have hE' : 897 ≤ E := by omega
        by_cases hc : rne s.toNat 29 = 2 ^ 24
        · rw [if_pos hc] at k3 k4
          by_cases hEt : E = 1150
          · obtain ⟨z1, z2, z3⟩ := fields32 n te ts 255 (by omega) (by decide) (by decide)
            refine ⟨z1, rne s.toNat 29, hnear hE', ?_, fun _ => ⟨z2, z3.trans (by rw [k4])⟩⟩
            intro h
            exfalso
            rw [hsp, hc, limit_flt, hEt] at h
            exact absurd h (by decide +kernel)
          · obtain ⟨z1, z2, z3⟩ := normal32 n te ts (E - 895) (2 ^ 23) (by omega) k4 (by omega) (by omega) (by decide) (by decide)
            have hval : 2 ^ 23 * 2 ^ (E - 895 - 1) = rne s.toNat 29 * 2 ^ (E + 51 - 948) := by
              rw [hc, ← Nat.pow_add, ← Nat.pow_add, show 23 + (E - 895 - 1) = 24 + (E + 51 - 948) by omega]
            refine ⟨z1, rne s.toNat 29, hnear hE', fun _ => ⟨z2, ?_⟩, ?_⟩
            · rw [hsp]; exact z3.trans hval
            · intro h
              exfalso
              rw [hsp, hc, limit_flt] at h
              have h5 := Nat.le_of_mul_le_mul_left h (by decide)
              have h6 : 2 ^ (E + 51 - 948) < 2 ^ 253 := Nat.pow_lt_pow_right (by decide) (by omega)
              exact absurd h6 (Nat.not_lt.mpr h5)
        · rw [if_neg hc] at k3 k4
          obtain ⟨z1, z2, z3⟩ := normal32 n te ts (E - 896) _ (by omega) k4 (by omega) (by omega) k1 (by omega)
          refine ⟨z1, rne s.toNat 29, hnear hE', fun _ => ⟨z2, ?_⟩, ?_⟩
          · rw [hsp, show E + 51 - 948 = E - 896 - 1 by omega]; exact z3
          · intro h
            exfalso
            rw [hsp, limit_flt] at h
            have h6 : 2 ^ (E + 51 - 948) ≤ 2 ^ 253 := Nat.pow_le_pow_right (by decide) (by omega)
            have h7 : rne s.toNat 29 * 2 ^ (E + 51 - 948) < 2 ^ 24 * 2 ^ 253 :=
              Nat.lt_of_le_of_lt (Nat.mul_le_mul_left _ h6) (Nat.mul_lt_mul_of_pos_right (by omega) (Nat.two_pow_pos _))
            exact absurd h7 (Nat.not_lt.mpr h)
    · rw [if_neg c3]
      have hE : E = 896 := by
        split at k3 <;> omega
      obtain ⟨z1, z2, z3⟩ := narrowSmall_spec n e s E h2 (by omega) (by omega) hs
      exact ⟨z1, small_rounded s.toNat E _ (by omega) (by omega) hs0 hs z2 z3⟩
  · rw [if_neg c2]
    obtain ⟨z1, z2, z3⟩ := narrowSmall_spec n e s E h2 (by omega) (by omega) hs
    exact ⟨z1, small_rounded s.toNat E _ (by omega) (by omega) hs0 hs z2 z3⟩

/-- 1.1 is rounded up; 1.5 and 2.5 times the least positive number become 2; `2^128` becomes infinite. -/
example : (narrow 0x3ff199999999999a#64).toNat = 0x3f8ccccd ∧ (narrow 0x36a8000000000000#64).toNat = 2 ∧
    (narrow 0x36b4000000000000#64).toNat = 2 ∧ (narrow 0x47f0000000000000#64).toNat = 0x7f800000 := by decide +kernel
example : expField dbl (0x3ff199999999999a#64).toNat < 2046 := by decide +kernel
example : Finite flt (0x00000001#32).toNat ∧ ¬Finite flt (0x7fc00000#32).toNat := by unfold Finite; decide +kernel

/-! ## Violations -/

/-- The full claim about widening: it keeps infinities. -/
def WidenInfinity : Prop := ∀ x : BitVec 32, expField flt x.toNat = 255 → mantField flt x.toNat = 0 → mantField dbl (widen x).toNat = 0

/-- The full claim about narrowing: all finite numbers are rounded, and NaNs stay NaNs. -/
def NarrowFinite : Prop := ∀ x : BitVec 64, Finite dbl x.toNat → Rounded (magnitude dbl x.toNat) (narrow x).toNat

/-- See `NarrowFinite`. -/
def NarrowNan : Prop := ∀ x : BitVec 64, expField dbl x.toNat = 2047 → mantField dbl x.toNat ≠ 0 → mantField flt (narrow x).toNat ≠ 0

/-- C101 is violated: infinity is widened to a NaN. -/
theorem widen_infinity_violated : ¬WidenInfinity := by
  intro h
  exact absurd (h 0x7f800000#32 (by decide +kernel) (by decide +kernel)) (by decide +kernel)

/-- `2^1023` is narrowed to a NaN. -/
theorem large_nan : expField flt (narrow 0x7fe0000000000000#64).toNat = 255 ∧ mantField flt (narrow 0x7fe0000000000000#64).toNat = 1 := by decide +kernel

/-- C101 is violated: numbers from `2^1023` are narrowed to NaNs. -/
theorem narrow_large_violated : ¬NarrowFinite := by
  intro h
  obtain ⟨n, -, h1, h2⟩ := h 0x7fe0000000000000#64 (by unfold Finite; decide +kernel)
  obtain ⟨l1, l2⟩ := large_nan
  rcases Nat.lt_or_ge (n * 2 ^ spacing (magnitude dbl (0x7fe0000000000000#64).toNat)) (limit flt) with c | c
  · exact (h1 c).1 l1
  · have := (h2 c).2
    rw [l2] at this
    exact absurd this (by decide)

/-- C101 is violated: NaNs are narrowed to infinities. -/
theorem narrow_nan_violated : ¬NarrowNan := by
  intro h
  exact h flt64nan (by decide +kernel) (by decide +kernel) (by decide +kernel)

end Verif.Conv
