import Verif.Ctbig.Props

/-!
# C89: RSA encryption

`rsa_violated`, `rsa_refuses`, `rsa_long`, `rsa_partial`.
-/

namespace Verif.Ctbig

open Endian (beVal)

theorem skipZero_ok (buf : List Byte) : ∀ (k i : Nat), buf.length ≤ i + k →
    skipZero buf i = .abort ∨ ∃ j, ∃ h : j < buf.length, skipZero buf i = .ok j ∧ i ≤ j ∧ buf[j] ≠ 0
  | 0, i, h => by
    unfold skipZero
    rw [dif_neg (by omega)]
    exact .inl rfl
  | k + 1, i, h => by
    unfold skipZero
    by_cases h1 : i < buf.length
    · rw [dif_pos h1]
      by_cases h2 : buf[i] = 0
      · rw [if_pos h2]
        rcases skipZero_ok buf k (i + 2) (by omega) with h3 | ⟨j, a, b, c, d⟩
        · exact .inl h3
        · exact .inr ⟨j, a, b, by omega, d⟩
      · rw [if_neg h2]
        exact .inr ⟨i, h1, rfl, by omega, h2⟩
    · rw [dif_neg h1]
      exact .inl rfl

theorem lead_lt (b : Byte) (h : b ≠ 0) :
    (([0x80, 0xc0, 0xe0, 0xf0, 0xf8, 0xfc, 0xfe, 0xff] : List Byte).takeWhile fun x => b &&& x = 0).length < 8 := by
  revert h b
  decide +kernel

theorem lead_zero (b : Byte) (h : 128 ≤ b.toNat) :
    (([0x80, 0xc0, 0xe0, 0xf0, 0xf8, 0xfc, 0xfe, 0xff] : List Byte).takeWhile fun x => b &&& x = 0).length = 0 := by
  revert h b
  decide +kernel

theorem bitcount_cases (buf : List Byte) : bitcount buf = .abort ∨ ∃ z, z < 8 ∧ 0 < buf.length ∧ bitcount buf = .ok (8 * buf.length - z) := by
  unfold bitcount
  rcases skipZero_ok buf buf.length 0 (by omega) with h | ⟨j, hj, h, _, hnz⟩
  · rw [h]; exact .inl rfl
  · rw [h, Res.bind_ok, rdChk_ok hj, Res.bind_ok]
    exact .inr ⟨_, lead_lt _ hnz, by omega, rfl⟩

theorem bitcount_full (b : Byte) (bs : List Byte) (h : 128 ≤ b.toNat) : bitcount (b :: bs) = .ok (8 * (bs.length + 1)) := by
  have hb : b ≠ 0 := by rintro rfl; simp at h
  unfold bitcount skipZero
  rw [dif_pos (by simp)]
  rw [List.getElem_cons_zero, if_neg hb, Res.bind_ok, rdChk_ok (by simp), Res.bind_ok, List.getElem_cons_zero]
  dsimp only
  rw [lead_zero b h, List.length_cons, Nat.sub_zero]

theorem growmod_abort {a m : Big} {n x y : Nat} (k : W) (hn : 0 < n) (ha : Is a n x) (hm : Is m n y) (h : n % 32 ≠ 0 ∨ y < 2 ^ (n - 1)) :
    growmod a k m = .abort := by
  have hl := hm.len
  rw [ndig_eq n hn] at hl
  unfold growmod
  rw [checksz_ok ha hm, Res.bind_ok]
  by_cases h1 : a.dig.length ≤ 1
  · rw [if_pos h1]
  · rw [if_neg h1, rdChk_ok (by omega), Res.bind_ok]
    by_cases h2 : m.dig[m.dig.length - 1]'(by omega) &&& ((1 : W) <<< 31) = 0
    · rw [if_pos h2]
    · rw [if_neg h2]
      rcases h with h | h
      · rw [hm.nbit, if_pos h]
      · by_cases h3 : n % 32 = 0
        · exfalso
          apply h2
          have hd := val_digit m.dig (m.dig.length - 1) (by omega)
          rw [hm.val] at hd
          generalize m.dig[m.dig.length - 1]'(by omega) = d at hd ⊢
          have hp : y < (2 ^ 32) ^ (m.dig.length - 1) * 2 ^ 31 := by
            rw [bpow, ← Nat.pow_add, show 32 * (m.dig.length - 1) + 31 = n - 1 by omega]
            exact h
          have hlt : d.toNat < 2 ^ 31 := by
            rw [← hd]
            exact Nat.lt_of_le_of_lt (Nat.mod_le _ _) (Nat.div_lt_of_lt_mul hp)
          apply BitVec.eq_of_toNat_eq
          rw [BitVec.toNat_and, show ((1 : W) <<< 31).toNat = 2 ^ 31 from rfl]
          apply Nat.eq_of_testBit_eq
          intro i
          rw [Nat.testBit_and, Nat.testBit_two_pow]
          by_cases hi : 31 = i
          · subst hi
            rw [Nat.testBit_lt_two_pow hlt]
            simp
          · simp [hi]
        · rw [hm.nbit, if_pos h3]

theorem ctmodpow_abort {r a e m : Big} {n x y : Nat} (hn : 0 < n) (ha : Is a n x) (hm : Is m n y) (h : n % 32 ≠ 0 ∨ y < 2 ^ (n - 1)) :
    ctmodpow r a e m = .abort := by
  obtain ⟨l, hl⟩ : ∃ l, m.dig.length = l + 1 := ⟨m.dig.length - 1, by rw [hm.len, ndig_eq n hn]; omega⟩
  unfold ctmodpow tomonty
  rw [rdChk_ok (by omega), Res.bind_ok, checksz_ok ha ha, Res.bind_ok, checksz_ok ha hm, Res.bind_ok]
  generalize m.dig[0]'(by omega) = m0
  rw [hl]
  unfold growLoop
  rw [growmod_abort 0 hn ⟨ha.nbit, ha.len, ha.val, ha.lt⟩ hm h]
  rfl

/-- What RSAES-PKCS1-v1_5 encrypts (RFC 8017, 7.2.1): `00 02 PS 00 M`. -/
def Padded (ps msg : List Byte) : List Byte := 0 :: 2 :: (ps ++ 0 :: msg)

/-- The full claim: for every odd modulus and every message that the RFC allows (at most
eleven bytes less than the modulus has), the result is the padded message to the power
of the exponent modulo the modulus, as the bytes of a number of the modulus's size,
first byte first. The modulus does not begin with a zero byte here. -/
def RsaClaim : Prop := ∀ (g msg e md ps : List Byte), md.head? ≠ some 0 → beVal md % 2 = 1 → msg.length + 11 ≤ md.length →
  ps.length = md.length - msg.length - 3 → e.length ≤ md.length → g.length = md.length →
  ∃ c, rsapub g msg e md ps = .ok c ∧ c.length = md.length ∧ beVal c = beVal (Padded ps msg) ^ beVal e % beVal md

/-- **C89 violated.** Every modulus whose first bit is clear, such as one of 2047 bits
or one that begins with a zero byte, and every modulus whose length is no multiple of
four bytes stops the program. -/
theorem rsa_refuses (g msg e : List Byte) (b : Byte) (bs ps : List Byte) (h : b.toNat < 128 ∨ (bs.length + 1) % 4 ≠ 0) :
    rsapub g msg e (b :: bs) ps = .abort := by
  unfold rsapub
  rcases bitcount_cases (b :: bs) with h1 | ⟨z, hz, _, h1⟩
  · rw [h1]; rfl
  rw [h1, Res.bind_ok]
  dsimp only
  rw [List.length_cons]
  generalize hn : 8 * (bs.length + 1) - z = n
  have hn0 : 0 < n := by omega
  have hpad : pad msg ((n + 7) / 8) ps = .abort ∨ ∃ p, pad msg ((n + 7) / 8) ps = .ok p := by
    unfold pad
    by_cases h1 : ¬ msg.length + 11 < (n + 7) / 8
    · rw [if_pos h1]; exact .inl rfl
    · rw [if_neg h1]
      by_cases h2 : ps.length ≠ (n + 7) / 8 - msg.length - 3
      · rw [if_pos h2]; exact .inl rfl
      · rw [if_neg h2]; exact .inr ⟨_, rfl⟩
  rcases hpad with h2 | ⟨p, h2⟩
  · rw [h2]; rfl
  have mk : ∀ v, mkctbigbe v n = .abort ∨ ∃ x, mkctbigbe v n = .ok x ∧ Is x n (beVal v % 2 ^ n) := by
    intro v
    obtain ⟨c1, c2⟩ := mkctbigbe_ok v n hn0
    by_cases h : (v.length + 3) / 4 ≤ ndig n
    · exact .inr (c1 h)
    · exact .inl (c2 (by omega))
  rw [h2, Res.bind_ok]
  rcases mk p with h3 | ⟨a, h3, ia⟩
  · rw [h3]; rfl
  rw [h3, Res.bind_ok]
  rcases mk e with h4 | ⟨e', h4, ie⟩
  · rw [h4]; rfl
  rw [h4, Res.bind_ok]
  rcases mk (b :: bs) with h5 | ⟨m, h5, im⟩
  · rw [h5]; rfl
  rw [h5, Res.bind_ok, ctmodpow_abort hn0 ia im]
  · rfl
  · by_cases h6 : n % 32 = 0
    · right
      have hlen : n = 8 * (bs.length + 1) ∧ (bs.length + 1) % 4 = 0 := by omega
      rcases h with h | h
      · refine Nat.lt_of_le_of_lt (Nat.mod_le _ _) ?_
        rw [show b :: bs = [b] ++ bs from rfl, beVal_app]
        have h7 := Endian.beVal_lt bs
        have h8 : beVal [b] = b.toNat := by simp [beVal]
        rw [h8, hlen.1, show 8 * (bs.length + 1) - 1 = 8 * bs.length + 7 by omega, Nat.pow_add, Nat.pow_mul]
        rw [show (2 : Nat) ^ 8 = 256 from rfl]
        generalize (256 : Nat) ^ bs.length = P at h7
        have : b.toNat * P ≤ 127 * P := Nat.mul_le_mul_right _ (by omega)
        omega
      · omega
    · exact .inl h6

/-- **C89 violated.** A message that the RFC allows, eleven bytes shorter than the
modulus, stops the program. -/
theorem rsa_long (g msg e : List Byte) (b : Byte) (bs ps : List Byte) (h : msg.length + 11 = bs.length + 1) :
    rsapub g msg e (b :: bs) ps = .abort := by
  unfold rsapub
  rcases bitcount_cases (b :: bs) with h1 | ⟨z, hz, _, h1⟩
  · rw [h1]; rfl
  rw [h1, Res.bind_ok]
  dsimp only
  unfold pad
  rw [List.length_cons, if_pos (by omega)]
  rfl

/-- **C89 violated.** A modulus of 95 bits stops the program. -/
theorem rsa_violated : ¬ RsaClaim := by
  intro h
  obtain ⟨c, h1, _⟩ := h (List.replicate 12 0) [] [3] (0x7f :: List.replicate 10 0 ++ [1]) (List.replicate 9 1)
    (by decide) (by decide) (by decide) (by decide) (by decide) (by decide)
  rw [List.cons_append, rsa_refuses _ _ _ _ _ _ (.inl (by decide))] at h1
  cases h1

/-- **C89, what holds.** Missing: moduli whose first bit is clear or whose length is no
multiple of four bytes (`rsa_refuses`), the longest messages (`rsa_long`), and the
moduli and messages on which conversion to Montgomery form errs (`grow_violated`). -/
theorem rsa_partial (g msg e ps : List Byte) (b : Byte) (bs : List Byte) (hb : 128 ≤ b.toNat) (h4 : (bs.length + 1) % 4 = 0)
    (hodd : beVal (b :: bs) % 2 = 1) (hm : msg.length + 11 < bs.length + 1) (hps : ps.length = bs.length + 1 - msg.length - 3)
    (he : e.length ≤ bs.length + 1) (hg : g.length = bs.length + 1)
    (hf : ∀ i, i < (bs.length + 1) / 4 →
      let t := beVal (Padded ps msg) * 2 ^ (32 * i) % beVal (b :: bs) / 2 ^ (8 * (bs.length + 1) - 32)
      t ≠ beVal (b :: bs) / 2 ^ (8 * (bs.length + 1) - 32) ∧ t ≠ 2 ^ 31) :
    ∃ c, rsapub g msg e (b :: bs) ps = .ok c ∧ c.length = bs.length + 1 ∧
      beVal c = beVal (Padded ps msg) ^ beVal e % beVal (b :: bs) := by
  unfold rsapub
  rw [bitcount_full b bs hb, Res.bind_ok]
  dsimp only
  generalize hn : 8 * (bs.length + 1) = n at hf ⊢
  have hn0 : 0 < n := by omega
  have hnd : ndig n = (bs.length + 1) / 4 := by unfold ndig; omega
  have hpw : (256 : Nat) ^ (bs.length + 1) = 2 ^ n := by
    rw [← hn, Nat.pow_mul]
  have mk : ∀ v : List Byte, v.length ≤ bs.length + 1 → ∃ x, mkctbigbe v n = .ok x ∧ Is x n (beVal v) := by
    intro v hv
    obtain ⟨x, h1, h2⟩ := (mkctbigbe_ok v n hn0).1 (by omega)
    have : beVal v < 2 ^ n := by
      rw [← hpw]
      exact Nat.lt_of_lt_of_le (Endian.beVal_lt v) (Nat.pow_le_pow_right (by omega) hv)
    rw [Nat.mod_eq_of_lt this] at h2
    exact ⟨x, h1, h2⟩
  have hpad : pad msg ((n + 7) / 8) ps = .ok (Padded ps msg) := by
    unfold pad
    rw [if_neg (by omega), if_neg (by omega)]
    simp [Padded]
  have hplen : (Padded ps msg).length = bs.length + 1 := by
    simp only [Padded, List.length_cons, List.length_append]; omega
  obtain ⟨a, ea, ia⟩ := mk (Padded ps msg) (by omega)
  obtain ⟨x, ex, ix⟩ := mk e he
  obtain ⟨m, em, im⟩ := mk (b :: bs) (by simp)
  rw [hpad, Res.bind_ok, ea, Res.bind_ok, ex, Res.bind_ok, em, Res.bind_ok]
  have hz : Is (ctzero n) n 0 := ⟨rfl, by simp [ctzero], val_zeros _, Nat.two_pow_pos n⟩
  have htop : 2 ^ (n - 1) ≤ beVal (b :: bs) := by
    rw [show b :: bs = [b] ++ bs from rfl, beVal_app]
    have h8 : beVal [b] = b.toNat := by simp [beVal]
    rw [h8, ← hn, show 8 * (bs.length + 1) - 1 = 8 * bs.length + 7 by omega, Nat.pow_add, Nat.pow_mul, show (2 : Nat) ^ 8 = 256 from rfl]
    generalize (256 : Nat) ^ bs.length = P
    have : 128 * P ≤ b.toNat * P := Nat.mul_le_mul_right _ hb
    omega
  have hlt : beVal (Padded ps msg) < beVal (b :: bs) := by
    refine Nat.lt_of_lt_of_le ?_ htop
    have h1 : Padded ps msg = [0] ++ (2 :: (ps ++ 0 :: msg)) := rfl
    have h2 := Endian.beVal_lt (2 :: (ps ++ 0 :: msg))
    have h3 : (2 :: (ps ++ 0 :: msg)).length = bs.length := by
      have := hplen
      rw [h1] at this
      simpa using this
    rw [h1, beVal_app, show beVal [0] = 0 from rfl, Nat.zero_mul, Nat.zero_add]
    refine Nat.lt_of_lt_of_le h2 ?_
    rw [h3, show (256 : Nat) = 2 ^ 8 from rfl, ← Nat.pow_mul]
    exact Nat.pow_le_pow_right (by omega) (by omega)
  obtain ⟨s, es, is⟩ := modpow_partial (by omega) (by omega) hz ia ix im hlt htop hodd (fun i hi => hf i (by omega))
  rw [es, Res.bind_ok]
  obtain ⟨_, c, ec, lc, vc⟩ := (bytes_partial g hn0 is (by omega)).1 (by omega)
  exact ⟨c, ec, by omega, vc⟩

/-- A modulus of 128 bits, the exponent 65537 and a message of three bytes. -/
example : ∃ c, rsapub (List.replicate 16 7) [1, 2, 3] [1, 0, 1]
      (0xc3 :: [0x25, 0x91, 0x0f, 0x33, 0x6b, 0x77, 0x18, 0x90, 0xab, 0xcd, 0xef, 0x12, 0x34, 0x56, 0x79])
      [1, 2, 3, 4, 5, 6, 7, 8, 9, 10] = .ok c ∧ c.length = 16 ∧
    beVal c = beVal (Padded [1, 2, 3, 4, 5, 6, 7, 8, 9, 10] [1, 2, 3]) ^ beVal [1, 0, 1] %
      beVal [0xc3, 0x25, 0x91, 0x0f, 0x33, 0x6b, 0x77, 0x18, 0x90, 0xab, 0xcd, 0xef, 0x12, 0x34, 0x56, 0x79] := by
  have := rsa_partial (List.replicate 16 7) [1, 2, 3] [1, 0, 1] [1, 2, 3, 4, 5, 6, 7, 8, 9, 10] 0xc3
    [0x25, 0x91, 0x0f, 0x33, 0x6b, 0x77, 0x18, 0x90, 0xab, 0xcd, 0xef, 0x12, 0x34, 0x56, 0x79]
    (by decide) (by decide) (by decide) (by decide) (by decide) (by decide) (by decide) (by decide +kernel)
  exact this

end Verif.Ctbig
