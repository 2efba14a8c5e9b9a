import Verif.Utf.Model

namespace Verif.Utf

set_option linter.unusedSimpArgs false

theorem and63 (b : Byte) : (b.setWidth 32 &&& 0x3f#32).toNat = b.toNat % 64 := by
  revert b; decide +kernel

theorem lead_val1 (b : Byte) : leadLen b = 1 →
    (b.setWidth 32 &&& ((1#32 <<< (8 - 1)) - 1#32)).toNat = b.toNat ∧ b.toNat < 128 := by
  revert b; decide +kernel
theorem lead_val2 (b : Byte) : leadLen b = 2 →
    (b.setWidth 32 &&& ((1#32 <<< (8 - 2)) - 1#32)).toNat = b.toNat - 192 ∧ b.toNat < 224 ∧ 192 ≤ b.toNat := by
  revert b; decide +kernel
theorem lead_val3 (b : Byte) : leadLen b = 3 →
    (b.setWidth 32 &&& ((1#32 <<< (8 - 3)) - 1#32)).toNat = b.toNat - 224 ∧ b.toNat < 240 ∧ 224 ≤ b.toNat := by
  revert b; decide +kernel
theorem lead_val4 (b : Byte) : leadLen b = 4 →
    (b.setWidth 32 &&& ((1#32 <<< (8 - 4)) - 1#32)).toNat = b.toNat - 240 ∧ b.toNat < 248 ∧ 240 ≤ b.toNat := by
  revert b; decide +kernel

theorem leadLen_nat (b : Byte) : leadLen b =
    if b.toNat < 128 then 1 else if b.toNat < 192 then 0 else if b.toNat < 224 then 2
    else if b.toNat < 240 then 3 else if b.toNat < 248 then 4 else 0 := by
  revert b; decide +kernel

theorem dec_step (chr : BitVec 32) (b : Byte) (h : chr.toNat < 2 ^ 26) :
    ((chr <<< 6) ||| (b.setWidth 32 &&& 0x3f#32)).toNat = chr.toNat * 64 + b.toNat % 64 := by
  rw [BitVec.toNat_or, and63, BitVec.toNat_shiftLeft, Nat.shiftLeft_eq, Nat.mod_eq_of_lt (by omega),
    ← Nat.shiftLeft_eq, ← Nat.shiftLeft_add_eq_or_of_lt (by omega), Nat.shiftLeft_eq]

theorem charlen_nat (c : Char32) : charlen c = if c.toNat < 0x80 then 1 else if c.toNat < 0x800 then 2
    else if c.toNat < 0x10000 then 3 else if c.toNat < 0x200000 then 4 else 1 := by
  unfold charlen
  simp only [BitVec.lt_def]
  rfl

theorem charlen_pos (c : Char32) : 1 ≤ charlen c := by
  rw [charlen_nat]; (repeat' split) <;> omega

/-- `charstep` on a one-, two-, three- or four-byte sequence, whatever follows. -/
theorem charstep_1 (b : Byte) (t : List Byte) (h : b.toNat < 128) :
    charstep (b :: t) = .ok (BitVec.ofNat 32 b.toNat, t) := by
  have hl : leadLen b = 1 := by rw [leadLen_nat, if_pos h]
  have hv := (lead_val1 b hl).1
  simp only [charstep, List.length_cons, Nat.add_one_ne_zero, ↓reduceIte, rdChk, List.getElem?_cons_zero,
    Res.bind_ok, hl]
  rw [if_neg (by rw [false_or]; omega)]
  simp only [Nat.sub_self, decLoop, Res.bind_ok]
  rw [← List.length_cons (a := b), slice_suffix (by simp)]
  simp only [Res.bind_ok, List.drop_succ_cons, List.drop_zero, Res.pure_eq]
  congr 2
  apply BitVec.eq_of_toNat_eq
  rw [hv, BitVec.toNat_ofNat]
  omega

theorem charstep_2 (b b1 : Byte) (t : List Byte) (h1 : 192 ≤ b.toNat) (h2 : b.toNat < 224) :
    charstep (b :: b1 :: t) = .ok (BitVec.ofNat 32 ((b.toNat - 192) * 64 + b1.toNat % 64), t) := by
  have hl : leadLen b = 2 := by rw [leadLen_nat]; (repeat' split) <;> omega
  have hv := (lead_val2 b hl).1
  simp only [charstep, List.length_cons, Nat.add_one_ne_zero, ↓reduceIte, rdChk, List.getElem?_cons_zero,
    Res.bind_ok, hl]
  rw [if_neg (by rw [false_or]; omega)]
  simp only [decLoop, Res.bind_ok, rdChk, List.getElem?_cons_succ, List.getElem?_cons_zero]
  rw [← List.length_cons (a := b1), ← List.length_cons (a := b), slice_suffix (by simp)]
  simp only [Res.bind_ok, List.drop_succ_cons, List.drop_zero, Res.pure_eq]
  congr 2
  apply BitVec.eq_of_toNat_eq
  rw [dec_step _ _ (by rw [hv]; omega), hv, BitVec.toNat_ofNat]
  omega

theorem charstep_3 (b b1 b2 : Byte) (t : List Byte) (h1 : 224 ≤ b.toNat) (h2 : b.toNat < 240) :
    charstep (b :: b1 :: b2 :: t) =
      .ok (BitVec.ofNat 32 (((b.toNat - 224) * 64 + b1.toNat % 64) * 64 + b2.toNat % 64), t) := by
  have hl : leadLen b = 3 := by rw [leadLen_nat]; (repeat' split) <;> omega
  have hv := (lead_val3 b hl).1
  simp only [charstep, List.length_cons, Nat.add_one_ne_zero, ↓reduceIte, rdChk, List.getElem?_cons_zero,
    Res.bind_ok, hl]
  rw [if_neg (by rw [false_or]; omega)]
  simp only [decLoop, Res.bind_ok, rdChk, List.getElem?_cons_succ, List.getElem?_cons_zero]
  rw [← List.length_cons (a := b2), ← List.length_cons (a := b1), ← List.length_cons (a := b),
    slice_suffix (by simp)]
  simp only [Res.bind_ok, List.drop_succ_cons, List.drop_zero, Res.pure_eq]
  congr 2
  apply BitVec.eq_of_toNat_eq
  have e1 := dec_step (b.setWidth 32 &&& ((1#32 <<< (8 - 3)) - 1#32)) b1 (by rw [hv]; omega)
  rw [dec_step _ _ (by rw [e1, hv]; omega), e1, hv, BitVec.toNat_ofNat]
  omega

theorem charstep_4 (b b1 b2 b3 : Byte) (t : List Byte) (h1 : 240 ≤ b.toNat) (h2 : b.toNat < 248) :
    charstep (b :: b1 :: b2 :: b3 :: t) =
      .ok (BitVec.ofNat 32 ((((b.toNat - 240) * 64 + b1.toNat % 64) * 64 + b2.toNat % 64) * 64 +
        b3.toNat % 64), t) := by
  have hl : leadLen b = 4 := by rw [leadLen_nat]; (repeat' split) <;> omega
  have hv := (lead_val4 b hl).1
  simp only [charstep, List.length_cons, Nat.add_one_ne_zero, ↓reduceIte, rdChk, List.getElem?_cons_zero,
    Res.bind_ok, hl]
  rw [if_neg (by rw [false_or]; omega)]
  simp only [decLoop, Res.bind_ok, rdChk, List.getElem?_cons_succ, List.getElem?_cons_zero]
  rw [← List.length_cons (a := b3), ← List.length_cons (a := b2), ← List.length_cons (a := b1),
    ← List.length_cons (a := b), slice_suffix (by simp)]
  simp only [Res.bind_ok, List.drop_succ_cons, List.drop_zero, Res.pure_eq]
  congr 2
  apply BitVec.eq_of_toNat_eq
  have e1 := dec_step (b.setWidth 32 &&& ((1#32 <<< (8 - 4)) - 1#32)) b1 (by rw [hv]; omega)
  have e2 := dec_step _ b2 (by rw [e1, hv]; omega)
  rw [dec_step _ _ (by rw [e2, e1, hv]; omega), e2, e1, hv, BitVec.toNat_ofNat]
  omega

/-- Invalid lead bytes and truncated sequences. -/
theorem charstep_bad (b : Byte) (t : List Byte)
    (h : leadLen b = 0 ∨ leadLen b > t.length + 1) :
    charstep (b :: t) = .ok (Badchar, t) := by
  simp only [charstep, List.length_cons, Nat.add_one_ne_zero, ↓reduceIte, rdChk, List.getElem?_cons_zero,
    Res.bind_ok]
  rw [if_pos (by omega), ← List.length_cons (a := b), slice_suffix (by simp)]
  simp

/-- On arbitrary non-empty input `charstep` returns, consumes at least one byte and
at least as many as the canonical encoding of the decoded character has. -/
theorem charstep_total (s : List Byte) (hs : s ≠ []) :
    ∃ c n, charstep s = .ok (c, s.drop n) ∧ charlen c ≤ n ∧ 1 ≤ n ∧ n ≤ s.length := by
  obtain ⟨b, t, rfl⟩ := List.exists_cons_of_ne_nil hs
  by_cases hbad : leadLen b = 0 ∨ leadLen b > t.length + 1
  · exact ⟨Badchar, 1, charstep_bad b t hbad, by decide, by omega, by simp⟩
  · rw [not_or] at hbad
    have hl := leadLen_nat b
    split at hl
    · next h =>
      refine ⟨_, 1, charstep_1 b t h, ?_, by omega, by simp⟩
      rw [charlen_nat, BitVec.toNat_ofNat, if_pos (by omega)]
    · split at hl
      · omega
      · split at hl
        · rcases t with _ | ⟨b1, t⟩
          · simp at hbad; omega
          · refine ⟨_, 2, charstep_2 b b1 t (by omega) (by omega), ?_, by omega, by simp⟩
            rw [charlen_nat, BitVec.toNat_ofNat]
            (repeat' split) <;> omega
        · split at hl
          · rcases t with _ | ⟨b1, _ | ⟨b2, t⟩⟩
            · simp at hbad; omega
            · simp at hbad; omega
            · refine ⟨_, 3, charstep_3 b b1 b2 t (by omega) (by omega), ?_, by omega, by simp⟩
              rw [charlen_nat, BitVec.toNat_ofNat]
              (repeat' split) <;> omega
          · split at hl
            · rcases t with _ | ⟨b1, _ | ⟨b2, _ | ⟨b3, t⟩⟩⟩
              · simp at hbad; omega
              · simp at hbad; omega
              · simp at hbad; omega
              · refine ⟨_, 4, charstep_4 b b1 b2 b3 t (by omega) (by omega), ?_, by omega, by simp⟩
                rw [charlen_nat, BitVec.toNat_ofNat]
                (repeat' split) <;> omega
            · omega

/-! ### Encoding -/

theorem enc_cont (c : Char32) :
    (((c &&& 0x3f#32) ||| 0x80#32).setWidth 8 : Byte) = BitVec.ofNat 8 (0x80 + c.toNat % 64) := by
  apply BitVec.eq_of_toNat_eq
  rw [BitVec.toNat_setWidth, BitVec.toNat_or, BitVec.toNat_and]
  have e1 : (0x3f#32).toNat = 2 ^ 6 - 1 := rfl
  have e2 : (0x80#32).toNat = 128 := rfl
  have : ∀ a, a < 64 → a ||| 128 = 128 + a := by decide +kernel
  rw [e1, e2, Nat.and_two_pow_sub_one_eq_mod, this _ (Nat.mod_lt _ (by decide)), BitVec.toNat_ofNat]

theorem enc_lead (c : Char32) (k m : Nat) (hk : k ∈ [(0,128), (0xc0,32), (0xe0,16), (0xf0,8)].map Prod.fst)
    (hm : (k, m) ∈ [(0,128), (0xc0,32), (0xe0,16), (0xf0,8)]) (h : c.toNat < m) :
    ((c ||| BitVec.ofNat 32 k).setWidth 8 : Byte) = BitVec.ofNat 8 (k + c.toNat) := by
  apply BitVec.eq_of_toNat_eq
  rw [BitVec.toNat_setWidth, BitVec.toNat_or, BitVec.toNat_ofNat, BitVec.toNat_ofNat]
  have a0 : ∀ a, a < 128 → (a ||| 0) = 0 + a := by decide +kernel
  have a1 : ∀ a, a < 32 → (a ||| 0xc0) = 0xc0 + a := by decide +kernel
  have a2 : ∀ a, a < 16 → (a ||| 0xe0) = 0xe0 + a := by decide +kernel
  have a3 : ∀ a, a < 8 → (a ||| 0xf0) = 0xf0 + a := by decide +kernel
  simp only [List.mem_cons, Prod.mk.injEq, List.not_mem_nil, or_false] at hm
  rcases hm with ⟨rfl, rfl⟩ | ⟨rfl, rfl⟩ | ⟨rfl, rfl⟩ | ⟨rfl, rfl⟩
  · rw [show 0 % 2 ^ 32 = 0 from rfl, a0 _ h]
  · rw [show 0xc0 % 2 ^ 32 = 0xc0 from rfl, a1 _ h]
  · rw [show 0xe0 % 2 ^ 32 = 0xe0 from rfl, a2 _ h]
  · rw [show 0xf0 % 2 ^ 32 = 0xf0 from rfl, a3 _ h]

theorem shr6 (c : Char32) : (c >>> 6).toNat = c.toNat / 64 := by
  rw [BitVec.toNat_ushiftRight, Nat.shiftRight_eq_div_pow]

theorem mark_val : mark 1 = BitVec.ofNat 32 0 ∧ mark 2 = BitVec.ofNat 32 0xc0 ∧
    mark 3 = BitVec.ofNat 32 0xe0 ∧ mark 4 = BitVec.ofNat 32 0xf0 := by decide

theorem encode_1 (c : Char32) (h : c.toNat < 0x80) (x : Byte) (buf : List Byte) :
    encode (x :: buf) c = .ok (1, BitVec.ofNat 8 c.toNat :: buf) := by
  have hl : charlen c = 1 := by rw [charlen_nat, if_pos h]
  simp only [encode, hl]
  rw [if_neg (by simp)]
  simp only [Nat.sub_self, encLoop, Res.bind_ok, wrChk, mark_val.1]
  rw [enc_lead c 0 128 (by simp) (by simp) (by omega)]
  simp

theorem encode_2 (c : Char32) (h1 : 0x80 ≤ c.toNat) (h : c.toNat < 0x800) (x y : Byte) (buf : List Byte) :
    encode (x :: y :: buf) c =
      .ok (2, BitVec.ofNat 8 (0xc0 + c.toNat / 64) :: BitVec.ofNat 8 (0x80 + c.toNat % 64) :: buf) := by
  have hl : charlen c = 2 := by rw [charlen_nat, if_neg (by omega), if_pos h]
  simp only [encode, hl]
  rw [if_neg (by simp)]
  simp only [encLoop, Res.bind_ok, wrChk, mark_val.2.1, enc_cont]
  simp only [List.length_cons, Nat.zero_add, Nat.lt_add_left_iff_pos, Nat.zero_lt_succ, if_true, Res.bind_ok]
  rw [enc_lead (c >>> 6) 0xc0 32 (by simp) (by simp) (by rw [shr6]; omega), shr6]
  simp

theorem encode_3 (c : Char32) (h1 : 0x800 ≤ c.toNat) (h : c.toNat < 0x10000) (x y z : Byte)
    (buf : List Byte) :
    encode (x :: y :: z :: buf) c =
      .ok (3, BitVec.ofNat 8 (0xe0 + c.toNat / 64 / 64) :: BitVec.ofNat 8 (0x80 + c.toNat / 64 % 64) ::
        BitVec.ofNat 8 (0x80 + c.toNat % 64) :: buf) := by
  have hl : charlen c = 3 := by rw [charlen_nat, if_neg (by omega), if_neg (by omega), if_pos h]
  simp only [encode, hl]
  rw [if_neg (by simp)]
  simp only [encLoop, Res.bind_ok, wrChk, mark_val.2.2.1, enc_cont]
  simp only [List.length_cons, Nat.zero_add, Nat.lt_add_left_iff_pos, Nat.zero_lt_succ, if_true, Res.bind_ok,
    List.length_set, Nat.succ_lt_succ_iff, Nat.lt_add_one]
  rw [enc_lead (c >>> 6 >>> 6) 0xe0 16 (by simp) (by simp) (by rw [shr6, shr6]; omega), shr6, shr6]
  simp [Nat.shiftRight_eq_div_pow, Nat.div_div_eq_div_mul]

theorem encode_4 (c : Char32) (h1 : 0x10000 ≤ c.toNat) (h : c.toNat < 0x200000) (x y z w : Byte)
    (buf : List Byte) :
    encode (x :: y :: z :: w :: buf) c =
      .ok (4, BitVec.ofNat 8 (0xf0 + c.toNat / 64 / 64 / 64) :: BitVec.ofNat 8 (0x80 + c.toNat / 64 / 64 % 64) ::
        BitVec.ofNat 8 (0x80 + c.toNat / 64 % 64) :: BitVec.ofNat 8 (0x80 + c.toNat % 64) :: buf) := by
  have hl : charlen c = 4 := by
    rw [charlen_nat, if_neg (by omega), if_neg (by omega), if_neg (by omega), if_pos h]
  simp only [encode, hl]
  rw [if_neg (by simp)]
  simp only [encLoop, Res.bind_ok, wrChk, mark_val.2.2.2, enc_cont]
  simp only [List.length_cons, Nat.zero_add, Nat.lt_add_left_iff_pos, Nat.zero_lt_succ, if_true, Res.bind_ok,
    List.length_set, Nat.succ_lt_succ_iff, Nat.lt_add_one]
  rw [enc_lead (c >>> 6 >>> 6 >>> 6) 0xf0 8 (by simp) (by simp) (by rw [shr6, shr6, shr6]; omega),
    shr6, shr6, shr6]
  simp [Nat.shiftRight_eq_div_pow, Nat.div_div_eq_div_mul]

end Verif.Utf
