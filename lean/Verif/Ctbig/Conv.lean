import Verif.Ctbig.Arith
import Mathlib.Tactic.Ring

/-!
# Numbers from bytes and back

Helper lemmas for C87.
-/

namespace Verif.Ctbig

open Endian (leVal beVal)

theorem wr_mid {α : Type} (pre post : List α) (x y : α) : wrChk (pre ++ x :: post) pre.length y = .ok (pre ++ y :: post) := by
  rw [wrChk_ok _ (by simp), List.set_append_right _ _ (Nat.le_refl _)]
  simp

theorem word_le (b0 b1 b2 b3 : Byte) :
    ((b0.setWidth 32 <<< 0 ||| b1.setWidth 32 <<< 8 ||| b2.setWidth 32 <<< 16 ||| b3.setWidth 32 <<< 24 : W)).toNat = leVal [b0, b1, b2, b3] := by
  have h : beVal [b3, b2, b1, b0] < 2 ^ 32 := by
    have h0 := b0.isLt
    have h1 := b1.isLt
    have h2 := b2.isLt
    have h3 := b3.isLt
    simp only [beVal, List.foldl_cons, List.foldl_nil]
    omega
  rw [Endian.or_rev4, Endian.combine4, BitVec.toNat_ofNat, Nat.mod_eq_of_lt h]
  simp only [leVal, beVal, List.foldl_cons, List.foldl_nil]; omega

theorem zero_tail (x : W) : x ||| (0 : Byte).setWidth 32 <<< 16 = x ∧ x ||| (0 : Byte).setWidth 32 <<< 24 = x ∧
    x ||| (0 : Byte).setWidth 32 <<< 8 = x := by
  refine ⟨?_, ?_, ?_⟩ <;> simp

theorem leLoop_ok : ∀ (v : List Byte) (pre : List W) (k : Nat),
    ((v.length + 3) / 4 ≤ k → ∃ ds, ds.length = (v.length + 3) / 4 ∧ val ds = leVal v ∧
      leLoop (pre ++ List.replicate k 0) pre.length v = .ok (pre ++ ds ++ List.replicate (k - (v.length + 3) / 4) 0)) ∧
    (k < (v.length + 3) / 4 → leLoop (pre ++ List.replicate k 0) pre.length v = .abort)
  | b0 :: b1 :: b2 :: b3 :: t, pre, k => by
    have hl : (b0 :: b1 :: b2 :: b3 :: t).length = t.length + 4 := rfl
    rw [hl, show (t.length + 4 + 3) / 4 = (t.length + 3) / 4 + 1 by omega]
    unfold leLoop
    match k with
    | 0 =>
      refine ⟨fun h => by omega, fun _ => ?_⟩
      unfold wrChk
      rw [if_neg (by simp)]
      rfl
    | k + 1 =>
      rw [List.replicate_succ, wr_mid, Res.bind_ok]
      have hw := word_le b0 b1 b2 b3
      generalize (b0.setWidth 32 <<< 0 ||| b1.setWidth 32 <<< 8 ||| b2.setWidth 32 <<< 16 ||| b3.setWidth 32 <<< 24 : W) = d at hw ⊢
      obtain ⟨i1, i2⟩ := leLoop_ok t (pre ++ [d]) k
      rw [List.length_append, List.length_singleton, List.append_assoc, List.singleton_append] at i1 i2
      constructor
      · intro h
        obtain ⟨ds, h1, h2, h3⟩ := i1 (by omega)
        refine ⟨d :: ds, by rw [List.length_cons, h1], ?_, ?_⟩
        · rw [val, h2, hw]
          simp only [leVal]
          omega
        · rw [h3, show k + 1 - ((t.length + 3) / 4 + 1) = k - (t.length + 3) / 4 by omega]
          simp
      · intro h
        exact i2 (by omega)
  | [], pre, k => by
    refine ⟨fun _ => ⟨[], rfl, rfl, ?_⟩, fun h => by simp at h⟩
    unfold leLoop
    simp
  | [b0], pre, k => by
    have hw := word_le b0 0 0 0
    rw [(zero_tail _).2.1, (zero_tail _).1, (zero_tail _).2.2] at hw
    match k with
    | 0 => exact ⟨fun h => by simp at h, fun _ => by simp [leLoop, wrChk]⟩
    | k + 1 =>
      refine ⟨fun _ => ⟨[(0 : W) ||| b0.setWidth 32 <<< 0], by simp, ?_, ?_⟩, fun h => by simp at h⟩
      · simp only [val, Nat.mul_zero, Nat.add_zero, BitVec.ofNat_eq_ofNat, BitVec.zero_or]
        rw [hw]; simp [leVal]
      · unfold leLoop
        rw [List.replicate_succ, wr_mid]
        simp
  | [b0, b1], pre, k => by
    have hw := word_le b0 b1 0 0
    rw [(zero_tail _).2.1, (zero_tail _).1] at hw
    match k with
    | 0 => exact ⟨fun h => by simp at h, fun _ => by simp [leLoop, wrChk]⟩
    | k + 1 =>
      refine ⟨fun _ => ⟨[(0 : W) ||| b0.setWidth 32 <<< 0 ||| b1.setWidth 32 <<< 8], by simp, ?_, ?_⟩, fun h => by simp at h⟩
      · simp only [val, Nat.mul_zero, Nat.add_zero, BitVec.ofNat_eq_ofNat, BitVec.zero_or]
        rw [hw]; simp [leVal]
      · unfold leLoop
        rw [List.replicate_succ, wr_mid]
        simp
  | [b0, b1, b2], pre, k => by
    have hw := word_le b0 b1 b2 0
    rw [(zero_tail _).2.1] at hw
    match k with
    | 0 => exact ⟨fun h => by simp at h, fun _ => by simp [leLoop, wrChk]⟩
    | k + 1 =>
      refine ⟨fun _ => ⟨[(0 : W) ||| b0.setWidth 32 <<< 0 ||| b1.setWidth 32 <<< 8 ||| b2.setWidth 32 <<< 16], by simp, ?_, ?_⟩, fun h => by simp at h⟩
      · simp only [val, Nat.mul_zero, Nat.add_zero, BitVec.ofNat_eq_ofNat, BitVec.zero_or]
        rw [hw]; simp [leVal]
      · unfold leLoop
        rw [List.replicate_succ, wr_mid]
        simp

theorem beVal_app (a b : List Byte) : beVal (a ++ b) = beVal a * 256 ^ b.length + beVal b := by
  rw [← List.reverse_reverse b]
  induction b.reverse with
  | nil => simp [beVal]
  | cons x b ih =>
    rw [List.reverse_cons]
    generalize b.reverse = b at ih ⊢
    rw [← List.append_assoc, Endian.beVal_append, ih, Endian.beVal_append, List.length_append, List.length_singleton, Nat.pow_succ]
    ring

theorem beVal_zeros (n : Nat) (a : List Byte) : beVal (List.replicate n 0 ++ a) = beVal a := by
  rw [beVal_app]
  have : beVal (List.replicate n 0) = 0 := by
    induction n with
    | zero => rfl
    | succ n ih => rw [List.replicate_succ', Endian.beVal_append, ih]; rfl
  rw [this]; simp

theorem beLoop_ok (v : List Byte) : ∀ (i : Nat) (pre : List W) (k : Nat), i ≤ v.length →
    ((i + 3) / 4 ≤ k → ∃ ds, ds.length = (i + 3) / 4 ∧ val ds = beVal (v.take i) ∧
      beLoop v (pre ++ List.replicate k 0) pre.length i = .ok (pre ++ ds ++ List.replicate (k - (i + 3) / 4) 0)) ∧
    (k < (i + 3) / 4 → beLoop v (pre ++ List.replicate k 0) pre.length i = .abort) := by
  intro i
  induction i using Nat.strongRecOn with
  | _ i ih =>
    intro pre k hi
    unfold beLoop
    by_cases h4 : 4 ≤ i
    · rw [if_pos h4, slice_ok (by omega) hi, Res.bind_ok]
      have hsl : ((v.take i).drop (i - 4)).length = 4 := by simp; omega
      rw [Endian.getbe32_spec 32 (.inl rfl) _ (by omega), Res.bind_ok, List.take_of_length_le (l := (v.take i).drop (i - 4)) (by omega)]
      match k with
      | 0 =>
        refine ⟨fun h => by omega, fun _ => ?_⟩
        unfold wrChk
        rw [if_neg (by simp)]
        rfl
      | k + 1 =>
        rw [List.replicate_succ, wr_mid, Res.bind_ok]
        have hd : (BitVec.ofNat 32 (beVal ((v.take i).drop (i - 4)))).toNat = beVal ((v.take i).drop (i - 4)) := by
          rw [BitVec.toNat_ofNat, Nat.mod_eq_of_lt]
          have := Endian.beVal_lt ((v.take i).drop (i - 4))
          rwa [hsl] at this
        generalize BitVec.ofNat 32 (beVal ((v.take i).drop (i - 4))) = d at hd ⊢
        obtain ⟨i1, i2⟩ := ih (i - 4) (by omega) (pre ++ [d]) k (by omega)
        rw [List.length_append, List.length_singleton, List.append_assoc, List.singleton_append] at i1 i2
        constructor
        · intro h
          obtain ⟨ds, h1, h2, h3⟩ := i1 (by omega)
          refine ⟨d :: ds, by rw [List.length_cons, h1]; omega, ?_, ?_⟩
          · have e : v.take i = v.take (i - 4) ++ (v.take i).drop (i - 4) := by
              conv_lhs => rw [← List.take_append_drop (i - 4) (v.take i)]
              rw [List.take_take, Nat.min_eq_left (by omega)]
            rw [val, h2, hd]
            conv_rhs => rw [e]
            rw [beVal_app, hsl]
            omega
          · rw [h3, show k + 1 - (i + 3) / 4 = k - (i - 4 + 3) / 4 by omega]
            simp
        · intro h
          exact i2 (by omega)
    · rw [if_neg h4]
      by_cases h0 : i ≠ 0
      · rw [if_pos h0, slice_ok (by omega) hi, Res.bind_ok, List.drop_zero]
        have hsl : (List.replicate (4 - i) 0 ++ v.take i).length = 4 := by simp; omega
        rw [Endian.getbe32_spec 32 (.inl rfl) _ (by omega), Res.bind_ok, List.take_of_length_le (l := List.replicate (4 - i) 0 ++ v.take i) (by omega), beVal_zeros]
        have hd : (BitVec.ofNat 32 (beVal (v.take i))).toNat = beVal (v.take i) := by
          rw [BitVec.toNat_ofNat, Nat.mod_eq_of_lt]
          have := Endian.beVal_lt (List.replicate (4 - i) 0 ++ v.take i)
          rwa [hsl, beVal_zeros] at this
        match k with
        | 0 => exact ⟨fun h => by omega, fun _ => by simp [wrChk]⟩
        | k + 1 =>
          refine ⟨fun _ => ⟨[BitVec.ofNat 32 (beVal (v.take i))], ?_, ?_, ?_⟩, fun h => by omega⟩
          · simp; omega
          · rw [val, hd]; simp [val]
          · rw [List.replicate_succ, wr_mid, show k + 1 - (i + 3) / 4 = k by omega]
            simp
      · rw [if_neg h0]
        have : i = 0 := by omega
        subst this
        refine ⟨fun _ => ⟨[], rfl, rfl, ?_⟩, fun h => by omega⟩
        simp

theorem mkctbigle_ok (v : List Byte) (n : Nat) (hn : 0 < n) :
    ((v.length + 3) / 4 ≤ ndig n → ∃ x, mkctbigle v n = .ok x ∧ Is x n (leVal v % 2 ^ n)) ∧
    (ndig n < (v.length + 3) / 4 → mkctbigle v n = .abort) := by
  obtain ⟨h1, h2⟩ := leLoop_ok v [] (ndig n)
  rw [List.nil_append, List.length_nil] at h1 h2
  unfold mkctbigle
  constructor
  · intro h
    obtain ⟨ds, e1, e2, e3⟩ := h1 h
    rw [e3, Res.bind_ok, List.nil_append]
    have := clip_ok (x := ⟨n, ds ++ List.replicate (ndig n - (v.length + 3) / 4) 0⟩) hn rfl (by simp [e1]; omega)
    rw [val_append, val_zeros, e2] at this
    exact this
  · intro h
    rw [h2 h]
    rfl

theorem mkctbigbe_ok (v : List Byte) (n : Nat) (hn : 0 < n) :
    ((v.length + 3) / 4 ≤ ndig n → ∃ x, mkctbigbe v n = .ok x ∧ Is x n (beVal v % 2 ^ n)) ∧
    (ndig n < (v.length + 3) / 4 → mkctbigbe v n = .abort) := by
  obtain ⟨h1, h2⟩ := beLoop_ok v v.length [] (ndig n) (Nat.le_refl _)
  rw [List.nil_append, List.length_nil] at h1 h2
  unfold mkctbigbe
  constructor
  · intro h
    obtain ⟨ds, e1, e2, e3⟩ := h1 h
    rw [e3, Res.bind_ok, List.nil_append]
    have := clip_ok (x := ⟨n, ds ++ List.replicate (ndig n - (v.length + 3) / 4) 0⟩) hn rfl (by simp [e1]; omega)
    rw [val_append, val_zeros, e2, List.take_length] at this
    exact this
  · intro h
    rw [h2 h]
    rfl

/-! ## Back to bytes -/

theorem puts_ok : ∀ (bs pre g : List Byte), bs.length ≤ g.length →
    puts (pre ++ g) pre.length bs = .ok (pre ++ bs ++ g.drop bs.length, pre.length + bs.length)
  | [], pre, g, _ => by simp [puts]
  | b :: bs, pre, [], h => by simp at h
  | b :: bs, pre, x :: g, h => by
    unfold puts
    rw [wr_mid, Res.bind_ok]
    have := puts_ok bs (pre ++ [b]) g (by simpa using h)
    rw [List.length_append, List.length_singleton, List.append_assoc, List.singleton_append] at this
    rw [this]
    simp
    omega

theorem puts_abort : ∀ (bs pre g : List Byte), g.length < bs.length → puts (pre ++ g) pre.length bs = .abort
  | [], pre, g, h => by simp at h
  | b :: bs, pre, [], h => by simp [puts, wrChk]
  | b :: bs, pre, x :: g, h => by
    unfold puts
    rw [wr_mid, Res.bind_ok]
    have := puts_abort bs (pre ++ [b]) g (by simpa using h)
    rw [List.length_append, List.length_singleton, List.append_assoc, List.singleton_append] at this
    exact this

theorem byte_of (d : W) (k : Nat) : ((d >>> k).setWidth 8).toNat = d.toNat / 2 ^ k % 256 := by
  rw [BitVec.toNat_setWidth, BitVec.toNat_ushiftRight, Nat.shiftRight_eq_div_pow]

theorem digBe_val (d : W) : beVal (digBe d) = d.toNat := by
  have := d.isLt
  simp only [digBe, beVal, List.foldl_cons, List.foldl_nil, byte_of]
  omega

theorem digLe_val (d : W) (t : List Byte) : leVal (digLe d ++ t) = d.toNat + 2 ^ 32 * leVal t := by
  have := d.isLt
  simp only [digLe, List.cons_append, List.nil_append, leVal, byte_of]
  omega

theorem bytesbeLoop_ok (v : Big) : ∀ (i : Nat) (pre g : List Byte), i ≤ v.dig.length → 4 * i ≤ g.length →
    ∃ bs, bs.length = 4 * i ∧ beVal bs = val (v.dig.take i) ∧ bytesbeLoop v (pre ++ g) pre.length i = .ok (pre ++ bs ++ g.drop (4 * i))
  | 0, pre, g, _, _ => ⟨[], rfl, by simp [beVal, val], by simp [bytesbeLoop]⟩
  | i + 1, pre, g, h1, h2 => by
    unfold bytesbeLoop
    rw [rdChk_ok (by omega), Res.bind_ok]
    generalize hd : v.dig[i]'(by omega) = d
    have hl : (digBe d).length = 4 := rfl
    rw [puts_ok _ _ _ (by rw [hl]; omega), Res.bind_ok]
    dsimp only
    obtain ⟨bs, b1, b2, b3⟩ := bytesbeLoop_ok v i (pre ++ digBe d) (g.drop 4) (by omega) (by simp; omega)
    rw [List.length_append, hl] at b3
    rw [hl]
    refine ⟨digBe d ++ bs, by rw [List.length_append, hl, b1]; omega, ?_, ?_⟩
    · rw [beVal_app, digBe_val, b2, b1, List.take_succ_eq_append_getElem (by omega), val_append, List.length_take,
        Nat.min_eq_left (by omega), hd, Nat.pow_mul]
      simp only [val, Nat.mul_zero, Nat.add_zero, Nat.reducePow]
      ring
    · rw [b3, List.drop_drop]
      simp [show 4 * (i + 1) = 4 + 4 * i by omega]

theorem bytesbeLoop_abort (v : Big) : ∀ (i : Nat) (pre g : List Byte), i ≤ v.dig.length → g.length < 4 * i →
    bytesbeLoop v (pre ++ g) pre.length i = .abort
  | 0, pre, g, _, h => by omega
  | i + 1, pre, g, h1, h2 => by
    unfold bytesbeLoop
    rw [rdChk_ok (by omega), Res.bind_ok]
    generalize v.dig[i]'(by omega) = d
    have hl : (digBe d).length = 4 := rfl
    by_cases h : 4 ≤ g.length
    · rw [puts_ok _ _ _ (by rw [hl]; omega), Res.bind_ok]
      dsimp only
      have := bytesbeLoop_abort v i (pre ++ digBe d) (g.drop 4) (by omega) (by simp; omega)
      rw [List.length_append, hl] at this
      rw [hl, this]
    · rw [puts_abort _ _ _ (by rw [hl]; omega)]
      rfl

theorem bytesleLoop_ok (v : Big) : ∀ (j i : Nat) (pre g : List Byte), j + i = v.dig.length → g.length = 4 * j → pre.length = 4 * i →
    ∃ bs, bs.length = 4 * j ∧ leVal bs = val (v.dig.drop i) ∧ bytesleLoop v (4 * v.dig.length) (pre ++ g) pre.length i = .ok (pre ++ bs)
  | 0, i, pre, g, h1, h2, h3 => by
    unfold bytesleLoop
    rw [if_neg (by omega)]
    have : g = [] := List.length_eq_zero_iff.1 (by omega)
    subst this
    refine ⟨[], rfl, ?_, rfl⟩
    rw [List.drop_eq_nil_of_le (by omega)]
    rfl
  | j + 1, i, pre, g, h1, h2, h3 => by
    unfold bytesleLoop
    rw [if_pos (by omega), rdChk_ok (by omega), Res.bind_ok]
    generalize hd : v.dig[i]'(by omega) = d
    have hl : (digLe d).length = 4 := rfl
    rw [puts_ok _ _ _ (by rw [hl]; omega), Res.bind_ok]
    dsimp only
    obtain ⟨bs, b1, b2, b3⟩ := bytesleLoop_ok v j (i + 1) (pre ++ digLe d) (g.drop 4) (by omega) (by simp; omega) (by simp [hl]; omega)
    rw [List.length_append, hl] at b3
    rw [hl]
    refine ⟨digLe d ++ bs, by rw [List.length_append, hl, b1]; omega, ?_, ?_⟩
    · rw [digLe_val, b2, List.drop_eq_getElem_cons (i := i) (by omega), val, hd]
    · rw [b3, List.append_assoc]

theorem bytesleLoop_abort (v : Big) (n : Nat) (hn : n % 4 ≠ 0) : ∀ (j i : Nat) (pre g : List Byte), i + j + 1 = v.dig.length → n / 4 = i + j →
    g.length = n - 4 * i → pre.length = 4 * i → bytesleLoop v n (pre ++ g) pre.length i = .abort
  | 0, i, pre, g, h1, h2, h3, h4 => by
    unfold bytesleLoop
    rw [if_pos (by omega), rdChk_ok (by omega), Res.bind_ok, puts_abort]
    · rfl
    · show g.length < 4
      omega
  | j + 1, i, pre, g, h1, h2, h3, h4 => by
    unfold bytesleLoop
    rw [if_pos (by omega), rdChk_ok (by omega), Res.bind_ok]
    generalize hd : v.dig[i]'(by omega) = d
    have hl : (digLe d).length = 4 := rfl
    rw [puts_ok _ _ _ (by rw [hl]; omega), Res.bind_ok]
    dsimp only
    have := bytesleLoop_abort v n hn j (i + 1) (pre ++ digLe d) (g.drop 4) (by omega) (by omega) (by simp; omega) (by simp [hl]; omega)
    rw [List.length_append, hl] at this
    rw [hl, this]

end Verif.Ctbig
