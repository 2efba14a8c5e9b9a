import Verif.Ctbig.Model
import Verif.Ct.Props
import Verif.Endian.Props
import Mathlib.Data.Int.ModEq

/-!
# Digits as numbers

Helper lemmas for C87 and C88.
-/

namespace Verif.Ctbig

/-- The number a list of digits stands for, lowest first. -/
def val : List W → Nat
  | [] => 0
  | d :: ds => d.toNat + 2 ^ 32 * val ds

/-- `x` is the number `v` in `n` bits. -/
structure Is (x : Big) (n v : Nat) : Prop where
  nbit : x.nbit = n
  len : x.dig.length = ndig n
  val : Verif.Ctbig.val x.dig = v
  lt : v < 2 ^ n

theorem bsucc (n : Nat) : (2 ^ 32) ^ (n + 1) = 2 ^ 32 * (2 ^ 32) ^ n := by
  rw [Nat.pow_succ (2 ^ 32), Nat.mul_comm]

theorem val_append (a b : List W) : val (a ++ b) = val a + (2 ^ 32) ^ a.length * val b := by
  induction a with
  | nil => simp [val]
  | cons d ds ih =>
    rw [List.cons_append, val, ih, val, List.length_cons, bsucc, Nat.mul_add, Nat.mul_assoc, Nat.add_assoc]

theorem val_lt (a : List W) : val a < (2 ^ 32) ^ a.length := by
  induction a with
  | nil => simp [val]
  | cons d ds ih =>
    rw [val, List.length_cons, bsucc]
    have := d.isLt
    omega

theorem val_zeros (n : Nat) : val (List.replicate n 0) = 0 := by
  induction n with
  | zero => rfl
  | succ n ih => rw [List.replicate_succ, val, ih]; rfl

theorem bpow (n : Nat) : (2 ^ 32) ^ n = 2 ^ (32 * n) := (Nat.pow_mul ..).symm

theorem val_inj : ∀ {a b : List W}, a.length = b.length → val a = val b → a = b
  | [], [], _, _ => rfl
  | x :: xs, y :: ys, hl, hv => by
    rw [val, val] at hv
    have h1 := x.isLt
    have h2 := y.isLt
    have e1 : x.toNat = y.toNat := by omega
    have e2 : val xs = val ys := by omega
    rw [BitVec.eq_of_toNat_eq e1, val_inj (by simpa using hl) e2]

theorem ndig_eq (n : Nat) (hn : 0 < n) : ndig n = (n - 1) / 32 + 1 := by
  unfold ndig; omega

theorem Is.lt' {x : Big} {n v : Nat} (h : Is x n v) : v < (2 ^ 32) ^ ndig n := by
  rw [← h.val, ← h.len]; exact val_lt _

/-! ## clip -/

theorem mask_eq (n : Nat) (hn : 0 < n) : mask n = BitVec.ofNat 32 (2 ^ ((n - 1) % 32 + 1) - 1) := by
  unfold mask
  dsimp only
  have e : BitVec.ofNat 64 n &&& 31 = BitVec.ofNat 64 (n % 32) := by
    apply BitVec.eq_of_toNat_eq
    rw [BitVec.toNat_and, BitVec.toNat_ofNat, BitVec.toNat_ofNat, show (31 : BitVec 64).toNat = 2 ^ 5 - 1 from rfl,
      Nat.and_two_pow_sub_one_eq_mod]
    omega
  rw [e]
  have tbl : ∀ k : Fin 32, (Ct.mux (BitVec.ofNat 64 k) (((1 : BitVec 64) <<< (BitVec.ofNat 64 k).toNat) - 1) (~~~ 0)).setWidth 32 =
      BitVec.ofNat 32 (2 ^ ((k.val + 31) % 32 + 1) - 1) := by decide +kernel
  have := tbl ⟨n % 32, Nat.mod_lt _ (by decide)⟩
  dsimp only at this
  rw [this]
  congr 4
  omega

theorem and_mask (d : W) (n : Nat) (hn : 0 < n) : (d &&& mask n).toNat = d.toNat % 2 ^ ((n - 1) % 32 + 1) := by
  rw [mask_eq n hn, BitVec.toNat_and, BitVec.toNat_ofNat]
  have h : 2 ^ ((n - 1) % 32 + 1) ≤ 2 ^ 32 := Nat.pow_le_pow_right (by decide) (by omega)
  have h2 := Nat.two_pow_pos ((n - 1) % 32 + 1)
  rw [Nat.mod_eq_of_lt (a := 2 ^ ((n - 1) % 32 + 1) - 1) (by omega), Nat.and_two_pow_sub_one_eq_mod]

theorem clip_ok {x : Big} {n : Nat} (hn : 0 < n) (h1 : x.nbit = n) (h2 : x.dig.length = ndig n) :
    ∃ y, clip x = .ok y ∧ Is y n (val x.dig % 2 ^ n) := by
  have hl : x.dig.length = (n - 1) / 32 + 1 := by rw [h2, ndig_eq n hn]
  unfold clip
  rw [if_neg (by omega), rdChk_ok (by omega), Res.bind_ok, wrChk_ok _ (by omega), Res.bind_ok]
  refine ⟨_, rfl, h1, by simpa using h2, ?_, Nat.mod_lt _ (Nat.two_pow_pos n)⟩
  dsimp only
  have e : x.dig = x.dig.take (x.dig.length - 1) ++ [x.dig[x.dig.length - 1]'(by omega)] := by
    conv_lhs => rw [← List.take_append_drop (x.dig.length - 1) x.dig]
    rw [List.drop_eq_getElem_cons (by omega), List.drop_eq_nil_of_le (by omega)]
  generalize htop : x.dig[x.dig.length - 1]'(by omega) = top at *
  generalize hini : x.dig.take (x.dig.length - 1) = ini at *
  have hil : ini.length = x.dig.length - 1 := by rw [← hini]; simp
  have e2 : x.dig.set (x.dig.length - 1) (top &&& mask x.nbit) = ini ++ [top &&& mask x.nbit] := by
    conv_lhs => rw [e]
    rw [List.set_append_right _ _ (by simp [hil])]
    simp [hil]
  rw [e2, h1]
  conv_rhs => rw [e]
  rw [val_append, val_append]
  simp only [val, Nat.mul_zero, Nat.add_zero]
  rw [and_mask _ _ hn, hil, show x.dig.length - 1 = (n - 1) / 32 by omega]
  have hp : 2 ^ n = (2 ^ 32) ^ ((n - 1) / 32) * 2 ^ ((n - 1) % 32 + 1) := by
    rw [bpow, ← Nat.pow_add]; congr 1; omega
  have hv : val ini < (2 ^ 32) ^ ((n - 1) / 32) := by
    have := val_lt ini
    rwa [hil, show x.dig.length - 1 = (n - 1) / 32 by omega] at this
  rw [hp, Nat.mod_mul, Nat.add_mul_mod_self_left, Nat.mod_eq_of_lt hv, Nat.add_mul_div_left _ _ (by omega), Nat.div_eq_of_lt hv, Nat.zero_add]

/-- Numbers that are whole need no clipping. -/
theorem clip_id {x : Big} {n v : Nat} (hn : 0 < n) (h : Is x n v) : clip x = .ok x := by
  obtain ⟨y, hy, hi⟩ := clip_ok hn h.nbit h.len
  rw [hy]
  have : y = x := by
    cases x; cases y
    have e1 := hi.nbit
    have e2 := h.nbit
    have e3 := hi.val
    rw [h.val, Nat.mod_eq_of_lt h.lt] at e3
    have e4 := val_inj (by rw [hi.len, h.len]) (e3.trans h.val.symm)
    dsimp only at e1 e2 e4
    rw [e1, e2, e4]
  rw [this]

theorem checksz_ok {a b : Big} {n v u : Nat} (h : Is a n v) (h2 : Is b n u) : checksz a b = .ok () := by
  unfold checksz
  rw [if_pos ⟨by rw [h.nbit, h2.nbit], by rw [h.len, h2.len]⟩]

/-! ## Addition and subtraction -/

theorem mux1 {w : Nat} (a b : BitVec w) : Ct.mux 1 a b = a := (Ct.mux_means a b).1
theorem mux0 {w : Nat} (a b : BitVec w) : Ct.mux 0 a b = b := (Ct.mux_means a b).2

theorem w64 (a : W) : (a.setWidth 64).toNat = a.toNat := by
  rw [BitVec.toNat_setWidth]; have := a.isLt; omega

theorem low32 (v : BitVec 64) : (v.setWidth 32).toNat = v.toNat % 2 ^ 32 := BitVec.toNat_setWidth ..

theorem high32 (v : BitVec 64) : (v >>> 32).toNat = v.toNat / 2 ^ 32 := by
  rw [BitVec.toNat_ushiftRight, Nat.shiftRight_eq_div_pow]

theorem addLoop_len (ctl : W) : ∀ (rs as bs : List W) (c : BitVec 64), rs.length = as.length → as.length = bs.length →
    (addLoop ctl rs as bs c).length = as.length
  | [], [], [], _, _, _ => rfl
  | r :: rs, a :: as, b :: bs, c, h1, h2 => by
    unfold addLoop
    rw [List.length_cons, addLoop_len ctl rs as bs _ (by simpa using h1) (by simpa using h2), List.length_cons]

theorem addLoop_one : ∀ (rs as bs : List W) (c : BitVec 64), rs.length = as.length → as.length = bs.length → c.toNat ≤ 1 →
    ∃ k, val (addLoop 1 rs as bs c) + k * (2 ^ 32) ^ as.length = val as + val bs + c.toNat
  | [], [], [], c, _, _, hc => ⟨c.toNat, by simp [addLoop, val]⟩
  | r :: rs, a :: as, b :: bs, c, h1, h2, hc => by
    have ha := a.isLt
    have hb := b.isLt
    unfold addLoop
    dsimp only
    rw [mux1]
    have hv : (a.setWidth 64 + b.setWidth 64 + c).toNat = a.toNat + b.toNat + c.toNat := by
      rw [BitVec.toNat_add, BitVec.toNat_add, w64, w64]; omega
    generalize a.setWidth 64 + b.setWidth 64 + c = v at hv ⊢
    obtain ⟨k, hk⟩ := addLoop_one rs as bs (v >>> 32) (by simpa using h1) (by simpa using h2) (by rw [high32]; omega)
    refine ⟨k, ?_⟩
    rw [high32] at hk
    rw [val, val, val, low32, List.length_cons, bsucc]
    have : k * (2 ^ 32 * (2 ^ 32) ^ as.length) = 2 ^ 32 * (k * (2 ^ 32) ^ as.length) := Nat.mul_left_comm ..
    omega

theorem addLoop_zero : ∀ (rs as bs : List W) (c : BitVec 64), rs.length = as.length → as.length = bs.length →
    addLoop 0 rs as bs c = rs
  | [], [], [], _, _, _ => rfl
  | r :: rs, a :: as, b :: bs, c, h1, h2 => by
    unfold addLoop
    dsimp only
    rw [mux0, addLoop_zero rs as bs _ (by simpa using h1) (by simpa using h2)]

theorem topbit (v : BitVec 64) : ((v &&& ((1 : BitVec 64) <<< 63)) >>> 63).toNat = v.toNat / 2 ^ 63 := by
  have : (v &&& ((1 : BitVec 64) <<< 63)) >>> 63 = v >>> 63 := by
    rw [BitVec.ushiftRight_and_distrib, show ((1 : BitVec 64) <<< 63) >>> 63 = 1 by decide]
    apply BitVec.eq_of_toNat_eq
    rw [BitVec.toNat_and, show (1 : BitVec 64).toNat = 2 ^ 1 - 1 from rfl, Nat.and_two_pow_sub_one_eq_mod, BitVec.toNat_ushiftRight,
      Nat.shiftRight_eq_div_pow]
    have := v.isLt
    omega
  rw [this, BitVec.toNat_ushiftRight, Nat.shiftRight_eq_div_pow]

theorem subLoop_bo : ∀ (ctl : W) (rs as bs : List W) (c : BitVec 64), rs.length = as.length → as.length = bs.length → c.toNat ≤ 1 →
    (subLoop ctl rs as bs c).2.toNat = if val as < val bs + c.toNat then 1 else 0
  | _, [], [], [], c, _, _, hc => by
    show c.toNat = if val [] < val [] + c.toNat then 1 else 0
    have : val [] = 0 := rfl
    split <;> omega
  | ctl, r :: rs, a :: as, b :: bs, c, h1, h2, hc => by
    have ha := a.isLt
    have hb := b.isLt
    unfold subLoop
    dsimp only
    have hv : (a.setWidth 64 - b.setWidth 64 - c).toNat = if b.toNat + c.toNat ≤ a.toNat then a.toNat - b.toNat - c.toNat else
        2 ^ 64 + a.toNat - b.toNat - c.toNat := by
      rw [BitVec.toNat_sub, BitVec.toNat_sub, w64, w64]; split <;> omega
    generalize a.setWidth 64 - b.setWidth 64 - c = v at hv ⊢
    have ih := subLoop_bo ctl rs as bs ((v &&& ((1 : BitVec 64) <<< 63)) >>> 63) (by simpa using h1) (by simpa using h2)
      (by rw [topbit]; split at hv <;> omega)
    rw [topbit] at ih
    rw [ih, val, val]
    split at hv <;> split <;> split <;> omega

theorem subLoop_one : ∀ (rs as bs : List W) (c : BitVec 64), rs.length = as.length → as.length = bs.length → c.toNat ≤ 1 →
    val (subLoop 1 rs as bs c).1 + val bs + c.toNat = val as + (subLoop 1 rs as bs c).2.toNat * (2 ^ 32) ^ as.length ∧
      (subLoop 1 rs as bs c).1.length = as.length
  | [], [], [], c, _, _, hc => by simp [subLoop, val]
  | r :: rs, a :: as, b :: bs, c, h1, h2, hc => by
    have ha := a.isLt
    have hb := b.isLt
    unfold subLoop
    dsimp only
    rw [mux1]
    have hv : (a.setWidth 64 - b.setWidth 64 - c).toNat = if b.toNat + c.toNat ≤ a.toNat then a.toNat - b.toNat - c.toNat else
        2 ^ 64 + a.toNat - b.toNat - c.toNat := by
      rw [BitVec.toNat_sub, BitVec.toNat_sub, w64, w64]; split <;> omega
    generalize a.setWidth 64 - b.setWidth 64 - c = v at hv ⊢
    obtain ⟨ih, il⟩ := subLoop_one rs as bs ((v &&& ((1 : BitVec 64) <<< 63)) >>> 63) (by simpa using h1) (by simpa using h2)
      (by rw [topbit]; split at hv <;> omega)
    refine ⟨?_, by rw [List.length_cons, il, List.length_cons]⟩
    rw [topbit] at ih
    generalize subLoop 1 rs as bs ((v &&& ((1 : BitVec 64) <<< 63)) >>> 63) = q at ih ⊢
    rw [val, val, val, low32, List.length_cons, bsucc]
    have : q.2.toNat * (2 ^ 32 * (2 ^ 32) ^ as.length) = 2 ^ 32 * (q.2.toNat * (2 ^ 32) ^ as.length) := Nat.mul_left_comm ..
    split at hv <;> omega

theorem subLoop_zero : ∀ (rs as bs : List W) (c : BitVec 64), rs.length = as.length → as.length = bs.length →
    (subLoop 0 rs as bs c).1 = rs
  | [], [], [], _, _, _ => rfl
  | r :: rs, a :: as, b :: bs, c, h1, h2 => by
    unfold subLoop
    dsimp only
    rw [mux0, subLoop_zero rs as bs _ (by simpa using h1) (by simpa using h2)]

theorem two_pow_dvd (n : Nat) (hn : 0 < n) : 2 ^ n ∣ (2 ^ 32) ^ ndig n := by
  rw [bpow]
  apply Nat.pow_dvd_pow
  rw [ndig_eq n hn]
  omega

theorem mod_of_add_dvd {x y k p q : Nat} (h : x + k * q = y) (hd : p ∣ q) : x % p = y % p := by
  obtain ⟨c, rfl⟩ := hd
  rw [← h, ← Nat.mul_assoc, Nat.mul_comm k p, Nat.mul_assoc, Nat.add_mul_mod_self_left]

theorem ctaddcc_one {r a b : Big} {n z x y : Nat} (hn : 0 < n) (hr : Is r n z) (ha : Is a n x) (hb : Is b n y) :
    ∃ s, ctaddcc r a b 1 = .ok s ∧ Is s n ((x + y) % 2 ^ n) := by
  unfold ctaddcc
  rw [checksz_ok ha hb, Res.bind_ok, checksz_ok ha hr, Res.bind_ok]
  obtain ⟨k, hk⟩ := addLoop_one r.dig a.dig b.dig 0 (by rw [hr.len, ha.len]) (by rw [ha.len, hb.len]) (by decide)
  obtain ⟨s, hs, hi⟩ := clip_ok (x := { r with dig := addLoop 1 r.dig a.dig b.dig 0 }) hn hr.nbit
    ((addLoop_len 1 _ _ _ _ (by rw [hr.len, ha.len]) (by rw [ha.len, hb.len])).trans ha.len)
  refine ⟨s, hs, ?_⟩
  dsimp only at hi
  rw [ha.val, hb.val, ha.len] at hk
  rw [mod_of_add_dvd hk (two_pow_dvd n hn)] at hi
  simpa using hi

theorem ctaddcc_zero {r a b : Big} {n z x y : Nat} (hn : 0 < n) (hr : Is r n z) (ha : Is a n x) (hb : Is b n y) :
    ctaddcc r a b 0 = .ok r := by
  unfold ctaddcc
  rw [checksz_ok ha hb, Res.bind_ok, checksz_ok ha hr, Res.bind_ok,
    addLoop_zero r.dig a.dig b.dig 0 (by rw [hr.len, ha.len]) (by rw [ha.len, hb.len])]
  exact clip_id hn hr

/-- The difference of two numbers, in `n` bits. -/
theorem sub_mod {x y n : Nat} (hx : x < 2 ^ n) (hy : y < 2 ^ n) :
    (2 ^ n + x - y) % 2 ^ n = if y ≤ x then x - y else 2 ^ n + x - y := by
  split
  · rw [show 2 ^ n + x - y = 2 ^ n + (x - y) by omega, Nat.add_mod_left, Nat.mod_eq_of_lt (by omega)]
  · rw [Nat.mod_eq_of_lt (by omega)]

theorem ctsubcc_one {r a b : Big} {n z x y : Nat} (hn : 0 < n) (hr : Is r n z) (ha : Is a n x) (hb : Is b n y) :
    ∃ s, ctsubcc r a b 1 = .ok (s, if x < y then 1 else 0) ∧ Is s n ((2 ^ n + x - y) % 2 ^ n) := by
  unfold ctsubcc
  rw [checksz_ok ha hb, Res.bind_ok, checksz_ok ha hr, Res.bind_ok]
  have l1 : r.dig.length = a.dig.length := by rw [hr.len, ha.len]
  have l2 : a.dig.length = b.dig.length := by rw [ha.len, hb.len]
  obtain ⟨hk, hl⟩ := subLoop_one r.dig a.dig b.dig 0 l1 l2 (by decide)
  have hbo := subLoop_bo 1 r.dig a.dig b.dig 0 l1 l2 (by decide)
  obtain ⟨s, hs, hi⟩ := clip_ok (x := { r with dig := (subLoop 1 r.dig a.dig b.dig 0).1 }) hn hr.nbit (hl.trans ha.len)
  dsimp only at hs ⊢
  rw [hs, Res.bind_ok]
  refine ⟨s, ?_, ?_⟩
  · have : (subLoop 1 r.dig a.dig b.dig 0).2 = if x < y then 1 else 0 := by
      apply BitVec.eq_of_toNat_eq
      rw [hbo, ha.val, hb.val]
      simp only [show (0 : BitVec 64).toNat = 0 from rfl, Nat.add_zero]
      split <;> rfl
    rw [this]
  · dsimp only at hi
    rw [ha.val, hb.val, ha.len] at hk
    simp only [show (0 : BitVec 64).toNat = 0 from rfl, Nat.add_zero] at hk
    have e : (val (subLoop 1 r.dig a.dig b.dig 0).1 + y) % 2 ^ n = x % 2 ^ n := (mod_of_add_dvd hk.symm (two_pow_dvd n hn)).symm
    have hxl := ha.lt
    have hyl := hb.lt
    generalize val (subLoop 1 r.dig a.dig b.dig 0).1 = d at hi e
    have : d % 2 ^ n = (2 ^ n + x - y) % 2 ^ n := by
      have h1 : (d + y + (2 ^ n - y)) % 2 ^ n = (x + (2 ^ n - y)) % 2 ^ n := Nat.ModEq.add_right _ e
      rw [show d + y + (2 ^ n - y) = d + 2 ^ n by omega, Nat.add_mod_right, show x + (2 ^ n - y) = 2 ^ n + x - y by omega] at h1
      exact h1
    rwa [this] at hi

theorem ctsubcc_zero {r a b : Big} {n z x y : Nat} (hn : 0 < n) (hr : Is r n z) (ha : Is a n x) (hb : Is b n y) :
    ctsubcc r a b 0 = .ok (r, if x < y then 1 else 0) := by
  unfold ctsubcc
  rw [checksz_ok ha hb, Res.bind_ok, checksz_ok ha hr, Res.bind_ok]
  have l1 : r.dig.length = a.dig.length := by rw [hr.len, ha.len]
  have l2 : a.dig.length = b.dig.length := by rw [ha.len, hb.len]
  have hbo := subLoop_bo 0 r.dig a.dig b.dig 0 l1 l2 (by decide)
  dsimp only
  rw [subLoop_zero _ _ _ _ l1 l2, clip_id hn hr, Res.bind_ok]
  have : (subLoop 0 r.dig a.dig b.dig 0).2 = if x < y then 1 else 0 := by
    apply BitVec.eq_of_toNat_eq
    rw [hbo, ha.val, hb.val]
    simp only [show (0 : BitVec 64).toNat = 0 from rfl, Nat.add_zero]
    split <;> rfl
  rw [this]

/-! ## Multiplication -/

theorem mulRow_ok (b : W) : ∀ (as ws : List W) (c : BitVec 64), as.length < ws.length → c.toNat < 2 ^ 32 →
    (∀ d ∈ (ws.drop as.length).head?, d = 0) →
    val (mulRow b as ws c) = val ws + val as * b.toNat + c.toNat ∧ (mulRow b as ws c).length = ws.length ∧
      (mulRow b as ws c).drop (as.length + 1) = ws.drop (as.length + 1)
  | [], [], _, h, _, _ => by simp at h
  | [], w :: ws, c, h, hc, h0 => by
    have : w = 0 := h0 w (by simp)
    subst this
    refine ⟨?_, rfl, rfl⟩
    simp only [mulRow, val]
    rw [low32, Nat.mod_eq_of_lt hc]
    simp; omega
  | a :: as, [], _, h, _, _ => by simp at h
  | a :: as, w :: ws, c, h, hc, h0 => by
    have ha := a.isLt
    have hb := b.isLt
    have hw := w.isLt
    have hab : a.toNat * b.toNat ≤ (2 ^ 32 - 1) * (2 ^ 32 - 1) := Nat.mul_le_mul (by omega) (by omega)
    unfold mulRow
    dsimp only
    have hv : (a.setWidth 64 * b.setWidth 64 + w.setWidth 64 + c).toNat = a.toNat * b.toNat + w.toNat + c.toNat := by
      rw [BitVec.toNat_add, BitVec.toNat_add, BitVec.toNat_mul, w64, w64, w64]; omega
    generalize a.setWidth 64 * b.setWidth 64 + w.setWidth 64 + c = v at hv ⊢
    obtain ⟨i1, i2, i3⟩ := mulRow_ok b as ws (v >>> 32) (by simpa using h) (by rw [high32]; omega) (by simpa using h0)
    refine ⟨?_, by simp [i2], by simpa using i3⟩
    rw [val, val, val, i1, low32, high32, Nat.add_mul, Nat.mul_assoc]
    omega

theorem mulLoop_ok (as : List W) : ∀ (bs ws : List W), as.length + bs.length = ws.length →
    (∀ d ∈ ws.drop as.length, d = 0) →
    val (mulLoop as bs ws) = val ws + val as * val bs ∧ (mulLoop as bs ws).length = ws.length
  | [], ws, h, h0 => by simp [mulLoop, val]
  | b :: bs, ws, h, h0 => by
    obtain ⟨i1, i2, i3⟩ := mulRow_ok b as ws 0 (by simp at h; omega) (by decide) (by
      intro d hd
      exact h0 d (List.mem_of_mem_head? hd))
    unfold mulLoop
    simp only [show (0 : BitVec 64).toNat = 0 from rfl, Nat.add_zero] at i1
    match hm : mulRow b as ws 0 with
    | [] => rw [hm] at i2; simp at i2; simp [← i2] at h
    | x :: xs =>
      rw [hm] at i1 i2 i3
      simp only
      have := mulLoop_ok as bs xs (by simp at i2 h; omega) (by
        intro d hd
        have : d ∈ ws.drop (as.length + 1) := by rw [← i3]; simpa using hd
        exact h0 d (by rw [show as.length + 1 = 1 + as.length by omega, Nat.add_comm 1, ← List.drop_drop] at this; exact List.mem_of_mem_drop this))
      refine ⟨?_, by rw [List.length_cons, this.2]; simpa using i2⟩
      rw [val, this.1]
      rw [val] at i1
      rw [val, Nat.mul_add, Nat.mul_add, ← Nat.mul_assoc (val as), Nat.mul_comm (val as) (2 ^ 32), Nat.mul_assoc]
      omega

theorem val_take (l : List W) (k : Nat) : val (l.take k) = val l % (2 ^ 32) ^ k := by
  by_cases h : k ≤ l.length
  · conv_rhs => rw [← List.take_append_drop k l]
    rw [val_append, List.length_take, Nat.min_eq_left h, Nat.add_mul_mod_self_left, Nat.mod_eq_of_lt]
    have := val_lt (l.take k)
    rwa [List.length_take, Nat.min_eq_left h] at this
  · rw [List.take_of_length_le (by omega), Nat.mod_eq_of_lt]
    exact Nat.lt_of_lt_of_le (val_lt l) (Nat.pow_le_pow_right (by decide) (by omega))

theorem ctmul_ok {r a b : Big} {n z x y : Nat} (hn : 0 < n) (hr : Is r n z) (ha : Is a n x) (hb : Is b n y) :
    ∃ s, ctmul r a b = .ok s ∧ Is s n (x * y % 2 ^ n) := by
  unfold ctmul
  rw [checksz_ok ha hb, Res.bind_ok, checksz_ok ha hr, Res.bind_ok]
  obtain ⟨m1, m2⟩ := mulLoop_ok a.dig b.dig (List.replicate (a.dig.length + b.dig.length) 0) (by simp) (by
    intro d hd
    exact (List.eq_of_mem_replicate (List.mem_of_mem_drop hd)))
  rw [val_zeros, Nat.zero_add, ha.val, hb.val] at m1
  dsimp only
  obtain ⟨s, hs, hi⟩ := clip_ok (x := { r with dig := (mulLoop a.dig b.dig (List.replicate (a.dig.length + b.dig.length) 0)).take a.dig.length })
    hn hr.nbit (by
      dsimp only
      rw [List.length_take, m2, List.length_replicate, ha.len]; omega)
  refine ⟨s, hs, ?_⟩
  dsimp only at hi
  rw [val_take, m1, ha.len, Nat.mod_mod_of_dvd _ (two_pow_dvd n hn)] at hi
  exact hi

end Verif.Ctbig
