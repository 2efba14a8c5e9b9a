import Verif.Sip.Model
import Verif.Endian.Props

/-!
# C16: SipHash-2-4
-/

namespace Verif.Sip
open Verif.Endian (leVal)

/-! ## Specification (Aumasson, Bernstein: SipHash, section 2) -/

/-- SipRound, in the two parallel halves of the paper. -/
def SipRound : V → V
  | (v0, v1, v2, v3) =>
    let v0 := v0 + v1
    let v2 := v2 + v3
    let v1 := v1.rotateLeft 13
    let v3 := v3.rotateLeft 16
    let v1 := v1 ^^^ v0
    let v3 := v3 ^^^ v2
    let v0 := v0.rotateLeft 32
    let v2 := v2 + v1
    let v0 := v0 + v3
    let v1 := v1.rotateLeft 17
    let v3 := v3.rotateLeft 21
    let v1 := v1 ^^^ v2
    let v3 := v3 ^^^ v0
    let v2 := v2.rotateLeft 32
    (v0, v1, v2, v3)

/-- `n` rounds. -/
def rounds : Nat → V → V
  | 0, v => v
  | n + 1, v => rounds n (SipRound v)

/-- Compression of one word with c = 2. -/
def compress (v : V) (m : BitVec 64) : V :=
  let v := rounds 2 (v.1, v.2.1, v.2.2.1, v.2.2.2 ^^^ m)
  (v.1 ^^^ m, v.2.1, v.2.2.1, v.2.2.2)

/-- The little-endian words of the message, the last one made of the remaining bytes and the
length modulo 256 as top byte. -/
def words (len : Nat) (bs : List Byte) : List (BitVec 64) :=
  if bs.length < 8 then [BitVec.ofNat 64 (leVal bs + 2 ^ 56 * (len % 256))]
  else BitVec.ofNat 64 (leVal (bs.take 8)) :: words len (bs.drop 8)
termination_by bs.length
decreasing_by simp; omega

/-- SipHash-2-4 with key words `k0`, `k1`. -/
def SipHash24 (k0 k1 : BitVec 64) (data : List Byte) : BitVec 64 :=
  let v : V := (k0 ^^^ 0x736f6d6570736575#64, k1 ^^^ 0x646f72616e646f6d#64,
    k0 ^^^ 0x6c7967656e657261#64, k1 ^^^ 0x7465646279746573#64)
  let v := (words data.length data).foldl compress v
  let v := rounds 4 (v.1, v.2.1, v.2.2.1 ^^^ 0xff#64, v.2.2.2)
  v.1 ^^^ v.2.1 ^^^ v.2.2.1 ^^^ v.2.2.2

/-! ## Proof -/

theorem rot_eq (x : BitVec 64) (n : Nat) (h : n < 64) : x.rotateLeft n = x <<< n ||| x >>> (64 - n) := by
  rw [BitVec.rotateLeft_def, Nat.mod_eq_of_lt h]

theorem sipround_eq (v : V) : sipround v = SipRound v := by
  obtain ⟨v0, v1, v2, v3⟩ := v
  simp only [sipround, SipRound, rot_eq _ _ (show 13 < 64 by decide), rot_eq _ _ (show 16 < 64 by decide),
    rot_eq _ _ (show 32 < 64 by decide), rot_eq _ _ (show 17 < 64 by decide), rot_eq _ _ (show 21 < 64 by decide)]

theorem absorb_eq (m : BitVec 64) (v : V) : absorb m v = compress v m := by
  obtain ⟨v0, v1, v2, v3⟩ := v
  simp only [absorb, compress, rounds, sipround_eq]

theorem leVal_append (a b : List Byte) : leVal (a ++ b) = leVal a + 256 ^ a.length * leVal b := by
  induction a with
  | nil => simp [leVal]
  | cons x a ih =>
    simp only [List.cons_append, leVal, ih, List.length_cons, Nat.pow_succ 256]
    rw [Nat.mul_add, Nat.add_assoc, Nat.mul_comm (256 ^ a.length) 256, Nat.mul_assoc]

theorem leVal_zeros (n : Nat) : leVal (List.replicate n 0#8) = 0 := by
  induction n with
  | zero => rfl
  | succ n ih => rw [List.replicate_succ, leVal, ih]; rfl

/-- Cut a message into its full words and the rest. -/
theorem words_split (len : Nat) (n : Nat) : ∀ (rest : List Byte), rest.length / 8 = n →
    ∃ ms last, words len rest = ms ++ [BitVec.ofNat 64 (leVal last + 2 ^ 56 * (len % 256))] ∧
      last = rest.drop (8 * n) ∧ ∀ (pre : List Byte) (i : Nat) (v : V), pre.length = 8 * i →
        mainLoop (pre ++ rest) n i v = .ok (ms.foldl compress v) := by
  induction n with
  | zero =>
    intro rest h
    refine ⟨[], rest, ?_, by simp, ?_⟩
    · rw [words, if_pos (by omega)]; rfl
    · intro pre i v _; rfl
  | succ n ih =>
    intro rest h
    obtain ⟨ms, last, h1, h2, h3⟩ := ih (rest.drop 8) (by simp; omega)
    refine ⟨BitVec.ofNat 64 (leVal (rest.take 8)) :: ms, last, ?_, ?_, ?_⟩
    · rw [words, if_neg (by omega), h1]; rfl
    · rw [h2, List.drop_drop]; congr 1; omega
    · intro pre i v hp
      have hs : slice (pre ++ rest) (8 * i) (8 * (i + 1)) = .ok (rest.take 8) := by
        rw [slice_ok (by omega) (by simp; omega), List.take_append, List.drop_append,
          List.take_of_length_le (by omega), List.drop_eq_nil_of_le (by omega), List.nil_append]
        congr 1
        rw [hp, show 8 * (i + 1) - 8 * i = 8 by omega, Nat.sub_self, List.drop_zero]
      rw [mainLoop, hs, Res.bind_ok, Endian.getle64_spec _ (by simp; omega), Res.bind_ok, List.take_take,
        Nat.min_self, absorb_eq]
      have := h3 (pre ++ rest.take 8) (i + 1) (compress v (BitVec.ofNat 64 (leVal (rest.take 8))))
        (by simp; omega)
      rw [List.append_assoc, List.take_append_drop] at this
      rw [this]
      rfl

theorem tailLoop_spec (w : Nat) (rest : List Byte) : ∀ (data pre : List Byte) (z : List Byte),
    data.drop (8 * w) = pre ++ rest → rest.length ≤ z.length →
    tailLoop data w rest.length pre.length (pre ++ z) = .ok (pre ++ rest ++ z.drop rest.length) := by
  induction rest with
  | nil => intro data pre z _ _; simp [tailLoop]
  | cons b rest ih =>
    intro data pre z hd hz
    have hlen := congrArg List.length hd
    simp only [List.length_drop, List.length_append, List.length_cons] at hlen
    have hget : data[8 * w + pre.length]? = some b := by
      rw [← List.getElem?_drop, hd]; simp
    have hlt : 8 * w + pre.length < data.length := by omega
    rw [List.getElem?_eq_getElem hlt] at hget
    injection hget with hget
    cases z with
    | nil => simp at hz
    | cons y z =>
      rw [List.length_cons, tailLoop, rdChk_ok hlt, Res.bind_ok, wrChk_ok _ (by simp), Res.bind_ok, hget,
        List.set_append_right (h := Nat.le_refl _), Nat.sub_self, List.set_cons_zero]
      have := ih data (pre ++ [b]) z (by rw [hd]; simp) (by simpa using hz)
      simp only [List.length_append, List.length_cons, List.length_nil, List.append_assoc,
        List.singleton_append, Nat.zero_add] at this
      rw [this]
      simp

/-- **C16.**  For every message and every 16 byte key, `siphash24` is SipHash-2-4. -/
theorem siphash24_spec (data seed : List Byte) (hs : seed.length = 16) :
    siphash24 data seed = .ok (SipHash24 (BitVec.ofNat 64 (leVal (seed.take 8)))
      (BitVec.ofNat 64 (leVal (seed.drop 8))) data) := by
  unfold siphash24
  rw [slice_prefix (by omega), Res.bind_ok, Endian.getle64_spec _ (by simp; omega), Res.bind_ok, ← hs,
    slice_suffix (by omega), Res.bind_ok, Endian.getle64_spec _ (by simp; omega), Res.bind_ok]
  have e1 : (seed.take 8).take 8 = seed.take 8 := by rw [List.take_take, Nat.min_self]
  have e2 : (seed.drop 8).take 8 = seed.drop 8 := List.take_of_length_le (by simp; omega)
  have e3 : (data.length + 8) / 8 - 1 = data.length / 8 := by omega
  simp only [e1, e2, e3]
  obtain ⟨ms, last, h1, h2, h3⟩ := words_split data.length (data.length / 8) data rfl
  have h3 := fun v => h3 [] 0 v rfl
  simp only [List.nil_append] at h3
  rw [h3, Res.bind_ok]
  have hll : last.length = data.length % 8 := by rw [h2]; simp; omega
  have ht := tailLoop_spec (data.length / 8) last data [] (List.replicate 8 0#8) (by rw [h2]; rfl) (by simp; omega)
  simp only [List.nil_append, List.length_nil, hll] at ht
  rw [ht, Res.bind_ok, wrChk_ok _ (by simp; omega), Res.bind_ok]
  have hset : (last ++ (List.replicate 8 0#8).drop (data.length % 8)).set 7 (BitVec.ofNat 8 (data.length % 256)) =
      last ++ List.replicate (7 - data.length % 8) 0#8 ++ [BitVec.ofNat 8 (data.length % 256)] := by
    rw [List.drop_replicate, show 8 - data.length % 8 = (7 - data.length % 8) + 1 by omega, List.replicate_succ',
      ← List.append_assoc, List.set_append_right (h := by simp; omega)]
    have : 7 - (last ++ List.replicate (7 - data.length % 8) 0#8).length = 0 := by simp; omega
    rw [this, List.set_cons_zero]
  rw [hset, Endian.getle64_spec _ (by simp; omega), Res.bind_ok, absorb_eq]
  have htk : (last ++ List.replicate (7 - data.length % 8) 0#8 ++ [BitVec.ofNat 8 (data.length % 256)]).take 8 =
      last ++ List.replicate (7 - data.length % 8) 0#8 ++ [BitVec.ofNat 8 (data.length % 256)] :=
    List.take_of_length_le (by simp; omega)
  have hval : leVal (last ++ List.replicate (7 - data.length % 8) 0#8 ++ [BitVec.ofNat 8 (data.length % 256)]) =
      leVal last + 2 ^ 56 * (data.length % 256) := by
    rw [leVal_append, leVal_append, leVal_zeros, Nat.mul_zero, Nat.add_zero]
    have : (last ++ List.replicate (7 - data.length % 8) 0#8).length = 7 := by simp; omega
    rw [this]
    simp only [leVal, Nat.mul_zero, Nat.add_zero, BitVec.toNat_ofNat]
    omega
  rw [htk, hval]
  unfold SipHash24
  rw [h1]
  simp only [List.foldl_append, List.foldl_cons, List.foldl_nil, rounds, sipround_eq]
  rfl

/-- The test vector of the paper: key 00 01 … 0f, message 00 01 … 0e. -/
example : siphash24 ((List.range 15).map (BitVec.ofNat 8)) ((List.range 16).map (BitVec.ofNat 8)) =
    .ok 0xa129ca6149be45e5#64 := by decide +kernel

end Verif.Sip
