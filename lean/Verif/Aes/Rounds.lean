import Verif.Aes.Bits
import Verif.Aes.Swap

/-! # The steps of a round are those of the standard -/

namespace Verif.Aes

open Spec (State)

theorem get_at (q : Q) (p : Nat) {k : Nat} (hk : k < 8) : (q.at p).getLsbD k = (q.get k).getLsbD p := by
  have h := bits_at q p
  simp only [bits, Oct.map, Oct.mk.injEq] at h
  obtain ⟨h0, h1, h2, h3, h4, h5, h6, h7⟩ := h
  interval_cases k <;> assumption

/-- A byte of a word. -/
def byteOf {n : Nat} (x : BitVec n) (i : Nat) : Byte := (x >>> (8 * i)).setWidth 8

theorem byteOf_bit {n : Nat} (x : BitVec n) (i : Nat) {k : Nat} (hk : k < 8) : (byteOf x i).getLsbD k = x.getLsbD (8 * i + k) := by
  simp [byteOf, hk]

theorem byte_ext {a b : Byte} (h : ∀ k < 8, a.getLsbD k = b.getLsbD k) : a = b := BitVec.eq_of_getLsbD_eq h

theorem ortho_at (q : Q) {i j : Nat} (hi : i < 8) (hj : j < 8) : (ortho q).at (8 * i + j) = byteOf (q.get j) i := by
  apply byte_ext
  intro k hk
  rw [get_at _ _ hk, ortho_bit q hi hj hk, byteOf_bit _ _ hk]

theorem ortho_byte (q : Q) {i j : Nat} (hi : i < 8) (hj : j < 8) : byteOf ((ortho q).get j) i = q.at (8 * i + j) := by
  apply byte_ext
  intro k hk
  rw [get_at _ _ hk, byteOf_bit _ _ hk, ortho_bit q hi hk hj]

/-- The words hold a state: its bytes are at the positions which are multiples of four, row by row. -/
def Rep (q : Q) (s : State) : Prop := ∀ r c, r < 4 → c < 4 → q.at (16 * r + 4 * c) = s.at r c

theorem at_mk (f : Nat → Nat → Byte) (r c : Nat) : (Spec.mk f).at r c = f (r % 4) (c % 4) := by
  unfold Spec.State.at Spec.mk
  rw [Vector.getElem_ofFn]
  show f ((r % 4 + 4 * (c % 4)) % 4) ((r % 4 + 4 * (c % 4)) / 4) = _
  congr 1 <;> omega

theorem at_mk' (f : Nat → Nat → Byte) {r c : Nat} (hr : r < 4) (hc : c < 4) : (Spec.mk f).at r c = f r c := by
  rw [at_mk, Nat.mod_eq_of_lt hr, Nat.mod_eq_of_lt hc]

theorem sbox_rep {q : Q} {s : State} (h : Rep q s) : Rep (sbox q) (Spec.subBytes s) := by
  intro r c hr hc
  rw [Spec.subBytes, at_mk' _ hr hc, sbox_at q (by omega), h r c hr hc]

theorem invsbox_rep {q : Q} {s : State} (h : Rep q s) : Rep (invsbox q) (Spec.invSubBytes s) := by
  intro r c hr hc
  rw [Spec.invSubBytes, at_mk' _ hr hc, invsbox_at q (by omega), h r c hr hc]

theorem map_at (f : BitVec 64 → BitVec 64) (q : Q) (p p' : Nat) (h : ∀ x, (f x).getLsbD p = x.getLsbD p') :
    (q.map f).at p = q.at p' := by
  apply bits_inj
  rw [bits_at, bits_at]
  simp only [Oct.map, h]

theorem at_mod (s : State) (r c : Nat) : s.at r (c % 4) = s.at r c := by
  unfold Spec.State.at
  simp only [Nat.mod_mod]

theorem at_mod' (s : State) (r c : Nat) : s.at (r % 4) c = s.at r c := by
  unfold Spec.State.at
  simp only [Nat.mod_mod]

theorem shiftrows_rep {q : Q} {s : State} (h : Rep q s) : Rep (shiftrows q) (Spec.shiftRows s) := by
  intro r c hr hc
  rw [Spec.shiftRows, at_mk' _ hr hc, shiftrows, map_at _ _ _ _ (fun x => shiftrow_bit x (by omega)),
    show 16 * ((16 * r + 4 * c) / 16) + (16 * r + 4 * c + 4 * ((16 * r + 4 * c) / 16)) % 16 = 16 * r + 4 * ((c + r) % 4) by omega,
    h r _ hr (Nat.mod_lt _ (by decide)), at_mod]

theorem invshiftrows_rep {q : Q} {s : State} (h : Rep q s) : Rep (invshiftrows q) (Spec.invShiftRows s) := by
  intro r c hr hc
  rw [Spec.invShiftRows, at_mk' _ hr hc, invshiftrows, map_at _ _ _ _ (fun x => invshiftrow_bit x (by omega)),
    show 16 * ((16 * r + 4 * c) / 16) + (16 * r + 4 * c + 16 - 4 * ((16 * r + 4 * c) / 16)) % 16 = 16 * r + 4 * ((c + 4 - r) % 4) by
      interval_cases r <;> omega,
    h r _ hr (Nat.mod_lt _ (by decide)), at_mod]

/-! ## Columns -/

theorem bits_xor (a b : Byte) : bits (a ^^^ b) = (let o := bits a; let p := bits b
    ⟨o.q0 ^^ p.q0, o.q1 ^^ p.q1, o.q2 ^^ p.q2, o.q3 ^^ p.q3, o.q4 ^^ p.q4, o.q5 ^^ p.q5, o.q6 ^^ p.q6, o.q7 ^^ p.q7⟩) := by
  simp [bits]

theorem bits_xtime (b : Byte) : bits (Spec.xtime b) = (let o := bits b
    ⟨o.q7, o.q0 ^^ o.q7, o.q1, o.q2 ^^ o.q7, o.q3 ^^ o.q7, o.q4, o.q5, o.q6⟩) := by
  have key : ∀ b : Fin 256, bits (Spec.xtime (BitVec.ofFin b)) = (let o := bits (BitVec.ofFin b)
    ⟨o.q7, o.q0 ^^ o.q7, o.q1, o.q2 ^^ o.q7, o.q3 ^^ o.q7, o.q4, o.q5, o.q6⟩) := by decide +kernel
  exact key b.toFin

theorem mul_table : ∀ b : Fin 256, let x : Byte := BitVec.ofFin b
    Spec.mul 2 x = Spec.xtime x ∧ Spec.mul 3 x = Spec.xtime x ^^^ x := by decide +kernel

theorem xor_cancel (a b : Bool) : (a ^^ (a ^^ b)) = b := by cases a <;> cases b <;> rfl

/-- Sums of bits, whatever their order. -/
local macro "xor_ac" : tactic =>
  `(tactic| simp only [Bool.xor_assoc, Bool.xor_comm, Bool.xor_left_comm, xor_cancel, Bool.xor_self, Bool.xor_false])

set_option maxHeartbeats 1000000 in
theorem mixcols_at (q : Q) {p : Nat} (hp : p < 64) : (mixcols q).at p =
    Spec.mul 2 (q.at p) ^^^ Spec.mul 3 (q.at ((p + 16) % 64)) ^^^ q.at ((p + 32) % 64) ^^^ q.at ((p + 48) % 64) := by
  rw [show Spec.mul 2 (q.at p) = _ from (mul_table (q.at p).toFin).1,
    show Spec.mul 3 (q.at ((p + 16) % 64)) = _ from (mul_table (q.at ((p + 16) % 64)).toFin).2]
  show _ = Spec.xtime (q.at p) ^^^ (Spec.xtime (q.at ((p + 16) % 64)) ^^^ q.at ((p + 16) % 64)) ^^^ q.at ((p + 32) % 64) ^^^ q.at ((p + 48) % 64)
  apply bits_inj
  have e : ((p + 32) % 64 + 16) % 64 = (p + 48) % 64 := by omega
  simp only [bits_xor, bits_xtime, bits_at, Oct.map, mixcols, BitVec.getLsbD_xor, rot16_bit _ hp, rotr32_bit _ hp,
    rot16_bit _ (Nat.mod_lt (p + 32) (show 64 > 0 by decide)), e]
  simp only [Oct.mk.injEq]
  refine ⟨?_, ?_, ?_, ?_, ?_, ?_, ?_, ?_⟩ <;> xor_ac

theorem mul_bits : ∀ b : Fin 256, let x : Byte := BitVec.ofFin b; let o := bits x
    bits (Spec.mul 0x0e x) = ⟨o.q5 ^^ o.q6 ^^ o.q7, o.q0 ^^ o.q5, o.q0 ^^ o.q1 ^^ o.q6, o.q0 ^^ o.q1 ^^ o.q2 ^^ o.q5 ^^ o.q6, o.q1 ^^ o.q2 ^^ o.q3 ^^ o.q5, o.q2 ^^ o.q3 ^^ o.q4 ^^ o.q6, o.q3 ^^ o.q4 ^^ o.q5 ^^ o.q7, o.q4 ^^ o.q5 ^^ o.q6⟩ ∧
    bits (Spec.mul 0x0b x) = ⟨o.q0 ^^ o.q5 ^^ o.q7, o.q0 ^^ o.q1 ^^ o.q5 ^^ o.q6 ^^ o.q7, o.q1 ^^ o.q2 ^^ o.q6 ^^ o.q7, o.q0 ^^ o.q2 ^^ o.q3 ^^ o.q5, o.q1 ^^ o.q3 ^^ o.q4 ^^ o.q5 ^^ o.q6 ^^ o.q7, o.q2 ^^ o.q4 ^^ o.q5 ^^ o.q6 ^^ o.q7, o.q3 ^^ o.q5 ^^ o.q6 ^^ o.q7, o.q4 ^^ o.q6 ^^ o.q7⟩ ∧
    bits (Spec.mul 0x0d x) = ⟨o.q0 ^^ o.q5 ^^ o.q6, o.q1 ^^ o.q5 ^^ o.q7, o.q0 ^^ o.q2 ^^ o.q6, o.q0 ^^ o.q1 ^^ o.q3 ^^ o.q5 ^^ o.q6 ^^ o.q7, o.q1 ^^ o.q2 ^^ o.q4 ^^ o.q5 ^^ o.q7, o.q2 ^^ o.q3 ^^ o.q5 ^^ o.q6, o.q3 ^^ o.q4 ^^ o.q6 ^^ o.q7, o.q4 ^^ o.q5 ^^ o.q7⟩ ∧
    bits (Spec.mul 0x09 x) = ⟨o.q0 ^^ o.q5, o.q1 ^^ o.q5 ^^ o.q6, o.q2 ^^ o.q6 ^^ o.q7, o.q0 ^^ o.q3 ^^ o.q5 ^^ o.q7, o.q1 ^^ o.q4 ^^ o.q5 ^^ o.q6, o.q2 ^^ o.q5 ^^ o.q6 ^^ o.q7, o.q3 ^^ o.q6 ^^ o.q7, o.q4 ^^ o.q7⟩ := by
  decide +kernel

set_option maxHeartbeats 1000000 in
theorem invmixcols_at (q : Q) {p : Nat} (hp : p < 64) : (invmixcols q).at p =
    Spec.mul 0x0e (q.at p) ^^^ Spec.mul 0x0b (q.at ((p + 16) % 64)) ^^^ Spec.mul 0x0d (q.at ((p + 32) % 64)) ^^^ Spec.mul 0x09 (q.at ((p + 48) % 64)) := by
  have m1 : ∀ x : Byte, bits (Spec.mul 0x0e x) = _ := fun x => (mul_bits x.toFin).1
  have m2 : ∀ x : Byte, bits (Spec.mul 0x0b x) = _ := fun x => (mul_bits x.toFin).2.1
  have m3 : ∀ x : Byte, bits (Spec.mul 0x0d x) = _ := fun x => (mul_bits x.toFin).2.2.1
  have m4 : ∀ x : Byte, bits (Spec.mul 0x09 x) = _ := fun x => (mul_bits x.toFin).2.2.2
  apply bits_inj
  have e : ((p + 32) % 64 + 16) % 64 = (p + 48) % 64 := by omega
  simp only [bits_xor, m1, m2, m3, m4, bits_at, Oct.map, invmixcols, BitVec.getLsbD_xor, rot16_bit _ hp, rotr32_bit _ hp,
    rot16_bit _ (Nat.mod_lt (p + 32) (show 64 > 0 by decide)), e]
  generalize (p + 16) % 64 = p1
  generalize (p + 32) % 64 = p2
  generalize (p + 48) % 64 = p3
  simp only [show ∀ x : Byte, BitVec.ofFin x.toFin = x from fun _ => rfl, bits_at, Oct.map]
  generalize q.q0.getLsbD p = a0; generalize q.q1.getLsbD p = a1; generalize q.q2.getLsbD p = a2; generalize q.q3.getLsbD p = a3
  generalize q.q4.getLsbD p = a4; generalize q.q5.getLsbD p = a5; generalize q.q6.getLsbD p = a6; generalize q.q7.getLsbD p = a7
  generalize q.q0.getLsbD p1 = b0; generalize q.q1.getLsbD p1 = b1; generalize q.q2.getLsbD p1 = b2; generalize q.q3.getLsbD p1 = b3
  generalize q.q4.getLsbD p1 = b4; generalize q.q5.getLsbD p1 = b5; generalize q.q6.getLsbD p1 = b6; generalize q.q7.getLsbD p1 = b7
  generalize q.q0.getLsbD p2 = c0; generalize q.q1.getLsbD p2 = c1; generalize q.q2.getLsbD p2 = c2; generalize q.q3.getLsbD p2 = c3
  generalize q.q4.getLsbD p2 = c4; generalize q.q5.getLsbD p2 = c5; generalize q.q6.getLsbD p2 = c6; generalize q.q7.getLsbD p2 = c7
  generalize q.q0.getLsbD p3 = d0; generalize q.q1.getLsbD p3 = d1; generalize q.q2.getLsbD p3 = d2; generalize q.q3.getLsbD p3 = d3
  generalize q.q4.getLsbD p3 = d4; generalize q.q5.getLsbD p3 = d5; generalize q.q6.getLsbD p3 = d6; generalize q.q7.getLsbD p3 = d7
  simp only [Oct.mk.injEq]
  refine ⟨?_, ?_, ?_, ?_, ?_, ?_, ?_, ?_⟩ <;> ac_rfl

theorem col_rep {q : Q} {s : State} (h : Rep q s) {r c : Nat} (hc : c < 4) (k : Nat) :
    q.at ((16 * r + 4 * c + 16 * k) % 64) = s.at (r + k) c := by
  rw [show (16 * r + 4 * c + 16 * k) % 64 = 16 * ((r + k) % 4) + 4 * c by omega, h _ _ (Nat.mod_lt _ (by decide)) hc, at_mod']

theorem mixcols_rep {q : Q} {s : State} (h : Rep q s) : Rep (mixcols q) (Spec.mixColumns s) := by
  intro r c hr hc
  rw [Spec.mixColumns, at_mk' _ hr hc, mixcols_at q (by omega), h r c hr hc, col_rep h hc 1,
    col_rep h hc 2, col_rep h hc 3]

theorem invmixcols_rep {q : Q} {s : State} (h : Rep q s) : Rep (invmixcols q) (Spec.invMixColumns s) := by
  intro r c hr hc
  rw [Spec.invMixColumns, at_mk' _ hr hc, invmixcols_at q (by omega), h r c hr hc, col_rep h hc 1,
    col_rep h hc 2, col_rep h hc 3]

/-! ## Keys -/

/-- The words hold a round key. -/
def KeyRep (k : Q) (w : Nat → Spec.Word) : Prop :=
  ∀ r c, (hr : r < 4) → c < 4 → k.at (16 * r + 4 * c) = (w c)[r]

theorem addroundkey_rep {q k : Q} {s : State} {w : Nat → Spec.Word} (h : Rep q s) (hk : KeyRep k w) :
    Rep (addroundkey q k) (Spec.addRoundKey s w) := by
  intro r c hr hc
  rw [Spec.addRoundKey, at_mk' _ hr hc, ← h r c hr hc]
  have := hk r c hr hc
  simp only [Nat.mod_eq_of_lt hr, ← this]
  apply bits_inj
  rw [bits_xor, bits_at, bits_at, bits_at]
  simp [addroundkey, Oct.map]

end Verif.Aes
