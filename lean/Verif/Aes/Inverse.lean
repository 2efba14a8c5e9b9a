import Verif.Aes.Rounds

/-! # The inverse cipher of the standard is the inverse of its cipher -/

namespace Verif.Aes

open Spec (State Word)

theorem state_ext {s t : State} (h : ∀ r c, r < 4 → c < 4 → s.at r c = t.at r c) : s = t := by
  apply Vector.ext
  intro i hi
  have := h (i % 4) (i / 4) (by omega) (by omega)
  unfold Spec.State.at at this
  simp only [show i % 4 % 4 + 4 * (i / 4 % 4) = i by omega] at this
  exact this

theorem isub_sub_table : ∀ b : Fin 256, Spec.isub (Spec.sub (BitVec.ofFin b)) = BitVec.ofFin b := by decide +kernel

theorem isub_sub (b : Byte) : Spec.isub (Spec.sub b) = b := isub_sub_table b.toFin

theorem invSub_sub (s : State) : Spec.invSubBytes (Spec.subBytes s) = s := by
  apply state_ext
  intro r c hr hc
  unfold Spec.invSubBytes Spec.subBytes
  rw [at_mk' _ hr hc, at_mk' _ hr hc, isub_sub]

theorem invShift_shift (s : State) : Spec.invShiftRows (Spec.shiftRows s) = s := by
  apply state_ext
  intro r c hr hc
  unfold Spec.invShiftRows
  rw [at_mk' _ hr hc, ← at_mod]
  unfold Spec.shiftRows
  rw [at_mk' _ hr (Nat.mod_lt _ (by decide)), ← at_mod]
  congr 1
  omega

theorem xtime_xor (a b : Byte) : Spec.xtime (a ^^^ b) = Spec.xtime a ^^^ Spec.xtime b := by
  unfold Spec.xtime
  rw [BitVec.getLsbD_xor, BitVec.shiftLeft_xor_distrib]
  generalize a <<< 1 = x; generalize b <<< 1 = y
  cases a.getLsbD 7 <;> cases b.getLsbD 7
  · simp
  · simp [BitVec.xor_assoc]
  · simp only [Bool.xor_false, if_true, Bool.false_eq_true, if_false]; ac_rfl
  · simp only [Bool.xor_self, Bool.false_eq_true, if_false, if_true]
    rw [show x ^^^ 27 ^^^ (y ^^^ 27) = x ^^^ y ^^^ ((27 : Byte) ^^^ 27) by ac_rfl, BitVec.xor_self]
    rfl

theorem mulFrom_xor (k : Byte) : ∀ (n : Nat) (a b : Byte), Spec.mulFrom k (a ^^^ b) n = Spec.mulFrom k a n ^^^ Spec.mulFrom k b n
  | 0, _, _ => by unfold Spec.mulFrom; decide
  | n + 1, a, b => by
    unfold Spec.mulFrom
    rw [xtime_xor, mulFrom_xor k n]
    cases k.getLsbD (7 - n)
    · simp
    · simp only [if_true]; ac_rfl

theorem mul_xor (k a b : Byte) : Spec.mul k (a ^^^ b) = Spec.mul k a ^^^ Spec.mul k b := mulFrom_xor k 8 a b

theorem mix_table : ∀ b : Fin 256, let x : Byte := BitVec.ofFin b
    Spec.mul 0x0e (Spec.mul 2 x) ^^^ Spec.mul 0x0b x ^^^ Spec.mul 0x0d x ^^^ Spec.mul 0x09 (Spec.mul 3 x) = x ∧
    Spec.mul 0x0e (Spec.mul 3 x) ^^^ Spec.mul 0x0b (Spec.mul 2 x) ^^^ Spec.mul 0x0d x ^^^ Spec.mul 0x09 x = 0 ∧
    Spec.mul 0x0e x ^^^ Spec.mul 0x0b (Spec.mul 3 x) ^^^ Spec.mul 0x0d (Spec.mul 2 x) ^^^ Spec.mul 0x09 x = 0 ∧
    Spec.mul 0x0e x ^^^ Spec.mul 0x0b x ^^^ Spec.mul 0x0d (Spec.mul 3 x) ^^^ Spec.mul 0x09 (Spec.mul 2 x) = 0 := by
  decide +kernel

theorem sixteen (a0 a1 a2 a3 b0 b1 b2 b3 c0 c1 c2 c3 d0 d1 d2 d3 : Byte) :
    (a0 ^^^ a1 ^^^ a2 ^^^ a3) ^^^ (b0 ^^^ b1 ^^^ b2 ^^^ b3) ^^^ (c0 ^^^ c1 ^^^ c2 ^^^ c3) ^^^ (d0 ^^^ d1 ^^^ d2 ^^^ d3) =
    (a0 ^^^ b3 ^^^ c2 ^^^ d1) ^^^ (a1 ^^^ b0 ^^^ c3 ^^^ d2) ^^^ (a2 ^^^ b1 ^^^ c0 ^^^ d3) ^^^ (a3 ^^^ b2 ^^^ c1 ^^^ d0) := by
  ac_rfl

theorem mix_column (x y z w : Byte) :
    Spec.mul 0x0e (Spec.mul 2 x ^^^ Spec.mul 3 y ^^^ z ^^^ w) ^^^ Spec.mul 0x0b (Spec.mul 2 y ^^^ Spec.mul 3 z ^^^ w ^^^ x) ^^^
    Spec.mul 0x0d (Spec.mul 2 z ^^^ Spec.mul 3 w ^^^ x ^^^ y) ^^^ Spec.mul 0x09 (Spec.mul 2 w ^^^ Spec.mul 3 x ^^^ y ^^^ z) = x := by
  simp only [mul_xor]
  rw [sixteen]
  have hx := (mix_table x.toFin).1
  have hy := (mix_table y.toFin).2.1
  have hz := (mix_table z.toFin).2.2.1
  have hw := (mix_table w.toFin).2.2.2
  simp only [BitVec.ofFin_toFin] at hx hy hz hw
  rw [hx, hy, hz, hw]
  simp

theorem invMix_mix (s : State) : Spec.invMixColumns (Spec.mixColumns s) = s := by
  have hm : ∀ r c, c < 4 → (Spec.mixColumns s).at r c =
      Spec.mul 2 (s.at r c) ^^^ Spec.mul 3 (s.at (r + 1) c) ^^^ s.at (r + 2) c ^^^ s.at (r + 3) c := by
    intro r c hc
    rw [← at_mod']
    unfold Spec.mixColumns
    rw [at_mk' _ (Nat.mod_lt _ (by decide)) hc, at_mod', ← at_mod' s (r % 4 + 1), ← at_mod' s (r % 4 + 2), ← at_mod' s (r % 4 + 3),
      ← at_mod' s (r + 1), ← at_mod' s (r + 2), ← at_mod' s (r + 3), Nat.mod_add_mod, Nat.mod_add_mod, Nat.mod_add_mod]
  apply state_ext
  intro r c hr hc
  unfold Spec.invMixColumns
  rw [at_mk' _ hr hc, hm r c hc, hm (r + 1) c hc, hm (r + 2) c hc, hm (r + 3) c hc]
  have h4 : ∀ k, s.at (r + (4 + k)) c = s.at (r + k) c := by
    intro k
    rw [← at_mod', ← at_mod' s (r + k)]
    congr 1
    omega
  have e4 := h4 0
  have e5 := h4 1
  have e6 := h4 2
  simp only [Nat.add_assoc, Nat.reduceAdd] at e4 e5 e6 ⊢
  rw [e4, e5, e6]
  exact mix_column _ _ _ _

theorem add_add (s : State) (w : Nat → Word) : Spec.addRoundKey (Spec.addRoundKey s w) w = s := by
  apply state_ext
  intro r c hr hc
  unfold Spec.addRoundKey
  rw [at_mk' _ hr hc, at_mk' _ hr hc, BitVec.xor_assoc, BitVec.xor_self, BitVec.xor_zero]

theorem cipherRounds_succ (w : List Word) : ∀ (n i : Nat) (s : State), Spec.cipherRounds w i s (n + 1) =
    Spec.addRoundKey (Spec.mixColumns (Spec.shiftRows (Spec.subBytes (Spec.cipherRounds w i s n)))) (Spec.roundKey w (i + n))
  | 0, _, _ => rfl
  | n + 1, i, s => by
    rw [Spec.cipherRounds, cipherRounds_succ w n (i + 1), Spec.cipherRounds, show i + 1 + n = i + (n + 1) by omega]

theorem invRounds_cipherRounds (w : List Word) (s : State) : ∀ n, Spec.invRounds w (Spec.shiftRows (Spec.subBytes (Spec.cipherRounds w 1 s n))) n =
    Spec.shiftRows (Spec.subBytes s)
  | 0 => rfl
  | n + 1 => by
    rw [Spec.invRounds, invShift_shift, invSub_sub, cipherRounds_succ, Nat.add_comm 1 n, add_add, invMix_mix, invRounds_cipherRounds w s n]

theorem invCipher_cipher (w : List Word) (nr : Nat) (s : State) : Spec.invCipher w nr (Spec.cipher w nr s) = s := by
  unfold Spec.invCipher Spec.cipher
  rw [add_add, invRounds_cipherRounds, invShift_shift, invSub_sub, add_add]

theorem toState_toList (s : State) : Spec.toState s.toList = s := by
  apply Vector.ext
  intro i hi
  unfold Spec.toState
  rw [Vector.getElem_ofFn, List.getD_eq_getElem?_getD, List.getElem?_eq_getElem (by simpa using hi)]
  exact Vector.getElem_toList ..

theorem toList_toState {b : List Byte} (h : b.length = 16) : (Spec.toState b).toList = b := by
  apply List.ext_getElem
  · rw [Vector.length_toList, h]
  · intro i h1 h2
    rw [Vector.getElem_toList]
    unfold Spec.toState
    rw [Vector.getElem_ofFn, List.getD_eq_getElem?_getD, List.getElem?_eq_getElem h2]
    rfl

theorem decryptBlock_encryptBlock (key : List Byte) {b : List Byte} (h : b.length = 16) : Spec.decryptBlock key (Spec.encryptBlock key b) = b := by
  unfold Spec.decryptBlock Spec.encryptBlock
  rw [toState_toList, invCipher_cipher, toList_toState h]

theorem eachBlock_eachBlock {f g : List Byte → List Byte} (hf : ∀ b, (f b).length = 16) (h : ∀ b, b.length = 16 → g (f b) = b) :
    ∀ (n : Nat) (m : List Byte), m.length = 16 * n → Spec.eachBlock g n (Spec.eachBlock f n m) = m
  | 0, m, hm => by rw [List.length_eq_zero_iff.mp (by omega : m.length = 0)]; rfl
  | n + 1, m, hm => by
    rw [Spec.eachBlock, Spec.eachBlock, List.take_left' (hf _), List.drop_left' (hf _), eachBlock_eachBlock hf h n _ (by rw [List.length_drop]; omega),
      h _ (by rw [List.length_take]; omega), List.take_append_drop]

theorem eachBlock_length {f : List Byte → List Byte} (hf : ∀ b, (f b).length = 16) : ∀ (n : Nat) (m : List Byte),
    (Spec.eachBlock f n m).length = 16 * n
  | 0, _ => rfl
  | n + 1, m => by
    unfold Spec.eachBlock
    rw [List.length_append, hf, eachBlock_length hf n]
    omega

end Verif.Aes
