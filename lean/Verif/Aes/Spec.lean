import Verif.Prelude

/-!
# AES as FIPS 197 has it

Independent of the model: bytes, the field of 256 elements, the state of 16 bytes (byte `r + 4 c` is in row
`r` and column `c`), the key expansion, the cipher and its inverse.
-/

namespace Verif.Aes.Spec

/-- `xtime` (4.2.1): times the polynomial x. -/
def xtime (b : Byte) : Byte := b <<< 1 ^^^ (if b.getLsbD 7 then 0x1b else 0)

/-- The product in the field (4.2): the sum of the multiples of `b` by the powers of x in `a`, from the lowest of the `n` lowest on. -/
def mulFrom (a b : Byte) : Nat → Byte
  | 0 => 0
  | n + 1 => (if a.getLsbD (7 - n) then b else 0) ^^^ mulFrom a (xtime b) n

/-- The product in the field (4.2). -/
def mul (a b : Byte) : Byte := mulFrom a b 8

/-- The square. -/
def sq (a : Byte) : Byte := mul a a

/-- The inverse, or 0 of 0 (4.2): the power 254, which is 2 + 4 + … + 128. -/
def inv (a : Byte) : Byte :=
  let a2 := sq a
  let a4 := sq a2
  let a8 := sq a4
  let a16 := sq a8
  let a32 := sq a16
  let a64 := sq a32
  mul a2 (mul a4 (mul a8 (mul a16 (mul a32 (mul a64 (sq a64))))))

/-- The S-box (5.1.1): the inverse, then the affine transformation. -/
def sub (b : Byte) : Byte :=
  let x := inv b
  x ^^^ x.rotateLeft 1 ^^^ x.rotateLeft 2 ^^^ x.rotateLeft 3 ^^^ x.rotateLeft 4 ^^^ 0x63

/-- The inverse S-box (5.3.2). -/
def isub (b : Byte) : Byte := inv (b.rotateLeft 1 ^^^ b.rotateLeft 3 ^^^ b.rotateLeft 6 ^^^ 0x05)

/-- The state (3.4). -/
abbrev State := Vector Byte 16

/-- The byte in row `r` and column `c`, both modulo 4. -/
def State.at (s : State) (r c : Nat) : Byte := s[r % 4 + 4 * (c % 4)]'(by omega)

/-- The state with these bytes in rows and columns. -/
def mk (f : Nat → Nat → Byte) : State := Vector.ofFn (fun i : Fin 16 => f (i.val % 4) (i.val / 4))

/-- `SubBytes` (5.1.1). -/
def subBytes (s : State) : State := mk fun r c => sub (s.at r c)

/-- `ShiftRows` (5.1.2). -/
def shiftRows (s : State) : State := mk fun r c => s.at r (c + r)

/-- `MixColumns` (5.1.3). -/
def mixColumns (s : State) : State := mk fun r c =>
  mul 2 (s.at r c) ^^^ mul 3 (s.at (r + 1) c) ^^^ s.at (r + 2) c ^^^ s.at (r + 3) c

/-- `InvSubBytes` (5.3.2). -/
def invSubBytes (s : State) : State := mk fun r c => isub (s.at r c)

/-- `InvShiftRows` (5.3.1). -/
def invShiftRows (s : State) : State := mk fun r c => s.at r (c + 4 - r)

/-- `InvMixColumns` (5.3.3). -/
def invMixColumns (s : State) : State := mk fun r c =>
  mul 0x0e (s.at r c) ^^^ mul 0x0b (s.at (r + 1) c) ^^^ mul 0x0d (s.at (r + 2) c) ^^^ mul 0x09 (s.at (r + 3) c)

/-- A word of the key schedule (5.2). -/
abbrev Word := Vector Byte 4

/-- The sum of two words. -/
def wxor (a b : Word) : Word := Vector.ofFn fun i => a[i] ^^^ b[i]

/-- `SubWord` (5.2). -/
def subWord (a : Word) : Word := Vector.ofFn fun i => sub a[i]

/-- `RotWord` (5.2). -/
def rotWord (a : Word) : Word := Vector.ofFn fun i => a[i + 1]

/-- `Rcon[i]` (5.2), from 1 on: a power of x, and zeros. -/
def rcon (i : Nat) : Word := #v[Nat.repeat xtime (i - 1) 1, 0, 0, 0]

/-- `AddRoundKey` (5.1.4), with four words. -/
def addRoundKey (s : State) (w : Nat → Word) : State := mk fun r c => s.at r c ^^^ (w c)[r % 4]'(Nat.mod_lt _ (by decide))

/-- The next word of the key schedule (5.2, figure 11), after the words `ws`. -/
def nextWord (nk : Nat) (ws : List Word) : Word :=
  let i := ws.length
  let temp := ws.getLastD 0
  let temp :=
    if i % nk = 0 then wxor (subWord (rotWord temp)) (rcon (i / nk))
    else if nk > 6 ∧ i % nk = 4 then subWord temp
    else temp
  wxor (ws.getD (i - nk) 0) temp

/-- `KeyExpansion` (5.2, figure 11): `n` more words. -/
def expandKey (nk : Nat) : Nat → List Word → List Word
  | 0, ws => ws
  | n + 1, ws => expandKey nk n (ws ++ [nextWord nk ws])

/-- The words of the key. -/
def keyWords (key : List Byte) : List Word :=
  (List.range (key.length / 4)).map fun i => Vector.ofFn fun j : Fin 4 => key.getD (4 * i + j) 0

/-- The number of rounds (figure 4). -/
def rounds (key : List Byte) : Nat := key.length / 4 + 6

/-- The key schedule of a key: `Nb (Nr + 1)` words. -/
def schedule (key : List Byte) : List Word :=
  expandKey (key.length / 4) (4 * (rounds key + 1) - key.length / 4) (keyWords key)

/-- The words of round `i`. -/
def roundKey (w : List Word) (i : Nat) : Nat → Word := fun c => w.getD (4 * i + c) 0

/-- The rounds of `Cipher` (5.1, figure 5) but the last: `n` of them from round `i` on. -/
def cipherRounds (w : List Word) (i : Nat) (s : State) : Nat → State
  | 0 => s
  | n + 1 => cipherRounds w (i + 1) (addRoundKey (mixColumns (shiftRows (subBytes s))) (roundKey w i)) n

/-- `Cipher` (5.1, figure 5), `nr` rounds. -/
def cipher (w : List Word) (nr : Nat) (s : State) : State :=
  addRoundKey (shiftRows (subBytes (cipherRounds w 1 (addRoundKey s (roundKey w 0)) (nr - 1)))) (roundKey w nr)

/-- The rounds of `InvCipher` (5.3, figure 12) but the last: from round `u` down. -/
def invRounds (w : List Word) (s : State) : Nat → State
  | 0 => s
  | u + 1 => invRounds w (invMixColumns (addRoundKey (invSubBytes (invShiftRows s)) (roundKey w (u + 1)))) u

/-- `InvCipher` (5.3, figure 12), `nr` rounds. -/
def invCipher (w : List Word) (nr : Nat) (s : State) : State :=
  addRoundKey (invSubBytes (invShiftRows (invRounds w (addRoundKey s (roundKey w nr)) (nr - 1)))) (roundKey w 0)

/-- The state of the 16 bytes of a block (3.4). -/
def toState (b : List Byte) : State := Vector.ofFn fun i : Fin 16 => b.getD i 0

/-- The encryption of a block. -/
def encryptBlock (key b : List Byte) : List Byte := (cipher (schedule key) (rounds key) (toState b)).toList

/-- The decryption of a block. -/
def decryptBlock (key b : List Byte) : List Byte := (invCipher (schedule key) (rounds key) (toState b)).toList

/-- Every one of `n` blocks of a message put through `f`. -/
def eachBlock (f : List Byte → List Byte) : Nat → List Byte → List Byte
  | 0, _ => []
  | n + 1, m => f (m.take 16) ++ eachBlock f n (m.drop 16)

/-- The multiplication is that of the field: inverses are inverses. -/
theorem mul_inv : ∀ a : Fin 256, a ≠ 0 → mul (BitVec.ofFin a) (inv (BitVec.ofFin a)) = 1 := by decide +kernel

end Verif.Aes.Spec
