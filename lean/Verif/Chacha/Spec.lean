import Verif.Crypto.Spec

/-!
# What ChaCha20 is

D. J. Bernstein's ChaCha20 (RFC 8439, 2.1-2.4, with the original's counter of 64
bits and nonce of 64 bits, and keys of 256 or 128 bits). Nothing here mentions
the model.
-/

namespace Verif.Chacha.Spec

open Crypto.Spec (le leNum part)

/-- The state: sixteen words. -/
abbrev State := Fin 16 → BitVec 32

/-- The state with one word changed. -/
def set (s : State) (i : Fin 16) (v : BitVec 32) : State := fun j => if i = j then v else s j

/-- RFC 8439, 2.1: `a += b; d ^= a; d <<<= n`. -/
def half (a b d : Fin 16) (n : Nat) (s : State) : State :=
  let s := set s a (s a + s b)
  set s d ((s d ^^^ s a).rotateLeft n)

/-- RFC 8439, 2.1: the quarter round on four of the words. -/
def quarter (a b c d : Fin 16) (s : State) : State :=
  half c d b 7 (half a b d 8 (half c d b 12 (half a b d 16 s)))

/-- RFC 8439, 2.3: a column round and a diagonal round. -/
def double (s : State) : State :=
  let s := quarter 3 7 11 15 (quarter 2 6 10 14 (quarter 1 5 9 13 (quarter 0 4 8 12 s)))
  quarter 3 4 9 14 (quarter 2 7 8 13 (quarter 1 6 11 12 (quarter 0 5 10 15 s)))

/-- RFC 8439, 2.3: the block of keystream a state stands for; twenty rounds. -/
def block (s : State) : List Byte :=
  let r := double (double (double (double (double (double (double (double (double (double s)))))))))
  (List.ofFn fun i => s i + r i).flatMap fun w => le 4 w.toNat

/-- `"expand 32-byte k"` or `"expand 16-byte k"`. -/
def constant (key : List Byte) : List Byte :=
  if key.length = 32 then "expand 32-byte k".toUTF8.toList.map (·.toBitVec)
  else "expand 16-byte k".toUTF8.toList.map (·.toBitVec)

/-- The state: the constant, the key (twice, if it has 128 bits), the counter and
the nonce. -/
def state (key nonce : List Byte) (ctr : Nat) : State := fun i =>
  BitVec.ofNat 32 (leNum (part 4 (constant key ++ (key ++ key).take 32 ++ le 8 ctr ++ nonce) i.val))

/-- Byte `i` of the keystream from block `ctr` on. -/
def keystream (key nonce : List Byte) (ctr i : Nat) : Byte :=
  (block (state key nonce (ctr + i / 64))).getD (i % 64) 0

/-- RFC 8439, 2.4: the message xored with the keystream. -/
def crypt (key nonce : List Byte) (ctr : Nat) (msg : List Byte) : List Byte :=
  msg.mapIdx fun i b => b ^^^ keystream key nonce ctr i

end Verif.Chacha.Spec
