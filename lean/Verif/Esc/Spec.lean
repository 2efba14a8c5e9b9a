import Verif.Prelude

/-!
# Specification: reading back quoted text

Independent of the code.
-/

namespace Verif.Esc

/-- The state of a shell reading a word (POSIX, Shell Command Language, 2.2 Quoting). -/
inductive Sh where
  /-- outside quotes -/
  | plain
  /-- outside quotes, after a backslash -/
  | escaped
  /-- between single quotes -/
  | quoted
deriving DecidableEq

/-- Characters that end a word outside quotes: blanks, newline and the operators (2.3, 2.10). -/
def shEnds (b : Byte) : Bool := b ∈ [32#8, 9, 10, 59, 38, 124, 60, 62, 40, 41]

/-- Characters with another meaning outside quotes: expansions, double quotes, patterns, comments,
tilde; this reader does not follow them. -/
def shSpecial (b : Byte) : Bool := b ∈ [36#8, 96, 34, 42, 63, 91, 93, 35, 126, 61, 37, 123, 125, 33, 0]

/-- Reads the rest of a word: the characters of the word after quote removal and the text left;
`none` if the shell would do something else than read a literal word. -/
def shRead : Sh → List Byte → Option (List Byte × List Byte)
  | .plain, [] => some ([], [])
  | .plain, b :: r =>
    if shEnds b then some ([], b :: r)
    else if b = 39#8 then shRead .quoted r
    else if b = 92#8 then shRead .escaped r
    else if shSpecial b then none
    else (shRead .plain r).map fun p => (b :: p.1, p.2)
  | .escaped, [] => none
  | .escaped, b :: r => if b = 10#8 then none else (shRead .plain r).map fun p => (b :: p.1, p.2)
  | .quoted, [] => none
  | .quoted, b :: r =>
    if b = 39#8 then shRead .plain r
    else (shRead .quoted r).map fun p => (b :: p.1, p.2)

/-- Reading HTML text: the character references used here (HTML, 13.5). -/
def unhtml : List Byte → List Byte
  | 38 :: 97 :: 109 :: 112 :: 59 :: r => 38 :: unhtml r
  | 38 :: 108 :: 116 :: 59 :: r => 60 :: unhtml r
  | 38 :: 103 :: 116 :: 59 :: r => 62 :: unhtml r
  | 38 :: 113 :: 117 :: 111 :: 116 :: 59 :: r => 34 :: unhtml r
  | 38 :: 35 :: 120 :: 50 :: 102 :: 59 :: r => 47 :: unhtml r
  | b :: r => b :: unhtml r
  | [] => []

/-- The value of a hexadecimal digit. -/
def hexval (b : Byte) : Option Nat :=
  if 48 ≤ b.toNat ∧ b.toNat ≤ 57 then some (b.toNat - 48)
  else if 97 ≤ b.toNat ∧ b.toNat ≤ 102 then some (b.toNat - 87)
  else if 65 ≤ b.toNat ∧ b.toNat ≤ 70 then some (b.toNat - 55)
  else none

/-- Percent-decoding (RFC 3986, 2.1); `none` for an incomplete triplet. -/
def unpct : List Byte → Option (List Byte)
  | [] => some []
  | b :: r =>
    if b = 37#8 then
      match r with
      | h :: l :: r' =>
        match hexval h, hexval l with
        | some x, some y => (unpct r').map (BitVec.ofNat 8 (16 * x + y) :: ·)
        | _, _ => none
      | _ => none
    else (unpct r).map (b :: ·)

/-- The reserved characters of RFC 3986, 2.2. -/
def reserved : List Byte := [58, 47, 63, 35, 91, 93, 64, 33, 36, 38, 39, 40, 41, 42, 43, 44, 59, 61]

end Verif.Esc
