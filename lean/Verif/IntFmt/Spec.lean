import Verif.Utf.Spec

/-!
# Specification: positional notation
-/

namespace Verif.IntFmt
open Verif.Utf (Char32)

/-- The number with the given digits, most significant first. -/
def ofDigits (b : Nat) (ds : List Nat) : Nat := ds.foldl (fun v d => b * v + d) 0

/-- `ds` is the canonical base-`b` numeral of `n`. -/
structure Numeral (b n : Nat) (ds : List Nat) : Prop where
  ne : ds ≠ []
  lt : ∀ d ∈ ds, d < b
  value : ofDigits b ds = n
  lead : ∀ d rest, ds = d :: rest → d = 0 → rest = []

/-- The character of a digit below 36. -/
def glyph (d : Nat) : Byte := BitVec.ofNat 8 (if d < 10 then 48 + d else 87 + d)

/-- Sign, padding and digits: zeros go between the sign and the digits, other fill
characters before the sign; the width is counted in characters. -/
def layout (fill : Char32) (padto : Nat) (neg : Bool) (ds : List Nat) : List Byte :=
  let sign : List Byte := if neg then [45] else []
  let pad := (List.replicate (padto - (ds.length + sign.length)) (Utf.utf8 fill.toNat)).flatten
  if fill.toNat = 48 then sign ++ pad ++ ds.map glyph else pad ++ sign ++ ds.map glyph

/-- The value of a digit character. -/
def digitOf (c : Char32) : Option Nat :=
  if 48 ≤ c.toNat ∧ c.toNat ≤ 57 then some (c.toNat - 48)
  else if 97 ≤ c.toNat ∧ c.toNat ≤ 122 then some (c.toNat - 87)
  else if 65 ≤ c.toNat ∧ c.toNat ≤ 90 then some (c.toNat - 55)
  else none

/-- The number written by a text of digits below `b` and underscores. -/
def readNum (b : Nat) (cs : List Char32) : Option Nat :=
  ((cs.filter (· ≠ 95#32)).mapM fun c => (digitOf c).bind fun d => if d < b then some d else none).map (ofDigits b)

end Verif.IntFmt
