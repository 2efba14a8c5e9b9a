import Verif.Big.Model
import Verif.IntFmt.Spec
import Mathlib.Data.Nat.Digits.Defs
import Mathlib.Data.List.Induction

/-!
# Specification of big integers

A big integer stands for an integer if its digits are those of the absolute value to the base 2^32, lowest first and without leading
zeros (`Nat.digits` of Mathlib), and its sign is that of the integer.
-/

namespace Verif.Bigint

/-- `x` is the representation of `z`. -/
def Rep (x : Big) (z : Int) : Prop := x.dig = Nat.digits 4294967296 z.natAbs ∧ x.sign = z.sign

/-- The representation of `z`, for examples. -/
def ofInt (z : Int) : Big := ⟨Nat.digits 4294967296 z.natAbs, z.sign⟩

/-- The text of an integer to a base up to 36: a minus sign, and the digits from the highest. -/
def text (base : Nat) (z : Int) : List Byte :=
  if z = 0 then [48#8] else (if z < 0 then [45#8] else []) ++ ((Nat.digits base z.natAbs).reverse.map IntFmt.glyph)

end Verif.Bigint
