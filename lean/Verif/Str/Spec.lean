import Verif.Prelude

/-!
# Specification of string searching
-/

namespace Verif.Str

/-- `n` occurs in `h` at offset `i` (specification). -/
def OccursAt (n h : List Byte) (i : Nat) : Prop := ∃ a b, h = a ++ n ++ b ∧ a.length = i

/-- `n` occurs somewhere in `h` (specification). -/
def Occurs (n h : List Byte) : Prop := ∃ i, OccursAt n h i

/-- The pieces with the delimiter between each two (specification). -/
def join (d : List Byte) : List (List Byte) → List Byte
  | [] => []
  | [x] => x
  | x :: y :: ys => x ++ d ++ join d (y :: ys)

/-- `ps` is `s` cut at the leftmost non-overlapping occurrences of `d` (specification):
the last piece does not contain `d`, and following each other piece `d` occurs for the
first time right at its end. -/
def CutLeftmost (d : List Byte) : List (List Byte) → Prop
  | [] => False
  | [x] => ¬ Occurs d x
  | x :: y :: ys => (∀ k, OccursAt d (x ++ d) k → k = x.length) ∧ CutLeftmost d (y :: ys)

end Verif.Str
