import Verif.Sort.Model

/-!
# Specification notions for sorting, searching and comparing
-/

namespace Verif.Sort

/-- `cmp` is a total preorder (specification): `Before` is irreflexive-asymmetric and
"not before" is transitive. -/
structure Preorder' {α : Type} (cmp : α → α → Order) : Prop where
  asymm : ∀ a b, cmp a b = .before → cmp b a ≠ .before
  trans : ∀ a b c, cmp a b ≠ .before → cmp b c ≠ .before → cmp a c ≠ .before

/-- Nondecreasing: no element comes before an earlier one (specification). -/
def Nondecreasing {α : Type} (cmp : α → α → Order) (l : List α) : Prop :=
  l.Pairwise fun a b => cmp b a ≠ .before

/-- Lexicographic comparison, a proper prefix first (specification). -/
def lex : List Nat → List Nat → Order
  | [], [] => .equal
  | [], _ :: _ => .before
  | _ :: _, [] => .after
  | a :: as, b :: bs => if a < b then .before else if b < a then .after else lex as bs

/-- The reversed outcome (specification). -/
def Order.flip : Order → Order
  | .before => .after
  | .equal => .equal
  | .after => .before

end Verif.Sort
