import Verif.Alloc.SliceModel
import Verif.Alloc.Spec

/-!
# What slices on the heap promise
-/

namespace Verif.Alloc

/-- A slice is in a live block of its own with a header before and a mark after its elements. -/
def Held1 (st : St) (L : List (Nat × Nat)) (es : Nat) (s : Sl) (blk : Nat × Nat) : Prop :=
  blk ∈ L ∧ s.p = blk.1 + 16 ∧ ∃ cap, blk.2 = cap + 24 ∧ rd st.mem blk.1 = cap ∧ rd st.mem (blk.1 + 8) = Headmagic ∧ rd st.mem (s.p + cap) = Tailmagic ∧ s.len * es ≤ cap

/-- A slice is the empty one, or it is in a live block. -/
def Holds (st : St) (L : List (Nat × Nat)) (es : Nat) (s : Sl) : Prop := (s.p = 0 ∧ s.len * es = 0) ∨ ∃ blk, Held1 st L es s blk

/-- The system has as much as `n` bytes. -/
def Rich (os : Nat → Option Nat) (n : Nat) : Prop := ∀ k, 0 < k → k ≤ n → (os k).isSome = true

/-- The bytes of a block did not change. -/
def Kept (st st' : St) (y : Nat × Nat) : Prop := ∀ x, y.1 ≤ x → x < y.1 + y.2 → st'.mem x = st.mem x

end Verif.Alloc
