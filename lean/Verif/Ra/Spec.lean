/-!
# The hardware side of register allocation

Facts about the machine which the allocator has to respect, stated without its tables. Machine registers are numbered in the
order of `6/regs.def`: 1–16 the byte registers (`al cl dl bl sil dil spl bpl r8b …`), 17–20 `ah ch dh bh`, 21–36 the word,
37–52 the long and 53–68 the quad registers in the same order as the byte registers, 69–84 and 85–100 `xmm0 …` as float and as
double, 101 `rip`.
-/

namespace Verif.Ra

/-- The storage a machine register names: 0–15 the general registers `a c d b si di sp bp 8 …`, 16–31 the vector registers,
32 the instruction pointer. -/
def family (r : Nat) : Option Nat :=
  if r = 0 then none
  else if r ≤ 16 then some (r - 1)
  else if r ≤ 20 then some (r - 17)
  else if r ≤ 36 then some (r - 21)
  else if r ≤ 52 then some (r - 37)
  else if r ≤ 68 then some (r - 53)
  else if r ≤ 84 then some (r - 69 + 16)
  else if r ≤ 100 then some (r - 85 + 16)
  else if r = 101 then some 32
  else none

/-- Writing one register changes the other. -/
def Overlap (a b : Nat) : Prop := ∃ f, family a = some f ∧ family b = some f

instance (a b : Nat) : Decidable (Overlap a b) :=
  match h : family a with
  | none => isFalse fun ⟨_, h1, _⟩ => by rw [h] at h1; exact absurd h1 (by simp)
  | some f => if h2 : family b = some f then isTrue ⟨f, h, h2⟩
    else isFalse fun ⟨g, h1, h3⟩ => by rw [h] at h1; cases h1; exact h2 h3

/-- The registers values may be put in: the general registers other than the stack and frame pointers and the high bytes,
and the vector registers. -/
def Usable (r : Nat) : Prop := 1 ≤ r ∧ r ≤ 100 ∧ r ∉ [7, 8, 17, 18, 19, 20, 27, 28, 43, 44, 59, 60]

instance (r : Nat) : Decidable (Usable r) := inferInstanceAs (Decidable (_ ∧ _))

/-- The stack pointer, the frame pointer and the instruction pointer. -/
def Fixed (r : Nat) : Prop := r = 59 ∨ r = 60 ∨ r = 101

instance (r : Nat) : Decidable (Fixed r) := inferInstanceAs (Decidable (_ ∨ _))

/-- Virtual registers. -/
def Virtual (r : Nat) : Prop := 102 ≤ r

/-- Two registers are joined by one of the given edges. -/
def Joined (edges : List (Nat × Nat)) (a b : Nat) : Prop := (a, b) ∈ edges ∨ (b, a) ∈ edges

end Verif.Ra
