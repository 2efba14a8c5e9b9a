import Verif.Alloc.Model

/-!
# What the heap promises

Independent of how it is kept: histories of requests, and where the blocks which are live are.
-/

namespace Verif.Alloc

/-- What is expected of the system: memory is whole pages, not at address zero, below 2^47, and not already mapped. -/
def Contract (st : St) (os : Nat → Option Nat) : Prop :=
  ∀ n p, os n = some p → 0 < p ∧ p % 4096 = 0 ∧ p + n ≤ 2 ^ 47 ∧ ∀ x, p ≤ x → x < p + n → st.mapped x = false

/-- The heap after a history of requests, with the blocks which are live as pairs of an address and the size asked for. The
program may write what it likes into live blocks. `A` says what the system may answer to a request of a size. -/
inductive Reach (A : (Nat → Option Nat) → Nat → Prop) : St → List (Nat × Nat) → Prop
  | init (m : Mem) : Reach A (init m) []
  | alloc {st st' : St} {L : List (Nat × Nat)} {os : Nat → Option Nat} {sz p : Nat} : Reach A st L → Contract st os → A os sz →
      bytealloc os st sz = .ok (p, st') → Reach A st' ((p, sz) :: L)
  | zalloc {st st' : St} {L : List (Nat × Nat)} {os : Nat → Option Nat} {sz p : Nat} : Reach A st L → Contract st os → A os sz →
      zbytealloc os st sz = .ok (p, st') → Reach A st' ((p, sz) :: L)
  | free {st st' : St} {L : List (Nat × Nat)} {sz p : Nat} : Reach A st L → (p, sz) ∈ L → bytefree st p sz = .ok st' → Reach A st' (L.erase (p, sz))
  | write {st : St} {L : List (Nat × Nat)} {sz p : Nat} {m' : Mem} : Reach A st L → (p, sz) ∈ L → (∀ x, (x < p ∨ p + sz ≤ x) → m' x = st.mem x) →
      Reach A { st with mem := m' } L

/-- The system may fail. -/
def Any (_ : Nat → Option Nat) (_ : Nat) : Prop := True
/-- The system has the memory: two slabs for small blocks, whole pages for large ones. -/
def Answers (os : Nat → Option Nat) (sz : Nat) : Prop := (os (if sz ≤ 131072 then 1048576 else (sz + 4095) / 4096 * 4096)).isSome = true

/-- Two blocks have no byte in common; a block of no bytes is still somewhere of its own. -/
def Disjoint (x y : Nat × Nat) : Prop := x.1 + max x.2 1 ≤ y.1 ∨ y.1 + max y.2 1 ≤ x.1

/-- A block is aligned, and all of it is memory. -/
def Usable (st : St) (x : Nat × Nat) : Prop := x.1 ≠ 0 ∧ x.1 % 16 = 0 ∧ ∀ a, x.1 ≤ a → a < x.1 + x.2 → st.mapped a = true

/-- What C17 claims. -/
def Sound (A : (Nat → Option Nat) → Nat → Prop) : Prop := ∀ st L, Reach A st L → L.Pairwise Disjoint ∧ ∀ x ∈ L, Usable st x

/-- The smallest of the sizes 16, 32, 64, … which is enough. -/
def Tight (sz b : Nat) : Prop := (∃ k, b = 16 * 2 ^ k) ∧ sz ≤ b ∧ ∀ k, sz ≤ 16 * 2 ^ k → b ≤ 16 * 2 ^ k

end Verif.Alloc
