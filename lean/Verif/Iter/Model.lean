import Verif.Sort.Model

/-!
# Model of /repo/lib/iter/{perm,chunk,enum,ref,reverse,zip}.myr

Each `__iternext__` is a function from the iterator state to `none` (false) or the value and
the new state; a `for` loop over the iterator collects the values.
-/

namespace Verif.Iter
open Verif.Sort (Order)

/-- The language's loop over an iterator (the protocol of `__iternext__`): values until it
returns false. -/
def collect {σ α : Type} (next : σ → Res (Option (α × σ))) : Nat → σ → Res (List α)
  | 0, _ => .spin
  | fuel + 1, s => do
    match ← next s with
    | none => pure []
    | some (v, s) => do
      let vs ← collect next fuel s
      pure (v :: vs)

/-! ## perm.myr -/

/-- The first loop, perm.myr:46-55: `none` is the return of false. -/
def pivot {α : Type} (cmp : α → α → Order) (seq : List α) : Nat → Res (Option Nat)
  | 0 => .ok none
  | j + 1 => do
    let a ← rdChk seq j
    let b ← rdChk seq (j + 1)
    if cmp a b = .before then pure (some j) else pivot cmp seq j

/-- The second loop, perm.myr:64-75, from `i` downwards; below 0 the access is out of bounds. -/
def findI {α : Type} (cmp : α → α → Order) (seq : List α) (j : Nat) : Nat → Res Nat
  | 0 => do
    let a ← rdChk seq j
    let b ← rdChk seq 0
    if cmp a b = .before then pure 0 else .abort
  | i + 1 => do
    let a ← rdChk seq j
    let b ← rdChk seq (i + 1)
    if cmp a b = .before then pure (i + 1) else findI cmp seq j i

/-- The last loop, perm.myr:85-89. -/
def revLoop {α : Type} (j : Nat) : Nat → List α → Nat → Res (List α)
  | 0, _, _ => .spin
  | fuel + 1, seq, i =>
    if j + i < seq.length - i then do
      let seq ← Sort.swap seq (j + i) (seq.length - i)
      revLoop j fuel seq (i + 1)
    else .ok seq

/-- `__iternext__` after the first call, perm.myr:45-91.  For an empty sequence `j` is -1, then
-2, and the access `seq[j]` fails. -/
def step {α : Type} (cmp : α → α → Order) (seq : List α) : Res (Option (List α)) :=
  if seq.length = 0 then .abort
  else do
    match ← pivot cmp seq (seq.length - 1) with
    | none => pure none
    | some j => do
      let i ← findI cmp seq j (seq.length - 1)
      let seq ← Sort.swap seq i j
      let seq ← revLoop j (seq.length + 1) seq 1
      pure (some seq)

/-- `__iternext__` of permiter, perm.myr:26-92; the state is (`first`, `seq`). -/
def permNext {α : Type} (cmp : α → α → Order) : Bool × List α → Res (Option (List α × (Bool × List α)))
  | (true, seq) => .ok (some (seq, (false, seq)))
  | (false, seq) => do
    match ← step cmp seq with
    | none => pure none
    | some seq => pure (some (seq, (false, seq)))

/-- A loop over `byperm(a, cmp)`, perm.myr:14-19. -/
def byperm {α : Type} (cmp : α → α → Order) (fuel : Nat) (a : List α) : Res (List (List α)) := do
  let a ← Sort.sort cmp a
  let a ← Sort.sort cmp a
  collect (permNext cmp) fuel (true, a)

/-! ## The others -/

/-- `min`, extremum.myr:8-14, at `size`. -/
def min (a b : Int) : Int := if a < b then a else b

/-- `max`, extremum.myr:16-22, at `size`. -/
def max (a b : Int) : Int := if a > b then a else b

/-- `__iternext__` of chunkiter, chunk.myr:19-29; the state is `idx`. -/
def chunkNext {α : Type} (sl : List α) (blksz : Int) (idx : Int) : Res (Option (List α × Int)) :=
  let len := min blksz (sl.length - idx)
  if idx + len > sl.length ∨ idx ≥ sl.length then .ok none
  else do
    let v ← slice sl idx.toNat (idx + len).toNat
    pure (some (v, idx + blksz))

/-- A loop over `bychunk(a, sz)`, chunk.myr:14-16. -/
def bychunk {α : Type} (fuel : Nat) (a : List α) (sz : Int) : Res (List (List α)) :=
  collect (chunkNext a (max sz 1)) fuel 0

/-- `__iternext__` of enumiter, enum.myr:18-25. -/
def enumNext {α : Type} (sl : List α) (idx : Nat) : Res (Option ((Nat × α) × Nat)) :=
  if idx = sl.length then .ok none
  else do
    let v ← rdChk sl idx
    pure (some ((idx, v), idx + 1))

/-- A loop over `byenum(a)`, enum.myr:13-15. -/
def byenum {α : Type} (fuel : Nat) (a : List α) : Res (List (Nat × α)) := collect (enumNext a) fuel 0

/-- `__iternext__` of refiter, ref.myr:17-24; a pointer to an element is its index, which is
checked against the bounds. -/
def refNext {α : Type} (sl : List α) (idx : Nat) : Res (Option (Nat × Nat)) :=
  if idx = sl.length then .ok none
  else do
    let _ ← rdChk sl idx
    pure (some (idx, idx + 1))

/-- A loop over `byref(a)`, ref.myr:12-14. -/
def byref {α : Type} (fuel : Nat) (a : List α) : Res (List Nat) := collect (refNext a) fuel 0

/-- `__iternext__` of reverseiter, reverse.myr:17-25. -/
def reverseNext {α : Type} (sl : List α) (idx : Nat) : Res (Option (α × Nat)) :=
  if idx > 0 then do
    let v ← rdChk sl (idx - 1)
    pure (some (v, idx - 1))
  else .ok none

/-- A loop over `byreverse(a)`, reverse.myr:12-14. -/
def byreverse {α : Type} (fuel : Nat) (a : List α) : Res (List α) := collect (reverseNext a) fuel a.length

/-- `__iternext__` of zipiter, zip.myr:16-25. -/
def zipNext {α β : Type} (s : List α × List β) : Res (Option ((α × β) × (List α × List β))) :=
  if s.1.length > 0 ∧ s.2.length > 0 then do
    let a ← rdChk s.1 0
    let b ← rdChk s.2 0
    let s1 ← slice s.1 1 s.1.length
    let s2 ← slice s.2 1 s.2.length
    pure (some ((a, b), (s1, s2)))
  else .ok none

/-- A loop over `byzip(a, b)`, zip.myr:11-13. -/
def byzip {α β : Type} (fuel : Nat) (a : List α) (b : List β) : Res (List (α × β)) :=
  collect zipNext fuel (a, b)

end Verif.Iter
