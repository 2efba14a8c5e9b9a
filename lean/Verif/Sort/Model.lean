import Verif.Utf.Model
import Verif.Chartype.Model

/-!
# Model of /repo/lib/std/{sort,search,cmp}.myr

Slices are lists, comparison functions are pure.  `size` arithmetic does not overflow
because indices are below the length of a slice in memory.
-/

namespace Verif.Sort
open Verif.Utf (Char32 charstep)

/-- `order`, cmp.myr:7-11. -/
inductive Order where
  | before
  | equal
  | after
  deriving DecidableEq, Repr

/-- `tmp = sl[i]; sl[i] = sl[j]; sl[j] = tmp`, sort.myr:52-54 and 14-16. -/
def swap {α : Type} (sl : List α) (i j : Nat) : Res (List α) := do
  let tmp ← rdChk sl i
  let y ← rdChk sl j
  let sl ← wrChk sl i y
  wrChk sl j tmp

/-- The child selection of `siftdown`, sort.myr:39-50: the greatest of `r` and its children. -/
def pick {α : Type} (cmp : α → α → Order) (sl : List α) (r : Nat) : Res Nat := do
  let c := 2 * r + 1
  let xr ← rdChk sl r
  let xc ← rdChk sl c
  let s := if cmp xr xc = .before then c else r
  if c + 1 < sl.length then do
    let xs ← rdChk sl s
    let xd ← rdChk sl (c + 1)
    pure (if cmp xs xd = .before then c + 1 else s)
  else pure s

/-- The loop of `siftdown`, sort.myr:38-59. -/
def siftdown {α : Type} (cmp : α → α → Order) : Nat → List α → Nat → Res (List α)
  | 0, _, _ => .spin
  | fuel + 1, sl, r =>
    if 2 * r + 1 < sl.length then do
      let s ← pick cmp sl r
      if s ≠ r then do
        let sl ← swap sl r s
        siftdown cmp fuel sl s
      else pure sl
    else .ok sl

/-- The loop of `heapify`, sort.myr:26-30; the argument is `start + 1`. -/
def heapifyLoop {α : Type} (cmp : α → α → Order) : Nat → List α → Res (List α)
  | 0, sl => .ok sl
  | start + 1, sl => do
    let sl ← siftdown cmp (sl.length + 1) sl start
    heapifyLoop cmp start sl

/-- `heapify`, sort.myr:23-31 (`sl.len/2 - 1` is negative for fewer than two elements). -/
def heapify {α : Type} (cmp : α → α → Order) (sl : List α) : Res (List α) :=
  heapifyLoop cmp (sl.length / 2) sl

/-- The loop of `sort`, sort.myr:13-19; the argument is `end`.  `siftdown` works in place on
the first `end + 1` elements (after `end--`), the others stay. -/
def sortLoop {α : Type} (cmp : α → α → Order) : Nat → List α → Res (List α)
  | 0, sl => .ok sl
  | e + 1, sl => do
    let sl ← swap sl (e + 1) 0
    let h ← slice sl 0 (e + 1)
    let h ← siftdown cmp (h.length + 1) h 0
    sortLoop cmp e (h ++ sl.drop (e + 1))

/-- `sort`, sort.myr:7-21. -/
def sort {α : Type} (cmp : α → α → Order) (sl : List α) : Res (List α) := do
  let sl ← heapify cmp sl
  sortLoop cmp (sl.length - 1) sl

/-- `lsearch`, search.myr:11-21, from index `i`. -/
def lsearch {α κ : Type} (cmp : α → κ → Order) (sl : List α) (key : κ) (i : Nat) : Res (Option Nat) :=
  if h : i < sl.length then do
    let v ← rdChk sl i
    if cmp v key = .equal then pure (some i) else lsearch cmp sl key (i + 1)
  else .ok none
termination_by sl.length - i
decreasing_by omega

/-- A bounds checked read at a signed index (modelling device). -/
def rdInt {α : Type} (l : List α) (i : Int) : Res α := if i < 0 then .abort else rdChk l i.toNat

/-- The loop of `bsearch`, search.myr:30-37; `/` truncates towards zero. -/
def bsearchLoop {α κ : Type} (cmp : α → κ → Order) (sl : List α) (key : κ) : Nat → Int → Int → Res (Option Int)
  | 0, _, _ => .spin
  | fuel + 1, lo, hi =>
    if lo ≤ hi then do
      let mid := (hi + lo).tdiv 2
      let v ← rdInt sl mid
      match cmp v key with
      | .after => bsearchLoop cmp sl key fuel lo (mid - 1)
      | .before => bsearchLoop cmp sl key fuel (mid + 1) hi
      | .equal => pure (some mid)
    else .ok none

/-- `bsearch`, search.myr:24-39; the conversion of the result to the caller's index type is
not modelled. -/
def bsearch {α κ : Type} (cmp : α → κ → Order) (sl : List α) (key : κ) : Res (Option Int) :=
  bsearchLoop cmp sl key (sl.length + 1) 0 (sl.length - 1)

/-- `numcmp` on a type with comparison, cmp.myr:21-29 (integers only; floating point NaN
compares `After` with everything and is not modelled). -/
def numcmp (a b : Int) : Order := if a < b then .before else if a = b then .equal else .after

/-- The loop of `strcmp`, cmp.myr:35-41; `k` rounds to go, `i = l - k`. -/
def strcmpLoop (a b : List Byte) (l : Nat) : Nat → Res (Option Order)
  | 0 => .ok none
  | k + 1 => do
    let x ← rdChk a (l - (k + 1))
    let y ← rdChk b (l - (k + 1))
    if x < y then pure (some .before)
    else if y < x then pure (some .after)
    else strcmpLoop a b l k

/-- `strcmp`, cmp.myr:31-50. -/
def strcmp (a b : List Byte) : Res Order := do
  let l := if a.length < b.length then a.length else b.length
  match ← strcmpLoop a b l l with
  | some o => pure o
  | none => pure (if a.length < b.length then .before else if a.length > b.length then .after else .equal)

/-- `strncmp`, cmp.myr:52-56, for `n ≥ 0`. -/
def strncmp (a b : List Byte) (n : Nat) : Res Order := do
  let a ← slice a 0 (if a.length < n then a.length else n)
  let b ← slice b 0 (if b.length < n then b.length else n)
  strcmp a b

/-- `strcasecmp`, cmp.myr:59-80. -/
def strcasecmp : Nat → List Byte → List Byte → Res Order
  | 0, _, _ => .spin
  | fuel + 1, a, b =>
    if a.length > 0 ∧ b.length > 0 then do
      let (ca, a) ← charstep a
      let (cb, b) ← charstep b
      let ua ← Chartype.toupper ca.toNat
      let ub ← Chartype.toupper cb.toNat
      if ua < ub then pure .before
      else if ua > ub then pure .after
      else strcasecmp fuel a b
    else .ok (if a.length < b.length then .before else if a.length > b.length then .after else .equal)

end Verif.Sort
