import Verif.Utf.Props
import Verif.Sort.Model

/-!
# Model of /repo/lib/std/{intfmt,intparse,hasprefix}.myr and `charval` of chartype.myr

The string buffer is the list of bytes it accumulates (see C47).  `uint64` arithmetic used
for the digits (division and remainder) is exact on naturals below 2^64.
-/

namespace Verif.IntFmt
open Verif.Utf (Char32)

/-- `digitchars`, intfmt.myr:19. -/
def digitchars : List Byte :=
  [48, 49, 50, 51, 52, 53, 54, 55, 56, 57, 97, 98, 99, 100, 101, 102]

/-- The digit loop of `intfmt`, intfmt.myr:49-53; `b` is `b[:i]`.  Division by zero stops the
program. -/
def digLoop (base : Nat) : Nat → List Byte → Nat → Res (List Byte)
  | 0, _, _ => .spin
  | fuel + 1, b, val =>
    if val ≠ 0 then
      if base = 0 then .abort
      else do
        let d ← rdChk digitchars (val % base)
        if b.length < 64 then digLoop base fuel (b ++ [d]) (val / base) else .abort
    else .ok b

/-- `clamp`, extremum.myr:24-32, at `size`. -/
def clamp (a lo hi : Int) : Int := if a < lo then lo else if a > hi then hi else a

/-- Part of `intfmt` after the value is known, intfmt.myr:44-70. -/
def emit (base : Nat) (padto : Int) (fill : Char32) (isneg : Bool) (val : Nat) : Res (List Byte) := do
  let b ← digLoop base 66 (if val = 0 then [48#8] else []) val
  let npad := clamp (padto - b.length) 0 padto
  let npad := if isneg then npad - 1 else npad
  let out := if fill = 48#32 ∧ isneg then [45#8] else []
  let out := out ++ (List.replicate npad.toNat (Utf.utf8 fill.toNat)).flatten
  let out := if fill ≠ 48#32 ∧ isneg then out ++ [45#8] else out
  pure (out ++ b.reverse)

/-- The text put for the least 64-bit integer, intfmt.myr:35. -/
def minText : List Byte := [45, 57, 50, 50, 51, 51, 55, 50, 48, 51, 54, 56, 53, 52, 55, 55, 53, 56, 48, 56]

/-- `intfmt`, intfmt.myr:20-71.  Shift counts are taken modulo 64 by the machine. -/
def intfmt (base : Nat) (padto : Int) (fill : Char32) (signed : Bool) (bits : BitVec 64) (nbits : Nat) :
    Res (List Byte) :=
  if signed = true ∧ bits.toNat ≥ (1#64 <<< ((nbits - 1) % 64)).toNat then
    let sval := -bits
    if sval.toInt < 0 then .ok minText
    else emit base padto fill true sval.toNat
  else
    emit base padto fill false (bits &&& (BitVec.allOnes 64 >>> (nbits % 64))).toNat

/-- `charval` at `int32`, chartype.myr:1673-1688; `c - '0'` is unsigned 32-bit. -/
def charval (c : Char32) (base : Int) : Int :=
  let v : Int :=
    if c ≥ 48#32 ∧ c ≤ 57#32 then (c - 48#32).toNat
    else if c ≥ 97#32 ∧ c ≤ 122#32 then (c - 97#32 + 10#32).toNat
    else if c ≥ 65#32 ∧ c ≤ 90#32 then (c - 65#32 + 10#32).toNat
    else -1
  if v < 0 ∨ v ≥ base then -1 else v

/-- The loop of `doparse`, intparse.myr:54-66, over the characters of the text; `w` is the
width of the result type. -/
def parseLoop (w : Nat) (base : Int) : List Char32 → BitVec w → Option (BitVec w)
  | [], v => some v
  | c :: cs, v =>
    if c = 95#32 then parseLoop w base cs v
    else
      let cv := charval c base
      if cv ≥ 0 then parseLoop w base cs (v * BitVec.ofInt w base + BitVec.ofInt w cv)
      else none

/-- `doparse`, intparse.myr:50-73. -/
def doparse (w : Nat) (s : List Byte) (isneg : Bool) (base : Int) : Res (Option (BitVec w)) := do
  let cs ← Utf.bychar (s.length + 1) s
  match parseLoop w base cs 0#w with
  | none => pure none
  | some v => pure (some (if isneg then -v else v))

/-- `hasprefix`, hasprefix.myr:7-12. -/
def hasprefix (s pre : List Byte) : Res Bool := do
  match ← Sort.strncmp s pre pre.length with
  | .equal => pure true
  | _ => pure false

/-- `intparsebase`, intparse.myr:38-48. -/
def intparsebase (w : Nat) (s : List Byte) (base : Int) : Res (Option (BitVec w)) := do
  let neg ← hasprefix s [45#8]
  if neg then do
    let s ← slice s 1 s.length
    doparse w s true base
  else doparse w s false base

/-- The base dispatch of `intparse`, intparse.myr:23-35. -/
def intparseBody (w : Nat) (s : List Byte) (isneg : Bool) : Res (Option (BitVec w)) := do
  if s.length = 0 then pure none
  else do
    let x ← hasprefix s [48#8, 120#8]
    if x then do
      let s ← slice s 2 s.length
      doparse w s isneg 16
    else do
      let o ← hasprefix s [48#8, 111#8]
      if o then do
        let s ← slice s 2 s.length
        doparse w s isneg 8
      else do
        let b ← hasprefix s [48#8, 98#8]
        if b then do
          let s ← slice s 2 s.length
          doparse w s isneg 2
        else doparse w s isneg 10

/-- `intparse`, intparse.myr:14-36. -/
def intparse (w : Nat) (s : List Byte) : Res (Option (BitVec w)) := do
  let neg ← hasprefix s [45#8]
  if neg then do
    let s ← slice s 1 s.length
    intparseBody w s true
  else intparseBody w s false

end Verif.IntFmt
