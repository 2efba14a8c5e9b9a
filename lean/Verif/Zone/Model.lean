import Verif.Endian.Props
import Verif.Zone.Spec

/-!
# Model of /repo/lib/date/zoneinfo+posixy.myr

Not modelled: where files are looked for and the cache of files already read (zoneinfo+posixy.myr:45-72), memory that
runs out, `free`.  Negative counts in a file are an undefined outcome (`slalloc` of a negative size).
-/

namespace Verif.Zone

/-- `ttinfo`, zoneinfo+posixy.myr:23-27, and `zifile`, 13-21, are the same records as in the specification. -/
abbrev Zi := Spec.Data

/-- What `std.zalloc` gives, zoneinfo+posixy.myr:96, 101. -/
def empty : Zi := ⟨[], [], [], [], [], [], []⟩

/-- `fetchbe32`, zoneinfo+posixy.myr:162-168. -/
def fetchbe32 (sl : List Byte) : Res (BitVec 32 × List Byte) :=
  if sl.length ≥ 4 then do
    let b ← slice sl 0 4
    let v ← Endian.getbe32 32 b
    let r ← slice sl 4 sl.length
    pure (v, r)
  else .abort

/-- `fetchbe8`, zoneinfo+posixy.myr:170-176. -/
def fetchbe8 (sl : List Byte) : Res (Byte × List Byte) :=
  if sl.length ≥ 1 then do
    let v ← rdChk sl 0
    let r ← slice sl 1 sl.length
    pure (v, r)
  else .abort

/-- `fetchttinfo`, zoneinfo+posixy.myr:179-184. -/
def fetchttinfo (sl : List Byte) : Res (Spec.Kind × List Byte) := do
  let (g, sl) ← fetchbe32 sl
  let (d, sl) ← fetchbe8 sl
  let (a, sl) ← fetchbe8 sl
  pure (⟨g, d, a⟩, sl)

/-- The body of the loop over leap seconds, zoneinfo+posixy.myr:135-136. -/
def fetchleap (sl : List Byte) : Res ((BitVec 32 × BitVec 32) × List Byte) := do
  let (a, sl) ← fetchbe32 sl
  let (b, sl) ← fetchbe32 sl
  pure ((a, b), sl)

/-- The loops that fill a slice, zoneinfo+posixy.myr:115-147: `n` elements. -/
def fill {α : Type} (f : List Byte → Res (α × List Byte)) : Nat → List Byte → Res (List α × List Byte)
  | 0, sl => pure ([], sl)
  | n + 1, sl => do
    let (x, sl) ← f sl
    let (xs, sl) ← fill f n sl
    pure (x :: xs, sl)

/-- A count as the size of a slice, `(ntime : std.size)` and the like, zoneinfo+posixy.myr:114-145. -/
def size (n : BitVec 32) : Res Nat := if n.toInt < 0 then .ub else .ok n.toNat

/-- `load` from line 105 on (zoneinfo+posixy.myr:105-151), after the magic. -/
def loadData (p : List Byte) : Res Zi := do
  let (nisgmt, p) ← fetchbe32 p
  let (nisstd, p) ← fetchbe32 p
  let (nleap, p) ← fetchbe32 p
  let (ntime, p) ← fetchbe32 p
  let (ntype, p) ← fetchbe32 p
  let (nchar, p) ← fetchbe32 p
  let nt ← size ntime
  let (time, p) ← fill fetchbe32 nt p
  let (timetype, p) ← fill fetchbe8 nt p
  let ny ← size ntype
  let (kinds, p) ← fill fetchttinfo ny p
  let nc ← size nchar
  let (abbrevs, p) ← fill fetchbe8 nc p
  let nl ← size nleap
  let (leap, p) ← fill fetchleap nl p
  let ns ← size nisstd
  let (isstd, p) ← fill fetchbe8 ns p
  let ng ← size nisgmt
  let (isgmt, _) ← fill fetchbe8 ng p
  pure ⟨time, timetype, kinds, abbrevs, leap, isstd, isgmt⟩

/-- `load`, zoneinfo+posixy.myr:89-151; `none` is a file that cannot be read. -/
def load : Option (List Byte) → Res Zi
  | none => .ok empty
  | some data => do
    let m ← slice data 0 4
    if m = [0x54, 0x5a, 0x69, 0x66] then do
      let p ← slice data 20 data.length
      loadData p
    else .ok empty

/-- The search of `findtzoff`, zoneinfo+posixy.myr:80-82: the index at which it stops. -/
def search (cur : BitVec 32) : List (BitVec 32) → Nat
  | [] => 0
  | t :: ts => if cur.toInt < t.toInt then search cur ts + 1 else 0

/-- `findtzoff` with the zone loaded, zoneinfo+posixy.myr:75-84. -/
def offset (z : Zi) (tm : Int) : Res (Option Int) :=
  let cur := BitVec.ofInt 32 (tm.tdiv 1000000)
  if z.time.length = 0 then .ok none
  else do
    let t ← rdChk z.timetype (search cur z.time)
    let k ← rdChk z.kinds t.toNat
    pure (some (k.gmtoff.toInt * 1000000))

/-- `findtzoff` of a zone with the given file, zoneinfo+posixy.myr:38-85. -/
def findtzoff (file : Option (List Byte)) (tm : Int) : Res (Option Int) := do
  let z ← load file
  offset z tm

end Verif.Zone
