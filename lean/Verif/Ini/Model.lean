import Verif.Htab.Model
import Verif.Str.Model
import Verif.Sort.Model
import Verif.Bio.Model

/-!
# Model of /repo/lib/inifile/{types,access,parse,write}.myr

The elements are kept in the model of lib/std/htab.myr (C03), lines are read and written with
the model of lib/bio (C48, C49), and the hash of byte slices is a parameter `H`.  Freeing and
copying of slices is left out; the line number is an unbounded natural.
-/

namespace Verif.Ini

open Verif.Htab (Ht)
open Verif.Str (strfind strfstrip strrstrip isblankB isspaceB)

/-- The key type of `elts`, types.myr:12: section and key. -/
abbrev Key := List Byte × List Byte

/-- `eq` of pairs, types.myr:28-37: both sides are taken from `a` (line 34). -/
def ieq (a _b : Key) : Bool :=
  let (s1, k1) := a
  let (s2, k2) := a
  s1 == s2 && k1 == k2

/-- `hash` of pairs, types.myr:19-26. -/
def ihash (H : List Byte → BitVec 64) (k : Key) : Nat := (H k.1 ^^^ H k.2).toNat

/-- `type inifile`, types.myr:10-13. -/
structure File where
  sects : List (List Byte)
  elts : Ht Key (List Byte)
  deriving DecidableEq, Repr

/-- The empty file of `loadf`, parse.myr:46-48. -/
def empty : File := ⟨[], StdHtab.mkht⟩

/-- `get`, access.myr:27-29. -/
def get (H : List Byte → BitVec 64) (ini : File) (sect key : List Byte) : Res (Option (List Byte)) :=
  StdHtab.htget ieq (ihash H) ini.elts (sect, key)

/-- `getv`, access.myr:31-33. -/
def getv (H : List Byte → BitVec 64) (ini : File) (sect key val : List Byte) : Res (List Byte) :=
  StdHtab.htgetv ieq (ihash H) ini.elts (sect, key) val

/-- `has`, access.myr:35-37. -/
def has (H : List Byte → BitVec 64) (ini : File) (sect key : List Byte) : Res Bool :=
  StdHtab.hthas ieq (ihash H) ini.elts (sect, key)

/-- `put`, access.myr:39-47; the branches only free or copy. -/
def put (H : List Byte → BitVec 64) (ini : File) (sect key val : List Byte) : Res File := do
  let b ← StdHtab.hthas ieq (ihash H) ini.elts (sect, key)
  let _ ← if b then StdHtab.htgetv ieq (ihash H) ini.elts (sect, key) [] else .ok []
  let t ← StdHtab.htput ieq (ihash H) ini.elts (sect, key) val
  pure { ini with elts := t }

/-- `error`, types.myr:4-8. -/
inductive Error where
  | fileerr
  | parseerr (line : Nat)
  | dupkey (line : Nat)
  deriving DecidableEq, Repr

/-- `std.strstrip`, lib/std/strstrip.myr:12-14. -/
def strstrip (s : List Byte) : Res (List Byte) := do
  let t ← strfstrip isblankB (s.length + 1) s
  strrstrip isspaceB t

/-- `std.lsearch(ini.sects, sect, std.strcmp)`, lib/std/search.myr:11-21: is it there? -/
def lsearch (sect : List Byte) : List (List Byte) → Res Bool
  | [] => .ok false
  | s :: ss => do
    let o ← Sort.strcmp s sect
    if o = .equal then pure true else lsearch sect ss

/-- Cutting off a comment, parse.myr:83-90. -/
def cutAt (c : Byte) (ln : List Byte) : Res (List Byte) := do
  match ← strfind ln [c] with
  | some i => slice ln 0 i
  | none => pure ln

/-- `parsesection`, parse.myr:103-121: the new section name and the file. -/
def parsesection (line : Nat) (ini : File) (ln : List Byte) : Res (Except Error (List Byte × File)) := do
  match ← strfind ln [0x5d#8] with
  | some i =>
    if i ≠ ln.length - 1 then pure (.error (.parseerr line))
    else do
      let t ← slice ln 1 i
      let s ← strstrip t
      let b ← lsearch s ini.sects
      pure (.ok (s, if b then ini else { ini with sects := ini.sects ++ [s] }))
  | none => pure (.error (.parseerr line))

/-- `parsekvp`, parse.myr:123-140. -/
def parsekvp (H : List Byte → BitVec 64) (line : Nat) (sect : List Byte) (ini : File) (ln : List Byte) :
    Res (Except Error (List Byte × File)) := do
  match ← strfind ln [0x3d#8] with
  | none => pure (.error (.parseerr line))
  | some i => do
    let k ← slice ln 0 i
    let key ← strstrip k
    let v ← slice ln (i + 1) ln.length
    let val ← strstrip v
    let b ← StdHtab.hthas ieq (ihash H) ini.elts (sect, key)
    if b then pure (.error (.dupkey line))
    else do
      let t ← StdHtab.htput ieq (ihash H) ini.elts (sect, key) val
      pure (.ok (sect, { ini with elts := t }))

/-- `parseline`, parse.myr:79-101. -/
def parseline (H : List Byte → BitVec 64) (line : Nat) (sect : List Byte) (ini : File) (ln : List Byte) :
    Res (Except Error (List Byte × File)) := do
  let ln ← strstrip ln
  let ln ← cutAt 0x3b#8 ln
  let ln ← cutAt 0x23#8 ln
  if ln.length = 0 then pure (.ok (sect, ini))
  else do
    let c ← rdChk ln 0
    if c = 0x5b#8 then parsesection line ini ln else parsekvp H line sect ini ln

/-- The loop of `loadf`, parse.myr:55-68, and its end, 69-76. -/
def loadLoop (H : List Byte → BitVec 64) : Nat → Bio.Rd → Nat → List Byte → File → Res (Except Error File)
  | 0, _, _, _, _ => .spin
  | fuel + 1, f, line, sect, ini => do
    let p ← Bio.readln f
    match p.2 with
    | .error .eof => pure (.ok ini)
    | .ok ln => do
      match ← parseline H line sect ini ln with
      | .error e => pure (.error e)
      | .ok (sect, ini) => loadLoop H fuel p.1 (line + 1) sect ini
    | .error _ => pure (.error .fileerr)

/-- `loadf`, parse.myr:41-77, from a file just opened. -/
def loadf (H : List Byte → BitVec 64) (f : Bio.Rd) : Res (Except Error File) :=
  loadLoop H (f.fuel + 1) f 1 [] empty

/-- The comparison of `writeini`, write.myr:38-44; `std.strcmp` always returns (C57). -/
def keyCmp (a b : Key) : Sort.Order :=
  match Sort.strcmp a.1 b.1 with
  | .ok o => o
  | _ => .equal

/-- The loop of `writeini`, write.myr:47-58; `bio.put` formats (`{}` of a string is the string,
lib/std/fmt.myr:577-580) and calls `write`. -/
def writeLoop (H : List Byte → BitVec 64) (ini : File) : List Key → List Byte → Bio.Wr → Res (Bio.Wr × Bool)
  | [], _, f => .ok (f, true)
  | (sect, key) :: ks, oldsect, f => do
    let f ← if sect ≠ oldsect then (do
        let p ← Bio.write f ([0x5b#8] ++ sect ++ [0x5d#8, 0x0a#8])
        pure p.1) else pure f
    let val ← StdHtab.htgetv ieq (ihash H) ini.elts (sect, key) []
    let p ← Bio.write f ([0x09#8] ++ key ++ [0x20#8, 0x3d#8, 0x20#8] ++ val ++ [0x0a#8])
    match p.2 with
    | .error _ => pure (p.1, false)
    | .ok _ => writeLoop H ini ks sect p.1

/-- `writeini`, write.myr:33-61. -/
def writeini (H : List Byte → BitVec 64) (ini : File) (f : Bio.Wr) : Res (Bio.Wr × Bool) := do
  let keys ← StdHtab.htkeys ini.elts
  let keys ← Sort.sort keyCmp keys
  writeLoop H ini keys [] f

/-- `writef`, write.myr:23-30: the result of `bio.close`, which flushes, is ignored. -/
def writef (H : List Byte → BitVec 64) (ini : File) (f : Bio.Wr) : Res (Bio.Wr × Bool) := do
  let p ← writeini H ini f
  let q ← Bio.flush p.1
  pure (q.1, p.2)

end Verif.Ini
