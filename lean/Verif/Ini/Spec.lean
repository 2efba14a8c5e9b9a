import Verif.Ini.Model
import Verif.Utf.Spec

/-!
# Specification of INI files

Over lists of characters and association lists, without the functions of the model.  `blank`
and `space` are std's classes of characters (C56).
-/

namespace Verif.Ini

open Verif.Utf (Char32 enc CodePoints)
open Verif.Str (isblankB isspaceB)

/-- A text without the blanks in front and the white space behind (specification). -/
def strip (cs : List Char32) : List Char32 :=
  ((cs.dropWhile isblankB).reverse.dropWhile isspaceB).reverse

/-- What a line says (specification). -/
inductive Line where
  | nothing
  | sect (name : List Char32)
  | pair (key val : List Char32)
  | junk
  deriving DecidableEq, Repr

/-- The part of a line in front of a comment (specification). -/
def body (l : List Char32) : List Char32 :=
  ((strip l).takeWhile (· ≠ 0x3b#32)).takeWhile (· ≠ 0x23#32)

/-- The reading of a line (specification): `[name]`, `key = val`, or nothing but a comment. -/
def line (l : List Char32) : Line :=
  if body l = [] then .nothing
  else if (body l).head? = some 0x5b#32 then
    if 0x5d#32 ∈ body l ∧ ((body l).dropWhile (· ≠ 0x5d#32)).length = 1 then
      .sect (strip (((body l).takeWhile (· ≠ 0x5d#32)).tail))
    else .junk
  else if 0x3d#32 ∈ body l then
    .pair (strip ((body l).takeWhile (· ≠ 0x3d#32))) (strip (((body l).dropWhile (· ≠ 0x3d#32)).tail))
  else .junk

/-- Sections, keys and values in the order of the file. -/
abbrev Entries := List ((List Char32 × List Char32) × List Char32)

/-- A way to look up the value of a pair. -/
abbrev Look := Entries → List Char32 → List Char32 → Option (List Char32)

/-- The value of a pair (specification). -/
def find : Look := fun es s k => es.lookup (s, k)

/-- The meaning of the lines from number `n` on, in section `s`, after the entries `es`
(specification): a pair may be given only once.  `look` is `find`, or the faulty `findH`
below. -/
def meaning (look : Look) : Nat → List Char32 → Entries → List (List Char32) → Except Error Entries
  | _, _, es, [] => .ok es
  | n, s, es, l :: ls =>
    match line l with
    | .nothing => meaning look (n + 1) s es ls
    | .sect s' => meaning look (n + 1) s' es ls
    | .pair k v =>
      if (look es s k).isSome then .error (.dupkey n) else meaning look (n + 1) s (((s, k), v) :: es) ls
    | .junk => .error (.parseerr n)

/-- All pairs of section and key the lines mention (specification). -/
def mentions : List Char32 → List (List Char32) → List (List Char32 × List Char32)
  | _, [] => []
  | s, l :: ls =>
    match line l with
    | .sect s' => mentions s' ls
    | .pair k _ => (s, k) :: mentions s ls
    | _ => mentions s ls

/-- The hash by which `types.myr` tells pairs apart: the exclusive or of the two hashes, 0 and
1 being taken for the same (specification). -/
def pairHash (H : List Byte → BitVec 64) (p : List Byte × List Byte) : BitVec 64 :=
  if H p.1 ^^^ H p.2 = 0#64 then 1#64 else H p.1 ^^^ H p.2

/-- Different pairs of the list have different hashes (specification). -/
def Apart (H : List Byte → BitVec 64) (ps : List (List Byte × List Byte)) : Prop :=
  ∀ p ∈ ps, ∀ q ∈ ps, pairHash H p = pairHash H q → p = q

/-- UTF-8 encoding of a pair (specification). -/
def encPair (p : List Char32 × List Char32) : List Byte × List Byte := (enc p.1, enc p.2)

/-- Looking up by the hash alone, which is what `types.myr` amounts to (specification of the
fault). -/
def findH (H : List Byte → BitVec 64) : Look := fun es s k =>
  (es.find? fun e => pairHash H (encPair e.1) = pairHash H (encPair (s, k))).map (·.2)

/-- A text in lines, each ended by `\n` or `\r\n` (`true`), the last one by the end of the
text (specification). -/
def text (ls : List (List Char32 × Bool)) (last : List Char32) : List Byte :=
  (ls.map fun l => enc l.1 ++ (if l.2 then [0x0d#8, 0x0a#8] else [0x0a#8])).flatten ++ enc last

/-- A line: code points, no line break (specification). -/
def IsLine (l : List Char32) : Prop := CodePoints l ∧ 0x0a#32 ∉ l ∧ 0x0d#32 ∉ l

/-- A history of `put` calls: section, key, value. -/
abbrev Puts := List (List Byte × List Byte × List Byte)

/-- The value last put for exactly that pair (specification). -/
def lastPut (ps : Puts) (s k : List Byte) : Option (List Byte) :=
  (ps.reverse.find? fun p => p.1 = s ∧ p.2.1 = k).map (·.2.2)

/-- The value last put for a pair with the same hash (specification of the fault). -/
def lastPutH (H : List Byte → BitVec 64) (ps : Puts) (s k : List Byte) : Option (List Byte) :=
  (ps.reverse.find? fun p => pairHash H (p.1, p.2.1) = pairHash H (s, k)).map (·.2.2)

/-- Performing a history of `put` (specification device). -/
def puts (H : List Byte → BitVec 64) : Puts → File → Res File
  | [], ini => .ok ini
  | (s, k, v) :: ps, ini => do
    let ini ← put H ini s k v
    puts H ps ini

/-- Strings which the file format can hold (specification): no line breaks, no comment
characters, nothing to strip at the ends, and none of the characters `bad`. -/
def Tame (bad : List Char32) (cs : List Char32) : Prop :=
  IsLine cs ∧ strip cs = cs ∧ 0x3b#32 ∉ cs ∧ 0x23#32 ∉ cs ∧ ∀ c ∈ bad, c ∉ cs

/-- A section, a key and a value which the file format can hold (specification). -/
def Fine (e : (List Char32 × List Char32) × List Char32) : Prop :=
  Tame [0x5d#32] e.1.1 ∧ Tame [0x3d#32] e.1.2 ∧ e.1.2.head? ≠ some 0x5b#32 ∧ Tame [] e.2

/-- Entries as a history of `put` calls (specification). -/
def encPuts (es : Entries) : Puts := es.map fun e => (enc e.1.1, enc e.1.2, enc e.2)

end Verif.Ini
