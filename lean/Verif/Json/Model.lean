import Verif.Utf.Model
import Verif.Esc.Model
import Verif.IntFmt.Model

/-!
# Model of /repo/lib/json

The parser's position is the text still to be read: `rest` is `p.str[p.idx:]`. The line and column of errors are left out.
Numbers are of an arbitrary type `F`, with `fp` for `std.flt64parse` and `ff` for the formatting of a `flt64` with `{}`.
Freeing memory is not modelled.
-/

namespace Verif.Json

open Utf (Char32 Badchar)

/-- `types.myr:4-11` elt. -/
inductive Val (F : Type) where
  | null
  | bool (b : Bool)
  | num (n : F)
  | str (s : List Byte)
  | arr (l : List (Val F))
  | obj (l : List (List Byte × Val F))

/-- `types.myr:19-24` errtype. -/
inductive JErr where
  | badesc (c : Char32)
  | junk (c : Char32)
  | depth
  | ends
  deriving DecidableEq

/-- `std.result(@a, err)` of a function which may misbehave (modelling device). -/
def PM (α : Type) : Type := Res (Except JErr α)

namespace PM
/-- Success. -/
def ret {α : Type} (a : α) : PM α := Res.ok (.ok a)
/-- An error is returned. -/
def err {α : Type} (e : JErr) : PM α := Res.ok (.error e)
/-- The code does not come back. -/
def spin {α : Type} : PM α := Res.spin
/-- An assertion fails. -/
def abort {α : Type} : PM α := Res.abort
/-- Errors are passed on. -/
def bind {α β : Type} (m : PM α) (f : α → PM β) : PM β :=
  match m with
  | .ok (.ok a) => f a
  | .ok (.error e) => .ok (.error e)
  | .abort => .abort
  | .ub => .ub
  | .spin => .spin
/-- A function without errors of its own. -/
def lift {α : Type} : Res α → PM α
  | .ok a => .ok (.ok a)
  | .abort => .abort
  | .ub => .ub
  | .spin => .spin
instance : Monad PM where
  pure := PM.ret
  bind := PM.bind
end PM

/-- `parse.myr:12-18` parser. -/
structure P where
  rest : List Byte
  depth : Int

/-- `parse.myr:361-375` takespace. -/
def takespace : List Byte → List Byte
  | [] => []
  | b :: r => if b = 32#8 ∨ b = 9#8 ∨ b = 13#8 ∨ b = 10#8 then takespace r else b :: r

/-- `parse.myr:377-379` peekc. -/
def peekc (r : List Byte) : Res Char32 := Utf.decode r

/-- `parse.myr:381-395` takec. -/
def takec (r : List Byte) : Res (Char32 × List Byte) :=
  if r.length = 0 then .ok (Badchar, r)
  else do
    let c ← Utf.decode r
    let r ← slice r (Utf.charlen c) r.length
    .ok (c, r)

/-- `parse.myr:355-359` unescaped. -/
def unescaped (c : Char32) : Bool :=
  c == 0x20#32 || c == 0x21#32 || (0x23#32 ≤ c && c ≤ 0x5b#32) || (0x5d#32 ≤ c && c ≤ 0x10ffff#32)

/-- `parse.myr:335-340`: the loop of unichar, `n` times. -/
def unicharLoop : Nat → Char32 → List Byte → Res (Option Char32 × List Byte)
  | 0, c, r => .ok (some c, r)
  | n + 1, c, r => do
    let t ← takec r
    let v := IntFmt.charval t.1 16
    if v = -1 then .ok (none, t.2) else unicharLoop n (c + BitVec.ofInt 32 v * 16#32) t.2

/-- `parse.myr:330-345` unichar; `i` is 4 at line 341. -/
def unichar (r : List Byte) : Res (Option Char32 × List Byte) := unicharLoop 4 0 r

/-- `parse.myr:289-308`: what a backslash and the character after it stand for. -/
def simpleEsc (c : Char32) : Option Char32 :=
  if c = 34#32 then some 34#32
  else if c = 92#32 then some 92#32
  else if c = 47#32 then some 47#32
  else if c = 98#32 then some 8#32
  else if c = 110#32 then some 10#32
  else if c = 102#32 then some 12#32
  else if c = 114#32 then some 13#32
  else if c = 116#32 then some 9#32
  else none

/-- `parse.myr:289-308`: an escape, after the backslash. -/
def escape (r : List Byte) : PM (Char32 × List Byte) := do
  let t ← PM.lift (takec r)
  match simpleEsc t.1 with
  | some c => PM.ret (c, t.2)
  | none =>
    if t.1 = 117#32 then do
      let u ← PM.lift (unichar t.2)
      match u.1 with
      | some c => PM.ret (c, u.2)
      | none => PM.err (.badesc 117#32)
    else PM.err (.badesc t.1)

/-- `parse.myr:286-323`: the loop of jsonstr. -/
def strLoop : Nat → List Byte → List Byte → PM (List Byte × List Byte)
  | 0, _, _ => PM.spin
  | f + 1, r, sb =>
    if 0 < r.length then do
      let t ← PM.lift (takec r)
      if t.1 = 92#32 then do
        let e ← escape t.2
        let b ← PM.lift (Esc.putc e.1)
        strLoop f e.2 (sb ++ b)
      else if t.1 = 34#32 then PM.ret (sb, t.2)
      else if t.1 = Badchar then PM.err (.junk Badchar)
      else if unescaped t.1 then do
        let b ← PM.lift (Esc.putc t.1)
        strLoop f t.2 (sb ++ b)
      else PM.err (.junk t.1)
    else PM.err .ends

/-- `parse.myr:276-328` jsonstr. -/
def jsonstr (r : List Byte) : PM (List Byte × List Byte) := do
  let t ← PM.lift (takec r)
  if t.1 = 34#32 then strLoop (t.2.length + 1) t.2 [] else PM.err (.junk t.1)

/-- `std.isdigit` (`chartype.myr:1549-1551`) of a byte. -/
def digit (b : Byte) : Bool := 48#8 ≤ b && b ≤ 57#8

/-- `std.isdigit` (`chartype.myr:1549-1551`). -/
def isdigit (c : Char32) : Bool := 48#32 ≤ c && c ≤ 57#32

/-- `parse.myr:228-235`, 242-250, 257-267: skips digits, tells whether there was one. -/
def skipdigits : List Byte → Bool × List Byte
  | [] => (false, [])
  | b :: r => if digit b then (true, (skipdigits r).2) else (false, b :: r)

/-- Digits, of which there must be one (`ok`). -/
def somedigits (r : List Byte) : Option (List Byte) := if (skipdigits r).1 then some (skipdigits r).2 else none

/-- `parse.myr:222-239`: sign and digits. -/
def intpart (r : List Byte) : Res (Option (List Byte)) := do
  let c ← peekc r
  let r := if c = 45#32 then r.tail else r
  let c ← peekc r
  if c = 48#32 then .ok (some r.tail) else .ok (somedigits r)

/-- `parse.myr:241-254`: fraction. -/
def fracpart (r : List Byte) : Res (Option (List Byte)) := do
  let c ← peekc r
  if c = 46#32 then .ok (somedigits r.tail) else .ok (some r)

/-- `parse.myr:255-271`: exponent. -/
def exppart (r : List Byte) : Res (Option (List Byte)) := do
  let c ← peekc r
  if c = 101#32 ∨ c = 69#32 then do
    let r := r.tail
    let c ← peekc r
    let r := if c = 43#32 ∨ c = 45#32 then r.tail else r
    .ok (somedigits r)
  else .ok (some r)

/-- `parse.myr:217-274` parsenum; without a number the position is not used any more. -/
def parsenum {F : Type} (fp : List Byte → Option F) (r : List Byte) : Res (Option (F × List Byte)) := do
  match ← intpart r with
  | none => .ok none
  | some r1 =>
    match ← fracpart r1 with
    | none => .ok none
    | some r2 =>
      match ← exppart r2 with
      | none => .ok none
      | some r3 =>
        match fp (r.take (r.length - r3.length)) with
        | some n => .ok (some (n, r3))
        | none => .ok none

/-- `parse.myr:347-353` matchprefix: what is left. -/
def matchprefix (r pfx : List Byte) : Res (Option (List Byte)) := do
  if ← IntFmt.hasprefix r pfx then .ok (some (r.drop pfx.length)) else .ok none

/-- `parse.myr:74-88`: the elements which are not strings, arrays or objects. -/
def scalar {F : Type} (fp : List Byte → Option F) (r : List Byte) (c : Char32) : PM (Val F × List Byte) := do
  match ← PM.lift (matchprefix r [102, 97, 108, 115, 101]) with
  | some r => PM.ret (.bool false, r)
  | none =>
    match ← PM.lift (matchprefix r [116, 114, 117, 101]) with
    | some r => PM.ret (.bool true, r)
    | none =>
      match ← PM.lift (matchprefix r [110, 117, 108, 108]) with
      | some r => PM.ret (.null, r)
      | none =>
        if isdigit c || c == 45#32 then do
          match ← PM.lift (parsenum fp r) with
          | some (n, r) => PM.ret (.num n, r)
          | none => PM.err (.junk c)
        else PM.err (.junk c)

/-- `parse.myr:10`. -/
def Maxdepth : Int := 1024

mutual
/-- `parse.myr:68-90` parseelt, and 210-215 parsestr. -/
def parseelt {F : Type} (fp : List Byte → Option F) : Nat → P → PM (Val F × P)
  | 0, _ => PM.spin
  | f + 1, p => do
    let r := takespace p.rest
    let c ← PM.lift (peekc r)
    if c = 123#32 then parseobj fp f ⟨r, p.depth⟩
    else if c = 91#32 then parsearr fp f ⟨r, p.depth⟩
    else if c = 34#32 then do
      let s ← jsonstr r
      PM.ret (.str s.1, ⟨s.2, p.depth⟩)
    else do
      let s ← scalar fp r c
      PM.ret (s.1, ⟨s.2, p.depth⟩)

/-- `parse.myr:92-137` parseobj, with enter (397-400). -/
def parseobj {F : Type} (fp : List Byte → Option F) : Nat → P → PM (Val F × P)
  | 0, _ => PM.spin
  | f + 1, p => do
    let t ← PM.lift (takec p.rest)
    if t.1 ≠ 123#32 then PM.abort
    else if p.depth + 1 > Maxdepth then PM.err .depth
    else do
      let r := takespace t.2
      let c ← PM.lift (peekc r)
      if c = 125#32 then do
        let t ← PM.lift (takec r)
        PM.ret (.obj [], ⟨t.2, p.depth + 1⟩)
      else objLoop fp f ⟨r, p.depth + 1⟩ []

/-- `parse.myr:107-128`: the loop of parseobj, and exit (402-404). -/
def objLoop {F : Type} (fp : List Byte → Option F) : Nat → P → List (List Byte × Val F) → PM (Val F × P)
  | 0, _, _ => PM.spin
  | f + 1, p, membs => do
    let c ← PM.lift (peekc p.rest)
    if c = 125#32 then PM.ret (.obj membs, ⟨p.rest, p.depth - 1⟩)
    else do
      let m ← member fp f p
      let t ← PM.lift (takec (takespace m.2.rest))
      if t.1 = 44#32 then objLoop fp f ⟨t.2, m.2.depth⟩ (membs ++ [m.1])
      else if t.1 = 125#32 then PM.ret (.obj (membs ++ [m.1]), ⟨t.2, m.2.depth - 1⟩)
      else if t.1 = Badchar then PM.err .ends
      else PM.err (.junk t.1)

/-- `parse.myr:139-162` member. -/
def member {F : Type} (fp : List Byte → Option F) : Nat → P → PM ((List Byte × Val F) × P)
  | 0, _ => PM.spin
  | f + 1, p => do
    let s ← jsonstr (takespace p.rest)
    let t ← PM.lift (takec (takespace s.2))
    if t.1 = 58#32 then do
      let e ← parseelt fp f ⟨takespace t.2, p.depth⟩
      PM.ret ((s.1, e.1), e.2)
    else PM.err (.junk t.1)

/-- `parse.myr:164-208` parsearr, with enter (397-400). -/
def parsearr {F : Type} (fp : List Byte → Option F) : Nat → P → PM (Val F × P)
  | 0, _ => PM.spin
  | f + 1, p => do
    let t ← PM.lift (takec p.rest)
    if t.1 ≠ 91#32 then PM.abort
    else if p.depth + 1 > Maxdepth then PM.err .depth
    else do
      let r := takespace t.2
      let c ← PM.lift (peekc r)
      if c = 93#32 then do
        let t ← PM.lift (takec r)
        PM.ret (.arr [], ⟨t.2, p.depth + 1⟩)
      else arrLoop fp f ⟨r, p.depth + 1⟩ []

/-- `parse.myr:179-200`: the loop of parsearr, and exit (402-404). -/
def arrLoop {F : Type} (fp : List Byte → Option F) : Nat → P → List (Val F) → PM (Val F × P)
  | 0, _, _ => PM.spin
  | f + 1, p, elts => do
    let e ← parseelt fp f p
    let t ← PM.lift (takec (takespace e.2.rest))
    if t.1 = 44#32 then arrLoop fp f ⟨t.2, e.2.depth⟩ (elts ++ [e.1])
    else if t.1 = 93#32 then PM.ret (.arr (elts ++ [e.1]), ⟨t.2, e.2.depth - 1⟩)
    else if t.1 = Badchar then PM.err .ends
    else PM.err (.junk t.1)
end

/-- `parse.myr:20-45` parse. -/
def parse {F : Type} (fp : List Byte → Option F) (str : List Byte) : PM (Val F) := do
  let e ← parseelt fp (3 * str.length + 8) ⟨str, 0⟩
  let r := takespace e.2.rest
  if r.length ≠ 0 then do
    let c ← PM.lift (Utf.decode r)
    PM.err (.junk c)
  else PM.ret e.1

/-- `fmt.myr:35-44`: a byte of a string. -/
def strByte (b : Byte) : List Byte :=
  if b = 12#8 then [92, 102]
  else if b = 92#8 then [92, 92]
  else if b = 10#8 then [92, 110]
  else if b = 13#8 then [92, 114]
  else if b = 9#8 then [92, 116]
  else [b]

/-- `fmt.myr:33-46` jstrfmt. -/
def jstrfmt (s : List Byte) : List Byte := [34#8] ++ s.flatMap strByte ++ [34#8]

/-- `fmt.myr:82-86` indent. -/
def indent (n : Nat) : List Byte := List.replicate n 9#8

mutual
/-- `fmt.myr:21-30` eltfmt, with the frame of arrfmt (48-62) and objfmt (64-80). -/
def eltfmt {F : Type} (ff : F → List Byte) (ind : Nat) : Val F → List Byte
  | .null => [110, 117, 108, 108]
  | .bool b => if b then [116, 114, 117, 101] else [102, 97, 108, 115, 101]
  | .num n => ff n
  | .str s => jstrfmt s
  | .arr l => [91#8, 10#8] ++ eltsfmt ff (ind + 1) [] l ++ [10#8] ++ indent ind ++ [93#8]
  | .obj l => [123#8, 10#8] ++ membsfmt ff (ind + 1) [] l ++ [10#8] ++ indent ind ++ [125#8]

/-- `fmt.myr:53-58`: the elements of an array, each after the separator. -/
def eltsfmt {F : Type} (ff : F → List Byte) (ind : Nat) (sep : List Byte) : List (Val F) → List Byte
  | [] => []
  | e :: l => sep ++ indent ind ++ eltfmt ff ind e ++ eltsfmt ff ind [44#8, 10#8] l

/-- `fmt.myr:69-76`: the members of an object, each after the separator. -/
def membsfmt {F : Type} (ff : F → List Byte) (ind : Nat) (sep : List Byte) : List (List Byte × Val F) → List Byte
  | [] => []
  | (k, v) :: l => sep ++ indent ind ++ jstrfmt k ++ [58#8, 32#8] ++ eltfmt ff ind v ++ membsfmt ff ind [44#8, 10#8] l
end

/-- `fmt.myr:14-19` jsonfmt. -/
def format {F : Type} (ff : F → List Byte) (v : Val F) : List Byte := eltfmt ff 0 v

end Verif.Json
