import Verif.Date.Model

/-!
# Model of /repo/lib/date/fmt.myr and /repo/lib/date/parse.myr

Texts and formats are lists of characters (the functions step through them by `std.charstep`, see C05 and C06); what is a
blank is given for ASCII only.  Integers are printed and read as proved in C11.  Not modelled: names of zones (`%Z`),
which need files.
-/

namespace Verif.Dfmt

open Date (Inst)

/-! ## Writing, fmt.myr -/

/-- A digit. -/
def dig (n : Nat) : Char := Char.ofNat (48 + n % 10)

/-- Decimal digits, as `std.sbfmt` writes them (lib/std/intfmt.myr:49-53); at most 20. -/
def digs : Nat → Nat → List Char
  | 0, _ => []
  | f + 1, n => if n < 10 then [dig n] else digs f (n / 10) ++ [dig n]

/-- An integer with `{p=c,w=w}`, lib/std/intfmt.myr:44-70: zeros go between sign and digits. -/
def num (c : Char) (w : Nat) (v : Int) : List Char :=
  let ds := digs 20 v.natAbs
  if v < 0 then
    let pad := List.replicate (w - (ds.length + 1)) c
    if c = '0' then '-' :: (pad ++ ds) else pad ++ '-' :: ds
  else List.replicate (w - ds.length) c ++ ds

/-- `abbrevday`, names.myr:8-16. -/
def abbrevday : List (List Char) :=
  [['S', 'u', 'n'], ['M', 'o', 'n'], ['T', 'u', 'e'], ['W', 'e', 'd'], ['T', 'h', 'u'], ['F', 'r', 'i'],
    ['S', 'a', 't']]

/-- `fullday`, names.myr:18-26. -/
def fullday : List (List Char) :=
  [['S', 'u', 'n', 'd', 'a', 'y'], ['M', 'o', 'n', 'd', 'a', 'y'], ['T', 'u', 'e', 's', 'd', 'a', 'y'],
    ['W', 'e', 'd', 'n', 'e', 's', 'd', 'a', 'y'], ['T', 'h', 'u', 'r', 's', 'd', 'a', 'y'],
    ['F', 'r', 'i', 'd', 'a', 'y'], ['S', 'a', 't', 'u', 'r', 'd', 'a', 'y']]

/-- `abbrevmon`, names.myr:28-42. -/
def abbrevmon : List (List Char) :=
  [['N', 'O', 'N', 'E'], ['J', 'a', 'n'], ['F', 'e', 'b'], ['M', 'a', 'r'], ['A', 'p', 'r'], ['M', 'a', 'y'],
    ['J', 'u', 'n'], ['J', 'u', 'l'], ['A', 'u', 'g'], ['S', 'e', 'p'], ['O', 'c', 't'], ['N', 'o', 'v'],
    ['D', 'e', 'c']]

/-- `fullmon`, names.myr:44-58. -/
def fullmon : List (List Char) :=
  [['N', 'O', 'N', 'E'], ['J', 'a', 'n', 'u', 'a', 'r', 'y'], ['F', 'e', 'b', 'r', 'u', 'a', 'r', 'y'],
    ['M', 'a', 'r', 'c', 'h'], ['A', 'p', 'r', 'i', 'l'], ['M', 'a', 'y'], ['J', 'u', 'n', 'e'], ['J', 'u', 'l', 'y'],
    ['A', 'u', 'g', 'u', 's', 't'], ['S', 'e', 'p', 't', 'e', 'm', 'b', 'e', 'r'], ['O', 'c', 't', 'o', 'b', 'e', 'r'],
    ['N', 'o', 'v', 'e', 'm', 'b', 'e', 'r'], ['D', 'e', 'c', 'e', 'm', 'b', 'e', 'r']]

/-- A checked access at an `int`. -/
def at' {α : Type} (l : List α) (i : Int) : Res α := if i < 0 then .abort else rdChk l i.toNat

/-- `Datefmt`, types.myr:36. -/
def Datefmt : List Char := "%Y-%m-%d %z".toList

/-- `Timefmt`, types.myr:35. -/
def Timefmt : List Char := "%h:%m:{} %z".toList

/-- `timezone`, fmt.myr:91-104. -/
def timezone (off : Int) : List Char :=
  let sep := if off < 0 then '-' else '+'
  let off := if off < 0 then -off else off
  let off := off.tdiv 1000000
  sep :: (num '0' 2 (off.tdiv 3600) ++ num '0' 2 (off.tmod 3600))

/-- The letters of `datefmt`, fmt.myr:41-83; `sub` is `datefmt` itself, for letters that stand for formats. -/
def fmtLetter (sub : List Char → Inst → Res (List Char)) (c : Char) (d : Inst) : Res (List Char) :=
  match c with
  | 'a' => at' abbrevday d.wday
  | 'A' => at' fullday d.wday
  | 'b' => at' abbrevmon d.mon
  | 'B' => at' fullmon d.mon
  | 'c' => sub "%Y-%m-%d %H:%M:%S %z".toList d
  | 'C' => .ok (num '0' 2 (d.year.tmod 100))
  | 'd' => .ok (num '0' 2 d.day)
  | 'D' => sub "%m/%d/%y (wtf america)".toList d
  | 'e' => .ok (num ' ' 2 d.day)
  | 'F' => sub "%Y-%m-%d".toList d
  | 'h' => at' abbrevmon d.mon
  | 'H' => .ok (num '0' 2 d.h)
  | 'I' => .ok (num '0' 2 (d.h.tmod 12))
  | 'j' => .ok "year day... unimplemented.".toList
  | 'k' => .ok (num '0' 2 d.h)
  | 'l' => .ok (num ' ' 0 (d.h.tmod 12))
  | 'm' => .ok (num '0' 2 d.mon)
  | 'M' => .ok (num '0' 2 d.m)
  | 'n' => .ok ['\n']
  | 'O' => .ok "unsupported %O".toList
  | 'p' => at' ["AM".toList, "PM".toList] (d.h.tdiv 12)
  | 'P' => at' ["am".toList, "pm".toList] (d.h.tdiv 12)
  | 'r' => sub "%I:%M:%S %P".toList d
  | 'R' => sub "%H:%M".toList d
  | 's' => .ok (num ' ' 0 (d.actual.tdiv 1000000))
  | 'S' => .ok (num '0' 2 d.s)
  | 'T' => sub "%H:%M:%S".toList d
  | 't' => .ok ['\t']
  | 'u' => .ok (num ' ' 0 d.wday)
  | 'U' => .ok "week number... unimplemented.".toList
  | 'x' => sub Datefmt d
  | 'X' => sub Timefmt d
  | 'y' => .ok (num ' ' 0 (d.year.tmod 100))
  | 'Y' => .ok (num ' ' 0 d.year)
  | 'z' => .ok (timezone d.tzoff)
  | '%' => .ok ['%']
  | _ => .abort

/-- The loop of `datefmt`, fmt.myr:34-89; a `%` at the end is an unknown letter. -/
def fmtLoop (sub : List Char → Inst → Res (List Char)) : List Char → Inst → Res (List Char)
  | [], _ => .ok []
  | ['%'], _ => .abort
  | '%' :: c :: f, d => do
    let x ← fmtLetter sub c d
    let r ← fmtLoop sub f d
    pure (x ++ r)
  | c :: f, d => do
    let r ← fmtLoop sub f d
    pure (c :: r)

/-- `datefmt`, fmt.myr:34-89: formats that stand for letters have no such letters. -/
def datefmt : List Char → Inst → Res (List Char) := fmtLoop (fmtLoop (fun _ _ => .spin))

/-! ## Reading, parse.myr -/

/-- `parsefail`, parse.myr:9-19, without data. -/
inductive Fail where
  | doublefmt
  | badsep
  | badzone
  | badname
  | badchar
  | badampm
  | shortint
deriving DecidableEq, Repr

/-- `std.isdigit`, lib/std/chartype.myr:1549-1551. -/
def isdigit (c : Char) : Bool := 48 ≤ c.toNat && c.toNat ≤ 57

/-- `std.isspace`, lib/std/chartype.myr:1588-1590, of ASCII. -/
def isspace (c : Char) : Bool := c = '\n' || c = '\t' || c = ' '

/-- `eatspace`, parse.myr:159-166. -/
def eatspace : List Char → List Char
  | [] => []
  | c :: s => if isspace c then eatspace s else c :: s

/-- The first loop of `intval`, parse.myr:247-253. -/
def need : Nat → List Char → Except Fail (List Char)
  | 0, s => .ok s
  | _ + 1, [] => .error .shortint
  | n + 1, c :: s => if isdigit c then need n s else .error .shortint

/-- The second loop of `intval`, parse.myr:255-261: how many digits, and the rest. -/
def more : Nat → List Char → Nat × List Char
  | 0, s => (0, s)
  | _ + 1, [] => (0, [])
  | n + 1, c :: s => if isdigit c then ((more n s).1 + 1, (more n s).2) else (0, c :: s)

/-- `std.intparse` of digits, lib/std/intparse.myr:54-66. -/
def value (s : List Char) : Int := s.foldl (fun v c => 10 * v + (c.toNat - 48 : Nat)) (0 : Nat)

/-- `intval`, parse.myr:243-272. -/
def intval (min max : Nat) (s : List Char) : Except Fail (Int × List Char) := do
  let r ← need min s
  let m := more (max - min) r
  pure (value (s.take (min + m.1)), m.2)

/-- `indexof`, parse.myr:168-178, from index `i` on. -/
def indexof (s : List Char) : List (List Char) → Nat → Except Fail (Int × List Char)
  | [], _ => .error .badname
  | w :: ws, i => if w.isPrefixOf s then .ok (i, s.drop w.length) else indexof s ws (i + 1)

/-- `tzoffset`, parse.myr:180-199. -/
def tzoffset : List Char → Except Fail (Int × List Char)
  | '-' :: s => do
    let (v, s) ← intval 2 4 s
    pure (-1 * v.tdiv 100 * 3600 * 1000000 + v.tmod 100 * 60 * 1000000, s)
  | '+' :: s => do
    let (v, s) ← intval 2 4 s
    pure (1 * v.tdiv 100 * 3600 * 1000000 + v.tmod 100 * 60 * 1000000, s)
  | _ => .error .badzone

/-- `matchstr`, parse.myr:219-225, of one character: the text must be longer. -/
def matchstr (c : Char) : List Char → Except Fail (List Char)
  | x :: y :: s => if x = c then .ok (y :: s) else .error .badchar
  | _ => .error .badchar

/-- `matchampm`, parse.myr:227-241. -/
def matchampm : List Char → Except Fail (Bool × List Char)
  | x :: y :: s =>
    if (x = 'a' ∧ y = 'm') ∨ (x = 'A' ∧ y = 'M') then .ok (true, s)
    else if (x = 'p' ∧ y = 'm') ∨ (x = 'P' ∧ y = 'M') then .ok (false, s)
    else .error .badampm
  | _ => .error .badampm

/-- The state of `filldate`: the instant, the letters seen, what is left of the text, morning or afternoon. -/
structure St where
  d : Inst
  seen : List Char
  s : List Char
  am : Option Bool

/-- What a letter does: `none` is `std.fatal`, parse.myr:130. -/
abbrev Step := Option (Except Fail St)

/-- An integer into a field. -/
def fld (st : St) (min max : Nat) (set : Inst → Int → Inst) : Step :=
  some ((intval min max st.s).map (fun r => { st with d := set st.d r.1, s := r.2 }))

/-- A name into a field. -/
def name (st : St) (ws : List (List Char)) (set : Inst → Int → Inst) : Step :=
  some ((indexof st.s ws 0).map (fun r => { st with d := set st.d r.1, s := r.2 }))

/-- A format for a letter: it has an `am` of its own. -/
def nested (sub : List Char → St → Step) (f : List Char) (st : St) : Step :=
  (sub f st).map (fun r => r.map (fun st' => { st' with am := st.am }))

/-- The letters of `filldate`, parse.myr:85-131. -/
def letter (sub : List Char → St → Step) (c : Char) (st : St) : Step :=
  match c with
  | 'a' => name st abbrevday (fun d v => { d with day := v })
  | 'A' => name st fullday (fun d v => { d with day := v })
  | 'b' => name st abbrevmon (fun d v => { d with mon := v })
  | 'B' => name st fullmon (fun d v => { d with mon := v })
  | 'c' => nested sub "%Y-%m-%d".toList st
  | 'C' => fld st 2 2 (fun d v => { d with year := v + 1900 })
  | 'd' => fld st 2 2 (fun d v => { d with day := v })
  | 'D' => nested sub "%m/%d/%y".toList st
  | 'e' => fld st 1 2 (fun d v => { d with day := v })
  | 'F' => nested sub "%y-%m-%d".toList st
  | 'h' => name st abbrevmon (fun d v => { d with day := v })
  | 'H' => fld st 1 2 (fun d v => { d with h := v })
  | 'I' => fld st 1 2 (fun d v => { d with h := v })
  | 'k' => fld st 1 2 (fun d v => { d with h := v })
  | 'l' => fld st 1 2 (fun d v => { d with h := v })
  | 'm' => fld st 1 2 (fun d v => { d with mon := v })
  | 'M' => fld st 1 2 (fun d v => { d with m := v })
  | 'n' => some ((matchstr '\n' st.s).map (fun s => { st with s := s }))
  | 'p' => some ((matchampm st.s).map (fun r => { st with am := some r.1, s := r.2 }))
  | 'P' => some ((matchampm st.s).map (fun r => { st with am := some r.1, s := r.2 }))
  | 'r' => nested sub "%H:%M:%S %P".toList st
  | 'R' => nested sub "%H:%M %P".toList st
  | 's' => fld st 1 64 (fun d v => { d with actual := Date.w64 v })
  | 'S' => fld st 1 2 (fun d v => { d with s := v })
  | 't' => some (.ok { st with s := eatspace st.s })
  | 'u' => fld st 1 1 (fun d v => { d with wday := v })
  | 'x' => nested sub Datefmt st
  | 'X' => nested sub Timefmt st
  | 'y' => fld st 1 2 (fun d v => { d with year := v + 1900 })
  | 'Y' => fld st 1 4 (fun d v => { d with year := v })
  | 'z' => some ((tzoffset st.s).map (fun r => { st with d := { st.d with tzoff := r.1 }, s := r.2 }))
  | '%' => some ((matchstr '%' st.s).map (fun s => { st with s := s }))
  | _ => none

/-- The end of `filldate`, parse.myr:139-157. -/
def finish (st : St) : St :=
  let d := { st.d with actual := Date.recalc st.d }
  { st with d := match st.am with
    | none => d
    | some true => { d with h := d.h.tmod 12 }
    | some false => { d with h := d.h.tmod 12 + 12 } }

/-- A character of the format that is no letter, parse.myr:132-138. -/
def sep (c : Char) : List Char → Except Fail (List Char)
  | [] => .error .badsep
  | x :: s => if isspace c && isspace x then .ok (eatspace s) else if x ≠ c then .error .badsep else .ok s

/-- The loop of `filldate`, parse.myr:76-144, and its end. -/
def fillLoop (sub : List Char → St → Step) : List Char → St → Step
  | [], st => some (.ok (finish st))
  | ['%'], _ => none
  | '%' :: c :: f, st =>
    if c ∈ st.seen then some (.error .doublefmt)
    else
      match letter sub c { st with seen := c :: st.seen } with
      | none => none
      | some (.error e) => some (.error e)
      | some (.ok st) => fillLoop sub f st
  | c :: f, st =>
    match sep c st.s with
    | .error e => some (.error e)
    | .ok s => fillLoop sub f { st with s := s }

/-- `filldate`, parse.myr:70-157. -/
def filldate (f : List Char) (st : St) : Step :=
  fillLoop (fun f st => fillLoop (fun _ _ => none) f { st with am := none }) f { st with am := none }

/-- The instant with all fields zero, parse.myr:47. -/
def zero : Inst := ⟨0, 0, 0, 0, 0, 0, 0, 0, 0, 0⟩

/-- `strparse` without a zone (`parsefmt`), parse.myr:43-64. -/
def parsefmt (f s : List Char) : Option (Except Fail Inst) :=
  (filldate f ⟨zero, [], s, none⟩).map (fun r => r.map (fun st =>
    { st.d with actual := Date.w64 (st.d.actual - st.d.tzoff) }))

/-- `strparse` with a zone of the given offset (`parsefmtl`, `parsefmtz`), parse.myr:43-64. -/
def parsefmtz (f s : List Char) (off : Int) : Option (Except Fail (Res Inst)) :=
  (parsefmt f s).map (fun r => r.map (fun d => Date.mkinstantoff d.actual off))

end Verif.Dfmt
