import Verif.Prelude

/-!
# Model of `lib/date/date.myr`

`std.time` is a 64-bit integer (lib/std/types.myr), the fields of an instant are 32-bit integers.
Values are integers; `w64`, `w32` wrap them where an operation can leave the range of its type.
`/` and `%` truncate towards zero (`Int.tdiv`, `Int.tmod`). The zone name and its buffer are left out;
the offset found for a zone (`_zoneinfo.findtzoff`, which reads files) is a parameter.
-/

namespace Verif.Date

/-- Wrapping at 64 bits, signed. -/
def w64 (x : Int) : Int := x.bmod (2 ^ 64)

/-- Wrapping at 32 bits, signed. -/
def w32 (x : Int) : Int := x.bmod (2 ^ 32)

/-- `Days400y`, date.myr:30. -/
def Days400y : Int := 365 * 400 + 4 * 25 - 3
/-- `Days4y`, date.myr:31. -/
def Days4y : Int := 365 * 4 + 1
/-- `DayUsec`, date.myr:32. -/
def DayUsec : Int := 24 * 60 * 60 * 1000000
/-- `Mdays`, date.myr:33. -/
def Mdays : List Int := [31, 28, 31, 30, 31, 30, 31, 31, 30, 31, 30, 31]

/-- `instant`, types.myr:4-17, without the zone name. -/
structure Inst where
  /-- microseconds since 1970 -/
  actual : Int
  /-- zone offset in microseconds -/
  tzoff : Int
  /-- year -/
  year : Int
  /-- month -/
  mon : Int
  /-- day -/
  day : Int
  /-- weekday -/
  wday : Int
  /-- hour -/
  h : Int
  /-- minute -/
  m : Int
  /-- second -/
  s : Int
  /-- microsecond -/
  us : Int
deriving DecidableEq, Repr

/-- `Mdays[m - 1]`, date.myr:150: a checked access. -/
def mdaysAt (m : Int) : Res Int :=
  if 0 ≤ m - 1 then rdChk Mdays (m - 1).toNat else .abort

/-- date.myr:146-151: the corrections for negative months and days. -/
def fixup (y m d : Int) : Res (Int × Int × Int) :=
  let m := if m < 0 then m + 12 else m
  if d < 0 then do
    let k ← mdaysAt m
    pure (y, m, d + k)
  else pure (y, m, d)

/-- date.myr:121-144: year, month, day from the day number `j`, up to the test for year 0. -/
def ymd (j : Int) : Int × Int × Int :=
  let y := (4 * j - 1).tdiv Days400y
  let j := 4 * j - 1 - Days400y * y
  let d := j.tdiv 4
  let j := (4 * d + 3).tdiv Days4y
  let d := 4 * d + 3 - Days4y * j
  let d := (d + 4).tdiv 4
  let m := (5 * d - 3).tdiv 153
  let d := 5 * d - 3 - 153 * m
  let d := (d + 5).tdiv 5
  let y := 100 * y + j
  let y' := if m < 10 then y else y + 1
  let m := if m < 10 then m + 3 else m - 9
  (if y' ≤ 0 then y' - 1 else y', m, d)

/-- date.myr:118-155: the date fields of a time. Only the addition in line 118 can overflow: the day
number is a quotient by `DayUsec`. The casts of lines 153-155 are exact for the same reason. -/
def datepart (tm : Int) : Res (Int × Int × Int) :=
  let j := (w64 (tm + 2440588 * DayUsec)).tdiv DayUsec
  let r := ymd (j - 1721119)
  fixup r.1 r.2.1 r.2.2

/-- date.myr:88-107: time of day and day number, with the correction for negative times. -/
def timepart (tm : Int) : Int × Int :=
  let t := tm.tmod DayUsec
  let e := tm.tdiv DayUsec
  if t < 0 then (t + DayUsec, e - 1) else (t, e)

/-- `mkinstantoff`, date.myr:75-157. -/
def mkinstantoff (tm tzoff : Int) : Res Inst := do
  let lt := w64 (tm + tzoff)
  let (t, e) := timepart lt
  let us := t.tmod 1000000
  let t := t.tdiv 1000000
  let s := t.tmod 60
  let t := t.tdiv 60
  let m := t.tmod 60
  let t := t.tdiv 60
  let wday := (e + 4).tmod 7
  let (yy, mm, dd) ← datepart lt
  pure { actual := tm, tzoff := tzoff, year := yy, mon := mm, day := dd, wday := wday, h := t, m := m, s := s, us := us }

/-- `recalc`, date.myr:210-236: additions and products wrap, which is the same as wrapping their sum. -/
def recalc (i : Inst) : Int :=
  let m := if i.mon > 2 then w32 (i.mon - 3) else w32 (i.mon + 9)
  let y := if i.mon > 2 then i.year else w32 (i.year - 1)
  let c := y.tdiv 100
  let ya := y - 100 * c
  let j := (c * Days400y).tdiv 4 + (Days4y * ya).tdiv 4 + (153 * m + 2).tdiv 5 + i.day - 719469
  w64 (j * DayUsec + i.h * 3600 * 1000000 + i.m * 60 * 1000000 + i.s * 1000000 + i.us)

/-- `isleap`, date.myr:170-172. -/
def isleap (i : Inst) : Bool := i.year.tmod 4 = 0 && (i.year.tmod 100 ≠ 0 || i.year.tmod 400 = 0)

/-- An instant with the given fields, the others zero, date.myr:51, 57-58. -/
def fields (y mo d h m s : Int) : Inst :=
  { actual := 0, tzoff := 0, year := y, mon := mo, day := d, wday := 0, h := h, m := m, s := s, us := 0 }

/-- `mkdate`, date.myr:50-52; `off` is the offset of the zone. -/
def mkdate (y mo d off : Int) : Res Inst := mkinstantoff (recalc (fields y mo d 0 0 0)) off

/-- `mkdatetime`, date.myr:54-66. -/
def mkdatetime (y mo d h m s off : Int) : Res Inst := mkinstantoff (recalc (fields y mo d h m s)) off

/-- `add`, date.myr:174-176. -/
def add (d : Inst) (dt : Int) : Res Inst := mkinstantoff (w64 (d.actual + dt)) d.tzoff

/-- `sub`, date.myr:178-180. -/
def sub (d : Inst) (dt : Int) : Res Inst := mkinstantoff (w64 (d.actual - dt)) d.tzoff

/-- `period`, types.myr:21-28. -/
inductive Period where
  /-- years -/
  | year (n : Int)
  /-- months -/
  | month (n : Int)
  /-- days -/
  | day (n : Int)
  /-- hours -/
  | hour (n : Int)
  /-- minutes -/
  | minute (n : Int)
  /-- seconds -/
  | second (n : Int)

/-- The `match` of `addperiod`, date.myr:183-190. -/
def bump (i : Inst) : Period → Inst
  | .year n => { i with year := w32 (i.year + n) }
  | .month n => { i with mon := w32 (i.mon + n) }
  | .day n => { i with day := w32 (i.day + n) }
  | .hour n => { i with h := w32 (i.h + n) }
  | .minute n => { i with m := w32 (i.m + n) }
  | .second n => { i with s := w32 (i.s + n) }

/-- `addperiod`, date.myr:182-192. -/
def addperiod (i : Inst) (p : Period) : Res Inst := mkinstantoff (recalc (bump i p)) i.tzoff

/-- The `match` of `subperiod`, date.myr:195-202. -/
def unbump (i : Inst) : Period → Inst
  | .year n => { i with year := w32 (i.year - n) }
  | .month n => { i with mon := w32 (i.mon - n) }
  | .day n => { i with day := w32 (i.day - n) }
  | .hour n => { i with h := w32 (i.h - n) }
  | .minute n => { i with m := w32 (i.m - n) }
  | .second n => { i with s := w32 (i.s - n) }

/-- `subperiod`, date.myr:194-204. -/
def subperiod (i : Inst) (p : Period) : Res Inst := mkinstantoff (recalc (unbump i p)) i.tzoff

/-- `duration`, date.myr:206-208. -/
def duration (a b : Inst) : Int := w64 (b.actual - a.actual)

end Verif.Date
