import Verif.Prelude

/-!
# Specification: the proleptic Gregorian calendar, day by day

Independent of the code: the calendar is what one gets by turning pages from 1 January of year 1.
-/

namespace Verif.Date

/-- Leap years. -/
def leap (y : Nat) : Bool := y % 400 = 0 || (y % 4 = 0 && y % 100 ≠ 0)

/-- The length of a month. -/
def mlen (y m : Nat) : Nat :=
  if m = 2 then (if leap y then 29 else 28) else if m = 4 ∨ m = 6 ∨ m = 9 ∨ m = 11 then 30 else 31

/-- A day of the calendar. -/
structure Day where
  /-- year -/
  y : Nat
  /-- month -/
  m : Nat
  /-- day of the month -/
  d : Nat
deriving DecidableEq, Repr

/-- The days that exist. -/
def Day.Valid (v : Day) : Prop := 1 ≤ v.y ∧ 1 ≤ v.m ∧ v.m ≤ 12 ∧ 1 ≤ v.d ∧ v.d ≤ mlen v.y v.m

/-- The day after. -/
def Day.next (v : Day) : Day :=
  if v.d < mlen v.y v.m then { v with d := v.d + 1 }
  else if v.m < 12 then { v with m := v.m + 1, d := 1 }
  else { y := v.y + 1, m := 1, d := 1 }

/-- The day `n` days after 1 January of year 1. -/
def civil : Nat → Day
  | 0 => { y := 1, m := 1, d := 1 }
  | n + 1 => (civil n).next

/-- The weekday of that day, Sunday being 0: 1 January of year 1 is a Monday. -/
def weekday : Nat → Nat
  | 0 => 1
  | n + 1 => (weekday n + 1) % 7

/-- The days from 1 January of year 1 to 1 January 1970. -/
def epoch : Nat := 719162

end Verif.Date
