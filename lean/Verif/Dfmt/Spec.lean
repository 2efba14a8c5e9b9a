import Verif.Date.Model

/-!
# Specification: what a date written with a format and read with the same says
-/

namespace Verif.Dfmt.Spec

open Date (Inst)

/-- Pieces of a format: characters, and letters after a `%`. -/
inductive Item where
  | lit (c : Char)
  | fld (c : Char)
deriving DecidableEq, Repr

/-- The format. -/
def render : List Item → List Char
  | [] => []
  | .lit c :: is => c :: render is
  | .fld c :: is => '%' :: c :: render is

/-- The letters. -/
def letters : List Item → List Char
  | [] => []
  | .lit _ :: is => letters is
  | .fld c :: is => c :: letters is

/-- Letters that say something exactly: year, month, day, hour, minute, second, weekday, zone, and `%`; `I` says the hour
up to half days. -/
def known : List Char :=
  ['Y', 'm', 'b', 'B', 'h', 'd', 'e', 'H', 'k', 'I', 'p', 'M', 'S', 'a', 'A', 'u', 'z', 'F', '%']

/-- The second instant has what the letter says of the first. -/
def agree (c : Char) (d d' : Inst) : Prop :=
  match c with
  | 'Y' => d'.year = d.year
  | 'm' => d'.mon = d.mon
  | 'b' => d'.mon = d.mon
  | 'B' => d'.mon = d.mon
  | 'h' => d'.mon = d.mon
  | 'd' => d'.day = d.day
  | 'e' => d'.day = d.day
  | 'H' => d'.h = d.h
  | 'k' => d'.h = d.h
  | 'I' => d'.h % 12 = d.h % 12
  | 'M' => d'.m = d.m
  | 'S' => d'.s = d.s
  | 'a' => d'.wday = d.wday
  | 'A' => d'.wday = d.wday
  | 'u' => d'.wday = d.wday
  | 'z' => d'.tzoff = d.tzoff
  | 'F' => d'.year = d.year ∧ d'.mon = d.mon ∧ d'.day = d.day
  | _ => True

/-- Formats: known letters, each at most once; other characters are not `%`. -/
def Good (is : List Item) : Prop :=
  (∀ c ∈ letters is, c ∈ known) ∧ (letters is).Nodup ∧ Item.lit '%' ∉ is

/-- Dates: years of four digits, zones of whole minutes less than a day from UTC. -/
def Valid (d : Inst) : Prop :=
  (1000 ≤ d.year ∧ d.year < 10000) ∧ (1 ≤ d.mon ∧ d.mon ≤ 12) ∧ (1 ≤ d.day ∧ d.day ≤ 31) ∧ (0 ≤ d.h ∧ d.h < 24) ∧
    (0 ≤ d.m ∧ d.m < 60) ∧ (0 ≤ d.s ∧ d.s < 60) ∧ (0 ≤ d.wday ∧ d.wday < 7) ∧
    ∃ k : Int, d.tzoff = k * 60000000 ∧ -1440 < k ∧ k < 1440

/-- Letters the round trip is proved for. -/
def fine : List Char := ['Y', 'm', 'b', 'B', 'd', 'H', 'k', 'M', 'S', 'z']

/-- No two blanks one after the other. -/
def nogap (blank : Char → Bool) : List Item → Prop
  | .lit a :: .lit b :: is => ¬(blank a = true ∧ blank b = true) ∧ nogap blank (.lit b :: is)
  | _ :: is => nogap blank is
  | [] => True

end Verif.Dfmt.Spec
