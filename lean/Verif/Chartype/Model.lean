import Verif.Chartype.Tables

/-!
# Model of /repo/lib/std/chartype.myr

`char` is a 32-bit word compared without sign; table entries are naturals below 2^32.
-/

namespace Verif.Chartype

/-- The `while n > 1` loop of `findc`, chartype.myr:1512-1521. -/
def findcLoop (c nelt : Nat) (t : List Nat) (n : Nat) : Res (List Nat) :=
  if h : 1 < n then do
    let m := n / 2
    let p ← slice t (m * nelt) t.length
    let p0 ← rdChk p 0
    if c ≥ p0 then findcLoop c nelt p (n - n / 2) else findcLoop c nelt t (n / 2)
  else .ok t
termination_by n
decreasing_by all_goals omega

/-- `findc`, chartype.myr:1505-1529; `some t` is `true` with `ret#` set to `t`. -/
def findc (c : Nat) (t : List Nat) (n nelt : Nat) : Res (Option (List Nat)) := do
  let t ← findcLoop c nelt t n
  if t.length ≠ 0 then do
    let t0 ← rdChk t 0
    if c ≥ t0 then pure (some t) else pure none
  else pure none

/-- `if c >= l[0] && c <= l[1]`, e.g. chartype.myr:1538. -/
def inRow (c : Nat) (l : List Nat) : Res Bool := do
  let a ← rdChk l 0
  if c ≥ a then do
    let b ← rdChk l 1
    pure (decide (c ≤ b))
  else pure false

/-- `if c == l[0]`, e.g. chartype.myr:1542. -/
def isRow (c : Nat) (l : List Nat) : Res Bool := do
  let a ← rdChk l 0
  pure (decide (c = a))

/-- The shape of `isnum` (chartype.myr:1557-1566), `isblank` (1572-1586) and the two
tests of `cellwidth` (1704-1714). -/
def inRanges (c : Nat) (tab : List Nat) : Res Bool := do
  match ← findc c tab (tab.length / 2) 2 with
  | some l => inRow c l
  | none => pure false

/-- `isnum`, chartype.myr:1557-1566. -/
def isnum (c : Nat) : Res Bool := inRanges c rnums

/-- `isblank`, chartype.myr:1572-1586. -/
def isblank (c : Nat) : Res Bool := inRanges c rspace2

/-- `isspace`, chartype.myr:1588-1590. -/
def isspace (c : Nat) : Res Bool := if c = 10 then .ok true else isblank c

/-- The shape of `islower` and `isupper`: a range table of width `w2`, and, in the
`elif`, a table of single characters of width `w1`. -/
def twoTables (c : Nat) (tab2 : List Nat) (w2 : Nat) (tab1 : List Nat) (w1 : Nat) : Res Bool := do
  match ← findc c tab2 (tab2.length / w2) w2 with
  | some l => inRow c l
  | none => do
    match ← findc c tab1 (tab1.length / w1) w1 with
    | some l => isRow c l
    | none => pure false

/-- `islower`, chartype.myr:1592-1606. -/
def islower (c : Nat) : Res Bool := twoTables c rtoupper2 3 rtoupper1 2

/-- `isupper`, chartype.myr:1608-1622. -/
def isupper (c : Nat) : Res Bool := twoTables c rtolower2 3 rtolower1 2

/-- `isalpha`, chartype.myr:1532-1547. -/
def isalpha (c : Nat) : Res Bool := do
  if ← isupper c then pure true
  else if ← islower c then pure true
  else twoTables c ralpha2 2 ralpha1 1

/-- `isalnum`, chartype.myr:1568-1570. -/
def isalnum (c : Nat) : Res Bool := do
  if ← isalpha c then pure true else isnum c

/-- The shape of `tolower` and `toupper`; `c + l[k] - 500` is computed on 32 bits. -/
def convert (c : Nat) (tab2 tab1 : List Nat) : Res Nat := do
  match ← findc c tab2 (tab2.length / 3) 3 with
  | some l => do
    if ← inRow c l then do
      let d ← rdChk l 2
      pure ((c + d + (2 ^ 32 - 500)) % 2 ^ 32)
    else pure c
  | none => do
    match ← findc c tab1 (tab1.length / 2) 2 with
    | some l => do
      if ← isRow c l then do
        let d ← rdChk l 1
        pure ((c + d + (2 ^ 32 - 500)) % 2 ^ 32)
      else pure c
    | none => pure c

/-- `tolower`, chartype.myr:1632-1645. -/
def tolower (c : Nat) : Res Nat := convert c rtolower2 rtolower1

/-- `toupper`, chartype.myr:1647-1660. -/
def toupper (c : Nat) : Res Nat := convert c rtoupper2 rtoupper1

/-- `totitle`, chartype.myr:1662-1671. -/
def totitle (c : Nat) : Res Nat := do
  match ← findc c rtotitle1 (rtotitle1.length / 2) 2 with
  | some l => do
    if ← isRow c l then do
      let d ← rdChk l 1
      pure ((c + d + (2 ^ 32 - 500)) % 2 ^ 32)
    else pure c
  | none => pure c

/-- `cellwidth`, chartype.myr:1690-1717 (`-1` as a `char` is 2^32 - 1). -/
def cellwidth (c : Nat) : Res Int := do
  if c = 0 then pure 0
  else if c = 0xffffffff ∨ c < 0x20 ∨ (c ≥ 0x7f ∧ c ≤ 0x9f) then pure (-1)
  else if ← inRanges c width0 then pure 0
  else if ← inRanges c width2 then pure 2
  else pure 1

end Verif.Chartype
