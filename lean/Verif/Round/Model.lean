import Verif.Flt.Model

/-!
# Model of /repo/lib/math/trunc-impl.myr, round-impl.myr and scale2-impl.myr

Numbers are bit patterns, as in `Verif.Flt.Model`; the copies for 32 and 64 bits differ in widths only, given by `Fmt`.
Modelled are the versions in Myrddin; machines with SSE4 use instructions for the first two files.
-/

namespace Verif.Round

open Verif.Endian (shl)
open Verif.Flt (Fmt shr explode assem)

/-- `Flt64SigMask`, trunc-impl.myr:16 and `Flt32SigMask`, 13. -/
def sigmask (f : Fmt) : BitVec f.w := shl 1#f.w f.m - 1#f.w

/-- `Flt64NegMask`, trunc-impl.myr:15 and `Flt32NegMask`, 12. -/
def negmask (f : Fmt) : BitVec f.w := shl 1#f.w (f.w - 1)

/-- `x == -0.0`, true for both zeros. -/
def iszero (f : Fmt) (x : BitVec f.w) : Bool := x == 0#f.w || x == negmask f

/-- The literal `-1.0`. -/
def negone (f : Fmt) : BitVec f.w := negmask f ||| shl (BitVec.ofNat f.w f.bias) f.m

/-- `-x`: a product with `-1.0` (6/simp.c:1302-1310), which changes the sign of all numbers.  Of NaNs this is not what the
machine does; the theorems do not speak of NaNs. -/
def fneg (f : Fmt) (x : BitVec f.w) : BitVec f.w := x ^^^ negmask f

/-- `floor64`, trunc-impl.myr:62-91 and `floor32`, 18-47. -/
def floor (f : Fmt) (x : BitVec f.w) : BitVec f.w :=
  let (n, e, s) := explode f x
  if (f.m : Int) ≤ e.toInt || iszero f x then x
  else if e.toInt < 0 then
    if n then negone f else 0#f.w
  else if n then
    let mask := shr (sigmask f) e.toNat
    if s &&& mask = 0#f.w then x
    else (x &&& ~~~mask) + shr (shl 1#f.w f.m) e.toNat
  else
    let m := shr (sigmask f) e.toNat
    assem f n e (s &&& ~~~m)

/-- `trunc64`, trunc-impl.myr:93-99 and `trunc32`, 49-55. -/
def trunc (f : Fmt) (x : BitVec f.w) : BitVec f.w :=
  if x &&& negmask f ≠ 0#f.w then fneg f (floor f (fneg f x)) else floor f x

/-- `ceil64`, trunc-impl.myr:101-103 and `ceil32`, 57-59. -/
def ceil (f : Fmt) (x : BitVec f.w) : BitVec f.w := fneg f (floor f (fneg f x))

/-- `shr`, util.myr:124-130. -/
def ushr (u : BitVec 64) (s : BitVec 64) : BitVec 64 := if 64 ≤ s.toNat then 0#64 else shr u s.toNat

/-- `shl`, util.myr:132-138. -/
def ushl (u : BitVec 64) (s : BitVec 64) : BitVec 64 := if 64 ≤ s.toNat then 0#64 else shl u s.toNat

/-- `need_round_away`, util.myr:172-204. -/
def needRoundAway (h l : BitVec 64) (last : BitVec 64) : Bool :=
  let (first, beyond) :=
    if last.toInt > 64 then
      (h &&& ushl 1#64 (last - 1#64 - 64#64) != 0#64,
        h &&& ushr (-1#64) (2#64 + 64#64 - (last - 64#64)) != 0#64 || l != 0#64)
    else (l &&& ushl 1#64 (last - 1#64) != 0#64, l &&& ushr (-1#64) (1#64 + 64#64 - last) != 0#64)
  if !first then false
  else if beyond then true
  else if last.toInt ≥ 64 then h &&& ushl 1#64 (last - 64#64) != 0#64
  else l &&& ushl 1#64 last != 0#64

/-- `rn64`, round-impl.myr:10-40 and `rn32`, 42-70. -/
def rn (f : Fmt) (x : BitVec f.w) : BitVec f.w :=
  let (n, e, s) := explode f x
  if e.toInt ≥ f.w - 1 then negmask f
  else if e.toInt ≥ f.m then
    let shifted := shl s (e - BitVec.ofNat f.w f.m).toNat
    if n then -1#f.w * shifted else shifted
  else if e.toInt < -1 then 0#f.w
  else
    let i := shr s (BitVec.ofNat f.w f.m - e).toNat
    let i := if needRoundAway 0#64 (s.setWidth 64) ((BitVec.ofNat f.w f.m - e).signExtend 64) then i + 1#f.w else i
    if n then -i else i

/-- `find_first1_64`, util.myr:141-150, from `start` down. -/
def findFirst1 (b : BitVec 64) : Nat → Int
  | 0 => if b &&& ushl 1#64 0#64 ≠ 0#64 then 0 else -1
  | j + 1 => if b &&& ushl 1#64 (BitVec.ofNat 64 (j + 1)) ≠ 0#64 then j + 1 else findFirst1 b j

/-- `scale2gen`, scale2-impl.myr:30-76; the bounds are those of scale2-impl.myr:19 and 26.  Integers of both kinds have the
width of the number. -/
def scale2gen (f : Fmt) (n : Bool) (e s : BitVec f.w) (m : BitVec f.w) : Bool × BitVec f.w × BitVec f.w :=
  let emin := 1#f.w - BitVec.ofNat f.w f.bias
  let emax := BitVec.ofNat f.w f.bias
  let p := BitVec.ofNat f.w (f.m + 1)
  if e.slt emin && s == 0#f.w then (n, e, s)
  else if m == 0#f.w then (n, e, s)
  else if m.slt 0#f.w then
    if e.slt emin then
      let s' := shr s (-m).toNat
      let s' := if needRoundAway 0#64 (s.setWidth 64) ((-m).signExtend 64) then s' + 1#f.w else s'
      (n, emin - 1#f.w, s')
    else if (e + m).slt (emin - p - 2#f.w) then (n, emin - 1#f.w, 0#f.w)
    else if (e + m).slt emin then
      let s' := shr s (emin - m - e).toNat
      let s' := if needRoundAway 0#64 (s.setWidth 64) ((emin - m - e).signExtend 64) then s' + 1#f.w else s'
      (n, emin - 1#f.w, s')
    else (n, e + m, s)
  else
    let fin (e s m : BitVec f.w) :=
      if emax.slt (e + m) && s != 0#f.w then (n, emax + 1#f.w, shl 1#f.w (p - 1#f.w).toNat) else (n, e + m, s)
    if e.slt emin then
      let shift := p - BitVec.ofInt f.w (findFirst1 (s.setWidth 64) (f.m + 1)) - 1#f.w
      if shift.sle m then fin emin (shl s shift.toNat) (m - shift)
      else (n, e, shl s m.toNat)
    else fin e s m

/-- `scale264`, scale2-impl.myr:23-28 and `scale232`, 16-21. -/
def scale2 (f : Fmt) (x : BitVec f.w) (m : BitVec f.w) : BitVec f.w :=
  let (n, e, s) := explode f x
  let (n, e, s) := scale2gen f n e s m
  assem f n e s

end Verif.Round
