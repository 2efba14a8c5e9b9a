import Verif.Round.Model

/-!
# Model of the conversions between widths, /repo/lib/math/util.myr

Numbers are bit patterns, as in `Verif.Flt.Model`.
-/

namespace Verif.Conv

open Verif.Endian (shl)
open Verif.Flt (dbl flt shr explode assem)
open Verif.Round (findFirst1 needRoundAway ushr)

/-- `flt64explode`, fltbits.myr:26-42. -/
def explode64 (x : BitVec 64) : Bool × BitVec 64 × BitVec 64 := explode dbl x

/-- `flt32explode`, fltbits.myr:44-60. -/
def explode32 (x : BitVec 32) : Bool × BitVec 32 × BitVec 32 := explode flt x

/-- `flt64assem`, fltbits.myr:62-86. -/
def assem64 (n : Bool) (e s : BitVec 64) : BitVec 64 := assem dbl n e s

/-- `flt32assem`, fltbits.myr:88-113. -/
def assem32 (n : Bool) (e s : BitVec 32) : BitVec 32 := assem flt n e s

/-- `flt64fromflt32`, util.myr:46-70. -/
def widen (f : BitVec 32) : BitVec 64 :=
  let p := explode32 f
  let n := p.1
  let e := p.2.1
  let xs : BitVec 64 := p.2.2.setWidth 64
  let xe : BitVec 64 := e.signExtend 64
  if e = 128#32 then assem64 n 1024#64 xs
  else if e = -127#32 then
    let first1 := findFirst1 xs 23
    if first1 < 0 then assem64 n (-1023#64) 0#64
    else
      let j := BitVec.ofInt 64 first1
      assem64 n (-126#64 - (23#64 - j)) (shl xs (52#64 - j).toNat)
  else assem64 n xe (shl xs 29)

/-- The last part of `flt32fromflt64`, util.myr:102-120. -/
def narrowSmall (n : Bool) (e s : BitVec 64) : BitVec 32 :=
  if e = -1023#64 then assem32 n (-127#32) 0#32
  else
    let te : BitVec 32 := -127#32
    let shift := 29#64 + (-126#64 - e)
    let ts : BitVec 32 := (ushr s shift).setWidth 32
    if needRoundAway 0#64 s shift then
      let ts := ts + 1#32
      if ts &&& shl 1#32 23 ≠ 0#32 then assem32 n (te + 1#32) ts else assem32 n te ts
    else assem32 n te ts

/-- `flt32fromflt64`, util.myr:72-121. -/
def narrow (f : BitVec 64) : BitVec 32 :=
  let p := explode64 f
  let n := p.1
  let e := p.2.1
  let s := p.2.2
  let te : BitVec 32 := e.setWidth 32
  if 128 ≤ e.toInt then
    if e = 1023#64 ∧ s ≠ 0#64 then assem32 n 128#32 1#32 else assem32 n 128#32 0#32
  else if -127 ≤ e.toInt then
    let ts : BitVec 32 := (shr s 29).setWidth 32
    let (te, ts) :=
      if needRoundAway 0#64 s 29#64 then
        let ts := ts + 1#32
        if ts &&& shl 1#32 24 ≠ 0#32 then (te + 1#32, shr ts 1) else (te, ts)
      else (te, ts)
    if -126 ≤ te.toInt then assem32 n te ts else narrowSmall n e s
  else narrowSmall n e s

end Verif.Conv
