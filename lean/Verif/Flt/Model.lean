import Verif.Endian.Model

/-!
# Model of /repo/lib/std/fltbits.myr

A floating point number is its bit pattern: `flt64bits`, `flt64frombits` and their 32 bit
versions (fltbits.myr:18-21) reinterpret memory and are the identity here.  The two copies of
each function differ only in widths; `Fmt` has those.
-/

namespace Verif.Flt
open Verif.Endian (shl cnt)

/-- Widths of a format: all bits, explicit mantissa bits, exponent bits; `Dblbias` and
`Fltbias` (fltbits.myr:23-24) are `2^(e-1) - 1`. -/
structure Fmt where
  w : Nat
  m : Nat
  e : Nat

/-- The constants of `flt64explode`/`flt64assem`: fltbits.myr:23, 30-32, 83-85. -/
def dbl : Fmt := ⟨64, 52, 11⟩

/-- The constants of `flt32explode`/`flt32assem`: fltbits.myr:24, 48-50, 109-111. -/
def flt : Fmt := ⟨32, 23, 8⟩

/-- `Dblbias` and `Fltbias`, fltbits.myr:23-24. -/
def Fmt.bias (f : Fmt) : Nat := 2 ^ (f.e - 1) - 1

/-- `x >> n` of an unsigned value. -/
def shr {w : Nat} (x : BitVec w) (n : Nat) : BitVec w := x >>> cnt w n

/-- `flt64explode`, fltbits.myr:26-42 and `flt32explode`, fltbits.myr:44-60: sign, exponent
(a signed integer of the width) and mantissa. -/
def explode (f : Fmt) (bits : BitVec f.w) : Bool × BitVec f.w × BitVec f.w :=
  let isneg := shr bits (f.w - 1) != 0#f.w
  let uexp := shr bits f.m &&& BitVec.ofNat f.w (2 ^ f.e - 1)
  let mant := bits &&& (shl 1#f.w f.m - 1#f.w)
  let mant := if uexp != 0#f.w then mant ||| shl 1#f.w f.m else mant
  let exp := uexp - BitVec.ofNat f.w f.bias
  (isneg, exp, mant)

/-- The denormal part of `flt64assem`, fltbits.myr:66-79 and `flt32assem`, 92-105: new exponent
and mantissa.  Shift counts are reduced by the machine (see `Endian.cnt`). -/
def denorm (f : Fmt) (exp mant : BitVec f.w) : BitVec f.w × BitVec f.w :=
  let bias := BitVec.ofNat f.w f.bias
  let shift := 1#f.w - bias - exp
  let firstcut := mant &&& shl 1#f.w shift.toNat
  let restcut := mant &&& (shl 1#f.w shift.toNat - 1#f.w)
  let lastkept := mant &&& shl 1#f.w (shift + 1#f.w).toNat
  let roundup := firstcut ≠ 0#f.w ∧ (lastkept ≠ 0#f.w ∨ restcut ≠ 0#f.w)
  let mant := shr mant shift.toNat
  let exp := -bias
  if roundup then
    let mant := mant + 1#f.w
    if mant &&& shl 1#f.w f.m ≠ 0#f.w then (exp + 1#f.w, mant) else (exp, mant)
  else (exp, mant)

/-- `flt64assem`, fltbits.myr:62-86 and `flt32assem`, fltbits.myr:88-113. -/
def assem (f : Fmt) (sign : Bool) (exp mant : BitVec f.w) : BitVec f.w :=
  let bias := BitVec.ofNat f.w f.bias
  let (exp, mant) :=
    if exp.sle (-bias) ∧ mant &&& shl 1#f.w f.m ≠ 0#f.w then denorm f exp mant else (exp, mant)
  let s := BitVec.ofNat f.w sign.toNat
  let e := (exp + bias) &&& BitVec.ofNat f.w (2 ^ f.e - 1)
  let m := mant &&& (shl 1#f.w f.m - 1#f.w)
  shl s (f.w - 1) ||| shl e f.m ||| m

/-- `isnan`, fltbits.myr:115-121, on the pattern of a `flt64` (the conversion from `flt32` is a
machine instruction). -/
def isnan (b : BitVec 64) : Bool :=
  (shr b 52 &&& 0x7ff#64 == 0x7ff#64) && (b &&& ~~~(shl 0xfff#64 52) != 0#64)

/-- `flt64inf`, fltbits.myr:123-125. -/
def flt64inf : BitVec 64 := 0x7ff0000000000000#64

/-- `flt64nan`, fltbits.myr:127-129. -/
def flt64nan : BitVec 64 := 0x7ff8000000000000#64

/-- `flt32inf`, fltbits.myr:131-133. -/
def flt32inf : BitVec 32 := 0x7f800000#32

/-- `flt32nan`, fltbits.myr:135-137. -/
def flt32nan : BitVec 32 := 0x7fc00000#32

end Verif.Flt
