import Verif.Conv.Model
import Verif.Round.Props

/-!
# Model of `fma64`, /repo/lib/math/fma-impl.myr

Numbers are bit patterns, as in `Verif.Flt.Model`.  Exponents and positions of bits, `int64` in the code, are integers here:
they stay below 10000.  The counts of shifts are converted to 64 bits and compared as in the code.  The machine's `x * y + z` is a
parameter.
-/

namespace Verif.Fma

open Verif.Flt (dbl)
open Verif.Round (findFirst1 needRoundAway ushr ushl)
open Verif.Conv (explode64 assem64)

/-- `shl`, util.myr:132-138, with a signed count. -/
def lsh (u : BitVec 64) (s : Int) : BitVec 64 := ushl u (BitVec.ofInt 64 s)

/-- `shr`, util.myr:124-130, with a signed count. -/
def rsh (u : BitVec 64) (s : Int) : BitVec 64 := ushr u (BitVec.ofInt 64 s)

/-- `find_first1_64_hl`, util.myr:152-159, with its only `start`, 105. -/
def findFirst1Hl (h l : BitVec 64) : Int :=
  let a := findFirst1 h 41
  if 0 ≤ a then a + 64 else findFirst1 l 63

/-- The product in two words, fma-impl.myr:176-191. -/
def product (xs ys : BitVec 64) : BitVec 64 × BitVec 64 :=
  let xsh := xs >>> 32
  let ysh := ys >>> 32
  let xsl := xs &&& 0xffffffff#64
  let ysl := ys &&& 0xffffffff#64
  let tl := xsl * ysl
  let tm := xsl * ysh + xsh * ysl
  let th := xsh * ysh
  let pl := tl + (tm <<< 32)
  let ph := th + (tm >>> 32)
  (if pl < tl then ph + 1#64 else ph, pl)

/-- `add_shifted`, fma-impl.myr:360-383. -/
def addShifted (h l a : BitVec 64) (s : Int) : BitVec 64 × BitVec 64 :=
  if 64 ≤ s then (h + lsh a (s - 64), l)
  else if 0 ≤ s then
    let nh := h + rsh a (64 - s)
    let nl := l + lsh a s
    (if nl < l then nh + 1#64 else nh, nl)
  else
    let nl := l + rsh a (-s)
    (if nl < l then h + 1#64 else h, nl)

/-- `sub_shifted`, fma-impl.myr:386-407. -/
def subShifted (h l a : BitVec 64) (s : Int) : BitVec 64 × BitVec 64 :=
  if 64 ≤ s then (h - lsh a (s - 64), l)
  else if 0 ≤ s then
    let nh := h - rsh a (64 - s)
    let sa := lsh a s
    (if l < sa then nh - 1#64 else nh, l - sa)
  else
    let sa := rsh a (-s)
    (if l < sa then h - 1#64 else h, l - sa)

/-- `std.order`, cmp.myr. -/
inductive Order
  | before
  | equal
  | after
  deriving DecidableEq, Repr

/-- The loops of `compare_hl_z`, fma-impl.myr:418-429 and 440-450: an order, or the positions at the end.  The first argument bounds
the number of turns; 65 are enough. -/
def cmpBits : Nat → BitVec 64 → BitVec 64 → Int → Int → Option Order × Int × Int
  | 0, _, _, k, zk => (none, k, zk)
  | n + 1, a, z, k, zk =>
    if 0 ≤ k ∧ 0 ≤ zk then
      let a1 := a &&& lsh 1#64 k ≠ 0#64
      let z1 := z &&& lsh 1#64 zk ≠ 0#64
      if a1 ∧ ¬z1 then (some .before, k, zk)
      else if ¬a1 ∧ z1 then (some .after, k, zk)
      else cmpBits n a z (k - 1) (zk - 1)
    else (none, k, zk)

/-- `compare_hl_z`, fma-impl.myr:409-459. -/
def compareHlZ (h l : BitVec 64) (hlf hll : Int) (z : BitVec 64) (zf zl : Int) : Order :=
  if zf < hlf then .before
  else if hlf < zf then .after
  else
    match cmpBits 65 h z (hlf - hll - 64) (zf - zl) with
    | (some o, _, _) => o
    | (none, hk, zk) =>
      if zk < 0 then
        if h &&& rsh (-1#64) (64 - hk) ≠ 0#64 ∨ l ≠ 0#64 then .before else .equal
      else
        match cmpBits 65 l z 63 zk with
        | (some o, _, _) => o
        | (none, lk, zk) =>
          if zk < 0 ∧ l &&& rsh (-1#64) (64 - lk) ≠ 0#64 then .before
          else if lk < 0 ∧ z &&& rsh (-1#64) (64 - zk) ≠ 0#64 then .after
          else .equal

/-- The sum of a product and a number of one sign, where the number has the higher first bit: fma-impl.myr:241-262. -/
def addBelow (ph pl : BitVec 64) (pe : Int) (zs : BitVec 64) (re : Int) : BitVec 64 × BitVec 64 :=
  if re + 64 ≤ pe then (zs + lsh pl (pe - re - 64), 0#64)
  else if re ≤ pe then (zs + lsh ph (pe - re) + rsh pl (re + 64 - pe), lsh pl (pe - re))
  else if re ≤ pe + 64 then
    let h := zs + rsh ph (re - pe)
    let l1 := lsh ph (pe + 64 - re)
    let l := l1 + rsh pl (re - pe)
    (if l < l1 then h + 1#64 else h, l)
  else if re ≤ pe + 128 then (zs, rsh ph (re - pe - 64))
  else (zs, 0#64)

/-- Infinities, fma-impl.myr:316-320 and 345-349. -/
def infinite (n : Bool) : BitVec 64 := if n then 0xfff0000000000000#64 else 0x7ff0000000000000#64

/-- The assembly of the result, fma-impl.myr:280-354.  Line 342, `res_s >= 1`, is a comparison without effect. -/
def finish (n : Bool) (h l : BitVec 64) (le : Int) : BitVec 64 :=
  let f1 := 64 + findFirst1 h 55
  let f1 := if f1 = 63 then findFirst1 l 63 else f1
  let fe := f1 + le
  if fe ≤ -1023 then
    let s :=
      if le + 128 < 12 - 1022 then rsh h (12 - 1022 - (le + 128)) ||| rsh l (12 - 1022 - (le + 64))
      else if le + 64 < 12 - 1022 then lsh h (-12 + (le + 128) + 1022) ||| rsh l (12 - 1022 - (le + 64))
      else lsh h (-12 + (le + 128) + 1022) ||| lsh l (-12 + (le + 64) + 1022)
    let s := if needRoundAway h l (BitVec.ofInt 64 (f1 + (-1074 - fe))) then s + 1#64 else s
    if n then s ||| 0x8000000000000000#64 else s
  else if 1024 ≤ fe then infinite n
  else
    let s :=
      if 64 ≤ f1 - 52 then
        let s := rsh h (f1 - 64 - 52)
        if needRoundAway h l (BitVec.ofInt 64 (f1 - 52)) then s + 1#64 else s
      else if 0 ≤ f1 - 52 then
        let s := lsh h (64 - (f1 - 52)) ||| rsh l (f1 - 52)
        if needRoundAway h l (BitVec.ofInt 64 (f1 - 52)) then s + 1#64 else s
      else lsh l (52 - f1)
    if s &&& 0x20000000000000#64 ≠ 0#64 then
      if 1024 ≤ fe + 1 then infinite n else assem64 n (BitVec.ofInt 64 (fe + 1)) s
    else assem64 n (BitVec.ofInt 64 fe) s

/-- Whether the machine's product is zero: fma-impl.myr:153. -/
def mulZero (x y : BitVec 64) : Bool :=
  decide (2 * (Verif.Flt.magnitude dbl x.toNat * Verif.Flt.magnitude dbl y.toNat) ≤ 2 ^ 1074)

/-- `fma64`, fma-impl.myr:138-354; `mac` is the machine's `x * y + z`. -/
def fma64 (mac : BitVec 64 → BitVec 64 → BitVec 64 → BitVec 64) (x y z : BitVec 64) : BitVec 64 :=
  let em := 0x7ff0000000000000#64
  if x &&& em = em ∨ y &&& em = em then mac x y z
  else if z = 0#64 ∨ z = 0x8000000000000000#64 ∨ mulZero x y = true then mac x y z
  else if z &&& em = em then z
  else
    let px := explode64 x
    let py := explode64 y
    let pz := explode64 z
    let up (e : Int) : Int := if e = -1023 then -1022 else e
    let xe := up px.2.1.toInt
    let ye := up py.2.1.toInt
    let ze := up pz.2.1.toInt
    let zs := pz.2.2
    let p := product px.2.2 py.2.2
    let pn := px.1 != py.1
    let pl := (xe - 52) + (ye - 52)
    let pf := pl + findFirst1Hl p.1 p.2
    let zl := ze - 52
    let zf := if z &&& em = 0#64 then zl + findFirst1 zs 52 else ze
    if pn = pz.1 then
      if zf ≤ pf then
        let r := addShifted p.1 p.2 zs (zl - pl)
        finish pn r.1 r.2 pl
      else
        let r := addBelow p.1 p.2 pl zs (zl - 64)
        finish pn r.1 r.2 (zl - 64)
    else
      match compareHlZ p.1 p.2 pf pl zs zf zl with
      | .equal => 0#64
      | .before =>
        let r := subShifted p.1 p.2 zs (zl - pl)
        finish pn r.1 r.2 pl
      | .after =>
        let r := subShifted zs 0#64 p.1 (pl + 64 - (zl - 64))
        let r := subShifted r.1 r.2 p.2 (pl - (zl - 64))
        finish pz.1 r.1 r.2 (zl - 64)

end Verif.Fma
