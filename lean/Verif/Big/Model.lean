import Verif.IntFmt.Model
import Verif.Utf.Model

/-!
# Big integers

Models `lib/std/bigint.myr`. Digits are natural numbers below `Base`; `uint64` and `uint32` arithmetic wraps explicitly. Loops
which walk over the digits from one end to the other are recursive functions over the list of digits; the indices they use are
those of the list. Allocation never fails and slices are values: nothing is said about memory. `size` does not overflow.
-/

namespace Verif.Bigint

open Verif

/-- `bigint.myr:95`. -/
scoped notation "Base" => (4294967296 : Nat)
/-- `bigint.myr:96`. -/
abbrev Kmin : Nat := 64
/-- The number of `uint64` values. -/
scoped notation "W64" => (18446744073709551616 : Nat)

/-- `bigint.myr:19-22`. -/
structure Big where
  dig : List Nat
  sign : Int
  deriving DecidableEq, Repr

/-- A value as `uint64`. -/
def w64 (x : Int) : Nat := (x % (W64 : Int)).toNat
/-- A `uint64` as `int64`. -/
def s64 (n : Nat) : Int := if n < 9223372036854775808 then n else (n : Int) - (W64 : Int)

/-- `bigint.myr:1015-1020`: the digits without leading zeros. -/
def trimdig (l : List Nat) : List Nat := (l.reverse.dropWhile fun d => d == 0).reverse

/-- `bigint.myr:1012-1025` trim. -/
def trim (a : Big) : Big := ⟨trimdig a.dig, if (trimdig a.dig).isEmpty then 0 else a.sign⟩

/-- `bigint.myr:98-116` mkbigint at a signed or unsigned type of `w` bits. -/
def mkbigint (signed : Bool) {w : Nat} (v : BitVec w) : Big :=
  let neg := signed && v.msb
  let sign : Int := if neg then -1 else if v = 0#w then 0 else 1
  let v := if neg then -v else v
  let val := (if signed then v.signExtend 64 else v.setWidth 64).toNat
  trim ⟨(val % Base) :: if Base ≤ val then [val / Base % Base] else [], sign⟩

/-- `bigint.myr:128-134`: whole digits. The shifts are done at type `byte`. -/
def fromwords : List Byte → List Nat
  | a :: b :: c :: d :: v => (a <<< 0 ||| b <<< 8 ||| c <<< 16 ||| d <<< 24).toNat :: fromwords v
  | _ => []

/-- `bigint.myr:135-139`: the last digit; `i` counts from `4 * (v.len / 4)` up to `v.len`. -/
def fromlast (v : List Byte) : Nat → Nat → Nat → Res Nat
  | 0, _, last => .ok last
  | n + 1, i, last => do
    let off := i % 4
    let b ← rdChk v off
    fromlast v n (i + 1) (last ||| (b.toNat * 2 ^ (8 * off)) % Base)

/-- `bigint.myr:118-142` bigfrombytes. -/
def bigfrombytes (isneg : Bool) (v : List Byte) : Res Big := do
  let last ← fromlast v (v.length % 4) (4 * (v.length / 4)) 0
  .ok (trim ⟨fromwords v ++ [last], if isneg then -1 else 1⟩)

/-! ## Comparison -/

/-- `bigint.myr:435-443`. -/
def signedorder (s : Int) : Ordering := if s < 0 then .lt else if s = 0 then .eq else .gt

/-- `bigint.myr:407-413`, 424-430: the first difference, from the top; the lists are reversed. -/
def cmptop : List Nat → List Nat → Int
  | x :: xs, y :: ys => if x = y then cmptop xs ys else (x : Int) - y
  | _, _ => 0

/-- `bigint.myr:392-416` bigcmp. -/
def bigcmp (a b : Big) : Ordering :=
  if a.sign < b.sign then .lt
  else if b.sign < a.sign then .gt
  else if a.dig.length < b.dig.length then signedorder (-a.sign)
  else if b.dig.length < a.dig.length then signedorder a.sign
  else signedorder (a.sign * cmptop a.dig.reverse b.dig.reverse)

/-- `bigint.myr:418-433` bigcmpabs. -/
def bigcmpabs (a b : Big) : Ordering :=
  if a.dig.length < b.dig.length then .lt
  else if b.dig.length < a.dig.length then .gt
  else signedorder (cmptop a.dig.reverse b.dig.reverse)

/-- `bigint.myr:300-310` bigeq. -/
def bigeq (a b : Big) : Bool := a.sign == b.sign && a.dig == b.dig

/-! ## Addition -/

/-- `bigint.myr:477-489`: `a` grown to the common length. -/
def addloop : List Nat → List Nat → Nat → List Nat × Nat
  | [], _, c => ([], c)
  | x :: xs, ys, c =>
    let v := (x + c + ys.headD 0) % W64
    let r := addloop xs ys.tail (if Base ≤ v then 1 else 0)
    (v % Base :: r.1, r.2)

/-- `lib/std/alloc.myr:168-179` slzgrow, to a length not less. -/
def zgrow (l : List Nat) (n : Nat) : List Nat := l ++ List.replicate (n - l.length) 0

/-- `bigint.myr:468-492` uadd. -/
def uadd (a b : Big) : Big :=
  let r := addloop (zgrow a.dig (max a.dig.length b.dig.length)) b.dig 0
  trim ⟨r.1 ++ [r.2], a.sign⟩

/-- `bigint.myr:528-539`. -/
def subloop : List Nat → List Nat → Nat → List Nat
  | [], _, _ => []
  | x :: xs, ys, c =>
    let v : Int := (x : Int) - c - (ys.headD 0 : Nat)
    (v % (Base : Int)).toNat :: subloop xs ys.tail (if v < 0 then 1 else 0)

/-- `bigint.myr:523-541` usub. -/
def usub (a b : Big) : Big := trim ⟨subloop a.dig b.dig 0, a.sign⟩

/-- `bigint.myr:446-465` bigadd. -/
def bigadd (a b : Big) : Big :=
  if a.sign = b.sign ∨ a.sign = 0 then uadd { a with sign := b.sign } b
  else if b.sign = 0 then a
  else match bigcmpabs a b with
    | .lt => usub b a
    | .gt => usub a b
    | .eq => ⟨[], 0⟩

/-- `bigint.myr:495-520` bigsub. -/
def bigsub (a b : Big) : Big :=
  if a.sign = 0 then ⟨b.dig, -b.sign⟩
  else if b.sign = 0 then a
  else if a.sign ≠ b.sign then uadd a b
  else match bigcmpabs a b with
    | .lt => { usub b a with sign := -1 * b.sign }
    | .gt => usub a b
    | .eq => ⟨[], 0⟩

/-! ## Shifts -/

/-- `bigint.myr:939-944`. -/
def shlloop (shift : Nat) : List Nat → Nat → List Nat
  | [], _ => []
  | d :: ds, carry =>
    let t := (d <<< shift) % W64
    (t ||| carry) % Base :: shlloop shift ds (t >>> 32)

/-- `bigint.myr:918-946` bigshli, for amounts which are not negative (922 asserts that). -/
def bigshli (a : Big) (s : Nat) : Big :=
  if a.sign = 0 then a
  else trim ⟨shlloop (s % 32) (List.replicate (s / 32) 0 ++ a.dig ++ [0]) 0, a.sign⟩

/-- `bigint.myr:967-972`, from the top digit down: the digits, and the carry into the next lower digit. -/
def shrloop (shift : Nat) : List Nat → List Nat × Nat
  | [] => ([], 0)
  | d :: ds =>
    let r := shrloop shift ds
    ((r.2 ||| (d >>> shift)) % Base :: r.1, (d <<< (32 - shift)) % W64)

/-- `bigint.myr:949-975` bigshri, for amounts which are not negative (953 asserts that). -/
def bigshri (a : Big) (s : Nat) : Big :=
  if a.dig.length < s / 32 then trim ⟨[], a.sign⟩
  else trim ⟨(shrloop (s % 32) (a.dig.drop (s / 32))).1, a.sign⟩

/-! ## Multiplication -/

/-- `bigint.myr:635-644`: one row; `w` starts at `w[j]`. `abort`: index out of range. -/
def mulrow (bj : Nat) : List Nat → Nat → List Nat → Res (List Nat)
  | [], carry, _ :: ws => .ok (carry % Base :: ws)
  | ai :: as, carry, w :: ws => do
    let t := (ai * bj + w + carry) % W64
    let r ← mulrow bj as (t >>> 32) ws
    .ok (t % Base :: r)
  | _, _, [] => .abort

/-- `bigint.myr:634-645`; `w` starts at `w[j]`. -/
def mulrows (a : List Nat) : List Nat → List Nat → Res (List Nat)
  | [], w => .ok w
  | b :: bs, w => do
    let w ← mulrow b a 0 w
    match w with
    | [] => .abort
    | d :: ds => do
      let r ← mulrows a bs ds
      .ok (d :: r)

/-- `bigint.myr:627-649` smallmul. -/
def smallmul (a b : Big) : Res Big := do
  let w ← mulrows a.dig b.dig (List.replicate (a.dig.length + b.dig.length) 0)
  .ok (trim ⟨w, a.sign⟩)

/-- `bigint.myr:576-625` kmul, given `umul`. `r` is cleared first. -/
def kmul (umul : Big → Big → Res Big) (a b : Big) : Res Big := do
  let p := if a.dig.length < b.dig.length then (b, a) else (a, b)
  let a := p.1
  let b := p.2
  let n := min (a.dig.length / 2) (b.dig.length - 1)
  let x0 : Big := ⟨a.dig.take n, 1⟩
  let x1 : Big := ⟨a.dig.drop n, 1⟩
  let y0 : Big := ⟨b.dig.take n, 1⟩
  let y1 : Big := ⟨b.dig.drop n, 1⟩
  let z0 ← umul (trim x0) y0
  let z2 ← umul (trim x1) y1
  let z1 := bigsub (trim x0) x1
  let t0 := bigsub y1 y0
  let z ← umul z1 t0
  let z : Big := { z with sign := z1.sign * t0.sign }
  let z := bigadd (bigadd z z0) z2
  let z := bigshli z (32 * n)
  let z2 := bigshli z2 (32 * 2 * n)
  .ok (bigadd (bigadd (bigadd ⟨[], 0⟩ z0) z) z2)

/-- `bigint.myr:564-574` umul. -/
def umul : Nat → Big → Big → Res Big
  | 0, _, _ => .spin
  | f + 1, a, b =>
    if a.dig.length < Kmin ∨ b.dig.length < Kmin then smallmul a b
    else kmul (umul f) a b

/-- `bigint.myr:544-562` bigmul. -/
def bigmul (fuel : Nat) (a b : Big) : Res Big :=
  if a.sign = 0 ∨ b.sign = 0 then .ok ⟨[], 0⟩
  else do
    let r ← umul fuel a b
    .ok (trim { r with sign := if a.sign ≠ b.sign then -1 else 1 })

/-! ## Division -/

/-- `bigint.myr:700-706`, from the top digit down: quotient digits and remainder so far. -/
def div1 (b0 : Nat) : List Nat → List Nat × Nat
  | [] => ([], 0)
  | aj :: as =>
    let r := div1 b0 as
    let x := ((r.2 <<< 32) % W64 + aj) % W64
    let q := (x / b0) % Base
    (q :: r.1, w64 ((x : Int) - ((q * b0) % W64 : Nat)))

/-- `bigint.myr:817-845` nlz. -/
def nlz (a : Nat) : Nat :=
  if a = 0 then 32
  else
    let s := (0, a)
    let s := if s.2 ≤ 0x0000ffff then (s.1 + 16, (s.2 <<< 16) % Base) else s
    let s := if s.2 ≤ 0x00ffffff then (s.1 + 8, (s.2 <<< 8) % Base) else s
    let s := if s.2 ≤ 0x0fffffff then (s.1 + 4, (s.2 <<< 4) % Base) else s
    let s := if s.2 ≤ 0x3fffffff then (s.1 + 2, (s.2 <<< 2) % Base) else s
    if s.2 ≤ 0x7fffffff then s.1 + 1 else s.1

/-- `bigint.myr:734-741`: correct the quotient digit. -/
def fixq (z w t : Nat) : Nat → Nat → Nat → Res Nat
  | 0, _, _ => .spin
  | f + 1, qhat, rhat =>
    if Base ≤ qhat ∨ (rhat * Base + t) % W64 < (qhat * w) % W64 then
      if (rhat + z) % W64 < Base then fixq z w t f (w64 ((qhat : Int) - 1)) ((rhat + z) % W64)
      else .ok (w64 ((qhat : Int) - 1))
    else .ok qhat

/-- `bigint.myr:744-753`: multiply and subtract; the digits of `u` from `u[j]`, those of `v`. -/
def mulsub (qhat : Nat) : List Nat → List Nat → Nat → List Nat × Nat
  | u :: us, v :: vs, carry =>
    let p := (qhat * v) % W64
    let t := w64 ((u : Int) - carry - (p % Base : Nat))
    let tt := s64 t / (Base : Int)
    let pt := p >>> 32
    let r := mulsub qhat us vs (w64 ((pt : Int) - tt))
    (t % Base :: r.1, r.2)
  | us, _, carry => (us, carry)

/-- `bigint.myr:761-766`: add back. -/
def addback : List Nat → List Nat → Nat → List Nat × Nat
  | u :: us, v :: vs, carry =>
    let t := (u + v + carry) % W64
    let r := addback us vs (t >>> 32)
    (t % Base :: r.1, r.2)
  | us, _, carry => (us, carry)

/-- `bigint.myr:723-768`: one digit of the quotient, and what becomes of `u`. `n` is the number of digits of `v`. -/
def divstep (fuel : Nat) (v : List Nat) (n j : Nat) (u : List Nat) : Res (Nat × List Nat) := do
  let x ← rdChk u (j + n)
  let y ← rdChk u (j + n - 1)
  let z ← rdChk v (n - 1)
  let w ← rdChk v (n - 2)
  let t ← rdChk u (j + n - 2)
  let xy := (x * Base + y) % W64
  if z = 0 then .abort
  else do
    let qhat ← fixq z w t fuel (xy / z) (w64 ((xy : Int) - ((xy / z * z) % W64 : Nat)))
    let r := mulsub qhat ((u.drop j).take n) v 0
    let t := w64 ((x : Int) - r.2)
    if s64 t < 0 then
      let r' := addback r.1 v 0
      .ok ((w64 (((qhat % Base : Nat) : Int) - 1)) % Base, u.take j ++ r'.1 ++ (t % Base + r'.2 % Base) % Base :: u.drop (j + n + 1))
    else .ok (qhat % Base, u.take j ++ r.1 ++ t % Base :: u.drop (j + n + 1))

/-- `bigint.myr:723-770`, for `j = k - 1` down to 0: the digits of the quotient below `k`, and `u`. -/
def divloop (fuel : Nat) (v : List Nat) (n : Nat) : Nat → List Nat → Res (List Nat × List Nat)
  | 0, u => .ok ([], u)
  | k + 1, u => do
    let p ← divstep fuel v n k u
    let r ← divloop fuel v n k p.2
    .ok (r.1 ++ [p.1], r.2)

/-- `bigint.myr:668-775` bigdivmod. The digits of `q` which are not assigned are zero and go away in `trim`. -/
def bigdivmod (fuel : Nat) (a b : Big) : Res (Big × Big) :=
  match b.dig with
  | [] => .abort
  | [b0] =>
    if a.dig.length < 1 then .ok (mkbigint true 0#32, a)
    else if b0 = 0 then .abort
    else
      let r := div1 b0 a.dig
      .ok (trim ⟨r.1, if a.sign ≠ b.sign then -1 else 1⟩, trim (mkbigint false (BitVec.ofNat 64 r.2)))
  | _ =>
    if a.dig.length < b.dig.length then .ok (mkbigint true 0#32, a)
    else do
      let m := a.dig.length
      let n := b.dig.length
      let top ← rdChk b.dig (n - 1)
      let shift := nlz top
      let u := (bigshli a shift).dig ++ [0]
      let v := (bigshli b shift).dig
      let r ← divloop fuel v n (m - n + 1) u
      .ok (trim ⟨r.1, if a.sign ≠ b.sign then -1 else 1⟩, trim (bigshri ⟨r.2, a.sign⟩ shift))

/-- `bigint.myr:651-657` bigdiv. -/
def bigdiv (fuel : Nat) (a b : Big) : Res Big := do
  let p ← bigdivmod fuel a b
  .ok p.1

/-- `bigint.myr:659-665` bigmod. -/
def bigmod (fuel : Nat) (a b : Big) : Res Big := do
  let p ← bigdivmod fuel a b
  .ok p.2

/-! ## Integers as operands -/

/-- `bigint.myr:992-1009` bigdigit, with the conversion to `uint64` of its callers. -/
def bigdigit (signed : Bool) {w : Nat} (b : BitVec w) : Big :=
  let neg := signed && b.msb
  let val := if signed then b.signExtend 64 else b.setWidth 64
  let val := (if neg then -val else val).toNat
  if val = 0 then ⟨[], 0⟩
  else ⟨if val < Base then [val] else [val % Base, (val >>> 32) % Base], if neg then -1 else 1⟩

/-- `bigint.myr:869-876` bigaddi. -/
def bigaddi (signed : Bool) {w : Nat} (a : Big) (b : BitVec w) : Big := bigadd a (bigdigit signed b)
/-- `bigint.myr:878-885` bigsubi. -/
def bigsubi (signed : Bool) {w : Nat} (a : Big) (b : BitVec w) : Big := bigsub a (bigdigit signed b)
/-- `bigint.myr:887-894` bigmuli. -/
def bigmuli (fuel : Nat) (signed : Bool) {w : Nat} (a : Big) (b : BitVec w) : Res Big := bigmul fuel a (bigdigit signed b)
/-- `bigint.myr:896-903` bigdivi. -/
def bigdivi (fuel : Nat) (signed : Bool) {w : Nat} (a : Big) (b : BitVec w) : Res Big := bigdiv fuel a (bigdigit signed b)
/-- `bigint.myr:905-912` bigmodi. -/
def bigmodi (fuel : Nat) (signed : Bool) {w : Nat} (a : Big) (b : BitVec w) : Res Big := bigmod fuel a (bigdigit signed b)

/-- `bigint.myr:849-855` bigshl. -/
def bigshl (a b : Big) : Res Big :=
  match b.dig with
  | [] => .ok a
  | [d] => .ok (bigshli a d)
  | _ => .abort
/-- `bigint.myr:858-864` bigshr. -/
def bigshr (a b : Big) : Res Big :=
  match b.dig with
  | [] => .ok a
  | [d] => .ok (bigshri a d)
  | _ => .abort

/-! ## Bits -/

/-- `bigint.myr:777-788` bigand: `a` and `b` afterwards. -/
def bigand (a b : Big) : Big × Big :=
  let b : Big := { b with dig := zgrow b.dig a.dig.length }
  (trim { a with dig := List.zipWith (· &&& ·) (zgrow a.dig b.dig.length) b.dig }, b)

/-- `bigint.myr:977-982` bigandi. `ub`: `slzgrow` on digits which live on the stack (779, alloc.myr:143). -/
def bigandi (signed : Bool) {w : Nat} (a : Big) (b : BitVec w) : Res Big :=
  let v := bigdigit signed b
  if v.dig ≠ [] ∧ v.dig.length < a.dig.length then .ub
  else .ok (bigand a v).1

/-- `bigint.myr:790-796` bigor: the digits of `a` above those of `b` stay. -/
def bigor (a b : Big) : Big :=
  let x := zgrow a.dig (max a.dig.length b.dig.length)
  trim { a with dig := List.zipWith (· ||| ·) x b.dig ++ x.drop b.dig.length }

/-- `bigint.myr:1035-1038`: the loop, `n` the bits of `mask` at and below the one set. -/
def bitloop (top : Nat) : Nat → Nat → Res Nat
  | 0, _ => .spin
  | n + 1, len => if top &&& 2 ^ n = 0 then bitloop top n (len - 1) else .ok len

/-- `bigint.myr:1028-1041` bigbitcount. When the mask is zero the loop does not end. -/
def bigbitcount (a : Big) : Res Nat :=
  match a.dig.getLast? with
  | none => .ok 0
  | some top => bitloop top 32 (32 * a.dig.length)

/-- `bigint.myr:804-812`: the loop of bigmodpow: the result and `exp` afterwards. `bigmul` with both operands the same reads them before it writes. -/
def powloop (fuel : Nat) (mod : Big) : Nat → Big → Big → Big → Res (Big × Big)
  | 0, _, _, _ => .spin
  | f + 1, r, base, exp =>
    match exp.dig with
    | [] => .ok (r, exp)
    | e :: _ => do
      let r ← if e % 2 ≠ 0 then (do
          let x ← bigmul fuel r base
          let y ← bigdivmod fuel x mod
          .ok y.2) else .ok r
      let x ← bigmul fuel base base
      let y ← bigdivmod fuel x mod
      powloop fuel mod f r y.2 (bigshri exp 1)

/-- `bigint.myr:799-814` bigmodpow: the result and `exp` afterwards. -/
def bigmodpow (fuel : Nat) (base exp mod : Big) : Res (Big × Big) := powloop fuel mod fuel (mkbigint true 1#32) base exp

/-! ## Text -/

/-- `bigint.myr:266-286`: the loop of bigparse, over the characters. -/
def parseloop (fuel : Nat) (s : Int) (base : Nat) : List Utf.Char32 → Big → Res (Option Big)
  | [], a => .ok (some a)
  | c :: cs, a =>
    if c = 95#32 then parseloop fuel s base cs a
    else
      let val := IntFmt.charval c base
      if val < 0 ∨ (base : Int) < val then .ok none
      else do
        let v : Big := ⟨[val.toNat], if val = 0 then 0 else s⟩
        let x ← bigmul fuel a (mkbigint true (BitVec.ofNat 32 base))
        parseloop fuel s base cs (bigadd x v)

/-- `bigint.myr:245-253`: the base. -/
def parsebase (str : List Byte) : Res Nat := do
  let x ← IntFmt.hasprefix str [48#8, 120#8]
  let x' ← IntFmt.hasprefix str [48#8, 88#8]
  let o ← IntFmt.hasprefix str [48#8, 111#8]
  let o' ← IntFmt.hasprefix str [48#8, 79#8]
  let b ← IntFmt.hasprefix str [48#8, 98#8]
  let b' ← IntFmt.hasprefix str [48#8, 66#8]
  .ok (if x || x' then 16 else if o || o' then 8 else if b || b' then 2 else 10)

/-- `bigint.myr:243-290`: after the sign. -/
def parseabs (fuel : Nat) (s : Int) (str : List Byte) : Res (Option Big) := do
  let base ← parsebase str
  let str ← if base ≠ 10 then slice str 2 str.length else .ok str
  let cs ← Utf.bychar (str.length + 1) str
  parseloop fuel s base cs (mkbigint true 0#32)

/-- `bigint.myr:234-290` bigparse. -/
def bigparse (fuel : Nat) (str : List Byte) : Res (Option Big) := do
  let neg ← IntFmt.hasprefix str [45#8]
  if neg then do
    let str ← slice str 1 str.length
    parseabs fuel (-1) str
  else parseabs fuel 1 str

/-- `bigint.myr:183-187`. -/
def digitchars : List Utf.Char32 := (List.range 10).map (fun i => BitVec.ofNat 32 (48 + i)) ++ (List.range 26).map fun i => BitVec.ofNat 32 (97 + i)

/-- `encode(buf[n:], c)` and `n += …`. -/
def putch (buf : List Byte) (n : Nat) (c : Utf.Char32) : Res (List Byte × Nat) := do
  let rest ← slice buf n buf.length
  let e ← Utf.encode rest c
  if e.1 < 0 then .ub else .ok (buf.take n ++ e.2, n + e.1.toNat)

/-- `bigint.myr:204-214`: the digits, lowest first. A buffer which is too short makes `encode` return -1, and the digits before
are overwritten: this is `ub` here (see `putch`). -/
def fmtloop (fuel : Nat) (b : Big) : Nat → Big → List Byte → Nat → Res (List Byte × Nat)
  | 0, _, _, _ => .spin
  | f + 1, val, buf, n =>
    match val.dig with
    | [] => .ok (buf, n)
    | _ => do
      let p ← bigdivmod fuel val b
      let c ← rdChk digitchars (p.2.dig.headD 0)
      let e ← putch buf n c
      fmtloop fuel b f p.1 e.1 e.2

/-- `bigint.myr:182-232` bigbfmt, with `base` an `int` of 32 bits: the buffer and the length of the text. -/
def bigbfmt (fuel : Nat) (buf : List Byte) (x : Big) (base : Int) : Res (List Byte × Nat) := do
  if base < 0 ∨ 36 < base then .abort
  else do
    let b := mkbigint true (BitVec.ofInt 32 (if base = 0 then 10 else base))
    let e ← fmtloop fuel b fuel x buf 0
    let e ← if x.sign = 0 then putch e.1 e.2 48#32 else if x.sign = -1 then putch e.1 e.2 45#32 else .ok e
    .ok ((e.1.take e.2).reverse ++ e.1.drop e.2, e.2)

end Verif.Bigint
