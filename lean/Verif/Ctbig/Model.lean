import Verif.Ct.Model
import Verif.Endian.Model

/-!
# Fixed-size numbers for cryptography

Model of `lib/crypto/ctbig.myr` and of the encryption of `lib/crypto/rsa.myr`.
A number is its size in bits and its digits, lowest first. Loops that walk several
numbers of the same size in step are recursions on the digit lists; every caller
has compared the sizes before (`checksz`), and digits are read before the digit at
the same place is written, so that the results may share storage with the
arguments. Sizes are natural numbers: negative ones are not modelled.
-/

namespace Verif.Ctbig

/-- A digit. -/
abbrev W := BitVec 32

/-- `ctbig` (lib/crypto/ctbig.myr:7-10). -/
structure Big where
  nbit : Nat
  dig : List W
  deriving DecidableEq, Repr

/-- `ndig` (lib/crypto/ctbig.myr:545-547). -/
def ndig (nbit : Nat) : Nat := (nbit + 32 - 1) / 32

/-- `checksz` (lib/crypto/ctbig.myr:549-552). -/
def checksz (a b : Big) : Res Unit :=
  if a.nbit = b.nbit ∧ a.dig.length = b.dig.length then .ok () else .abort

/-- The mask of `clip` (lib/crypto/ctbig.myr:557-559). -/
def mask (nbit : Nat) : W :=
  let edge : BitVec 64 := BitVec.ofNat 64 nbit &&& 31
  (Ct.mux edge (((1 : BitVec 64) <<< edge.toNat) - 1) (~~~ 0)).setWidth 32

/-- `clip` (lib/crypto/ctbig.myr:554-561). -/
def clip (v : Big) : Res Big :=
  if v.dig.length = 0 then .abort
  else do
    let d ← rdChk v.dig (v.dig.length - 1)
    let ds ← wrChk v.dig (v.dig.length - 1) (d &&& mask v.nbit)
    .ok { v with dig := ds }

/-- `mkctbign` (lib/crypto/ctbig.myr:71-87). `g`: what the new digits happen to hold,
`slalloc` does not clear them. -/
def mkctbign (g : List W) (v : BitVec 64) (nbit : Nat) : Res Big := do
  let d ← if nbit > 0 then wrChk g 0 (v.setWidth 32) else .ok g
  let d ← if nbit > 32 then wrChk d 1 ((v >>> 32).setWidth 32) else .ok d
  clip ⟨nbit, d⟩

/-- `ctzero` (lib/crypto/ctbig.myr:89-94). -/
def ctzero (nbit : Nat) : Big := ⟨nbit, List.replicate (ndig nbit) 0⟩

/-- The loop of `mkctbigle` (lib/crypto/ctbig.myr:132-147) over the bytes still to
come, the digit `o` being next; a tail of one to three bytes is one digit. -/
def leLoop (a : List W) (o : Nat) : List Byte → Res (List W)
  | b0 :: b1 :: b2 :: b3 :: t => do
    let a ← wrChk a o (b0.setWidth 32 <<< 0 ||| b1.setWidth 32 <<< 8 ||| b2.setWidth 32 <<< 16 ||| b3.setWidth 32 <<< 24)
    leLoop a (o + 1) t
  | [] => .ok a
  | [b0] => wrChk a o ((0 : W) ||| b0.setWidth 32 <<< 0)
  | [b0, b1] => wrChk a o ((0 : W) ||| b0.setWidth 32 <<< 0 ||| b1.setWidth 32 <<< 8)
  | [b0, b1, b2] => wrChk a o ((0 : W) ||| b0.setWidth 32 <<< 0 ||| b1.setWidth 32 <<< 8 ||| b2.setWidth 32 <<< 16)

/-- `mkctbigle` (lib/crypto/ctbig.myr:123-149). -/
def mkctbigle (v : List Byte) (nbit : Nat) : Res Big := do
  let a ← leLoop (List.replicate (ndig nbit) 0) 0 v
  clip ⟨nbit, a⟩

/-- The loop of `mkctbigbe` (lib/crypto/ctbig.myr:160-168), `i` bytes to go. -/
def beLoop (v : List Byte) (a : List W) (o i : Nat) : Res (List W) :=
  if 4 ≤ i then do
    let s ← slice v (i - 4) i
    let d ← Endian.getbe32 32 s
    let a ← wrChk a o d
    beLoop v a (o + 1) (i - 4)
  else if i ≠ 0 then do
    let s ← slice v 0 i
    let d ← Endian.getbe32 32 (List.replicate (4 - i) 0 ++ s)
    wrChk a o d
  else .ok a
termination_by i

/-- `mkctbigbe` (lib/crypto/ctbig.myr:151-170). -/
def mkctbigbe (v : List Byte) (nbit : Nat) : Res Big := do
  let a ← beLoop v (List.replicate (ndig nbit) 0) 0 v.length
  clip ⟨nbit, a⟩

/-- Stores into the result one after the other: `ret[o++] = …`
(lib/crypto/ctbig.myr:180-183 and the like). -/
def puts (ret : List Byte) (o : Nat) : List Byte → Res (List Byte × Nat)
  | [] => .ok (ret, o)
  | b :: bs => do
    let ret ← wrChk ret o b
    puts ret (o + 1) bs

/-- The bytes of a digit, lowest first (lib/crypto/ctbig.myr:180-183). -/
def digLe (d : W) : List Byte :=
  [(d >>> 0).setWidth 8, (d >>> 8).setWidth 8, (d >>> 16).setWidth 8, (d >>> 24).setWidth 8]

/-- The bytes of a digit, highest first (lib/crypto/ctbig.myr:211-214). -/
def digBe (d : W) : List Byte :=
  [(d >>> 24).setWidth 8, (d >>> 16).setWidth 8, (d >>> 8).setWidth 8, (d >>> 0).setWidth 8]

/-- The loop of `ctbytesle` (lib/crypto/ctbig.myr:178-184), from digit `i`. The block
after it (186-192) is not modelled: the loop ends with `i * 4 ≥ n`, and has stopped
the program at the end of `ret` unless `i * 4 = n`. -/
def bytesleLoop (v : Big) (n : Nat) (ret : List Byte) (o i : Nat) : Res (List Byte) :=
  if i * 4 < n then do
    let d ← rdChk v.dig i
    let (ret, o) ← puts ret o (digLe d)
    bytesleLoop v n ret o (i + 1)
  else .ok ret
termination_by n - i * 4

/-- `ctbytesle` (lib/crypto/ctbig.myr:172-194). `g`: what the new bytes hold. -/
def ctbytesle (g : List Byte) (v : Big) : Res (List Byte) :=
  let n := (v.nbit + 7) / 8
  bytesleLoop v n g 0 0

/-- The second loop of `ctbytesbe` (lib/crypto/ctbig.myr:209-215) over the digits
below `i`. -/
def bytesbeLoop (v : Big) (ret : List Byte) (o : Nat) : Nat → Res (List Byte)
  | 0 => .ok ret
  | i + 1 => do
    let d ← rdChk v.dig i
    let (ret, o) ← puts ret o (digBe d)
    bytesbeLoop v ret o i

/-- `ctbytesbe` (lib/crypto/ctbig.myr:196-217). `n & 0x3 + 1` is `n & 4`: the sum binds
tighter. -/
def ctbytesbe (g : List Byte) (v : Big) : Res (List Byte) :=
  let n := (v.nbit + 7) / 8
  if n % 4 ≠ 0 then
    if v.dig.length = 0 then .abort
    else do
      let d ← rdChk v.dig (v.dig.length - 1)
      let j := n &&& (3 + 1)
      let (ret, o) ← puts g 0 (((List.range j).reverse).map fun k => (d >>> (8 * k)).setWidth 8)
      bytesbeLoop v ret o (v.dig.length - 1)
  else bytesbeLoop v g 0 v.dig.length

/-- The loop of `ctaddcc` (lib/crypto/ctbig.myr:242-246) over the digits of `r`, `a`
and `b`. -/
def addLoop (ctl : W) : List W → List W → List W → BitVec 64 → List W
  | r :: rs, a :: as, b :: bs, carry =>
    let v : BitVec 64 := a.setWidth 64 + b.setWidth 64 + carry
    Ct.mux ctl (v.setWidth 32) r :: addLoop ctl rs as bs (v >>> 32)
  | _, _, _, _ => []

/-- `ctaddcc` (lib/crypto/ctbig.myr:235-248). -/
def ctaddcc (r a b : Big) (ctl : W) : Res Big := do
  checksz a b
  checksz a r
  clip { r with dig := addLoop ctl r.dig a.dig b.dig 0 }

/-- `ctadd` (lib/crypto/ctbig.myr:231-233). -/
def ctadd (r a b : Big) : Res Big := ctaddcc r a b 1

/-- The loop of `ctsubcc` (lib/crypto/ctbig.myr:261-265). -/
def subLoop (ctl : W) : List W → List W → List W → BitVec 64 → List W × BitVec 64
  | r :: rs, a :: as, b :: bs, borrow =>
    let v : BitVec 64 := a.setWidth 64 - b.setWidth 64 - borrow
    let borrow := (v &&& ((1 : BitVec 64) <<< 63)) >>> 63
    let (ds, bo) := subLoop ctl rs as bs borrow
    (Ct.mux ctl (v.setWidth 32) r :: ds, bo)
  | _, _, _, borrow => ([], borrow)

/-- `ctsubcc` (lib/crypto/ctbig.myr:254-268). -/
def ctsubcc (r a b : Big) (ctl : W) : Res (Big × BitVec 64) := do
  checksz a b
  checksz a r
  let (ds, bo) := subLoop ctl r.dig a.dig b.dig 0
  let r ← clip { r with dig := ds }
  .ok (r, bo)

/-- `ctsub` (lib/crypto/ctbig.myr:250-252). -/
def ctsub (r a b : Big) : Res Big := do
  let (r, _) ← ctsubcc r a b 1
  .ok r

/-- The inner loop of `ctmul` (lib/crypto/ctbig.myr:281-290): `a · bj` is added to the
digits of `w`, and the carry stored in the digit after. -/
def mulRow (bj : W) : List W → List W → BitVec 64 → List W
  | a :: as, w :: ws, carry =>
    let t : BitVec 64 := a.setWidth 64 * bj.setWidth 64 + w.setWidth 64 + carry
    t.setWidth 32 :: mulRow bj as ws (t >>> 32)
  | [], _ :: ws, carry => carry.setWidth 32 :: ws
  | _, [], _ => []

/-- The outer loop of `ctmul` (lib/crypto/ctbig.myr:280-291): the digits of `w` below
`j` are not touched any more. -/
def mulLoop (as : List W) : List W → List W → List W
  | b :: bs, ws =>
    match mulRow b as ws 0 with
    | x :: xs => x :: mulLoop as bs xs
    | [] => []
  | [], ws => ws

/-- `ctmul` (lib/crypto/ctbig.myr:270-299). -/
def ctmul (r a b : Big) : Res Big := do
  checksz a b
  checksz a r
  let w := mulLoop a.dig b.dig (List.replicate (a.dig.length + b.dig.length) 0)
  clip { r with dig := w.take a.dig.length }

/-- `ctiszero` (lib/crypto/ctbig.myr:494-503). -/
def ctiszero (a : Big) : Bool :=
  a.dig.foldl (fun (z : W) d => let zz := Ct.mux d 0 1; Ct.mux zz z 0) 1 != 0

/-- `cteq` (lib/crypto/ctbig.myr:505-514). -/
def cteq (a b : Big) : Res Bool := do
  checksz a b
  let nz := (a.dig.zip b.dig).foldl (fun (nz : W) p => nz ||| (p.1 - p.2)) 0
  .ok (Ct.eq false nz 0 != 0)

/-- A truth value as a byte (modelling device). -/
def b2b (p : Bool) : Byte := if p then 1 else 0

/-- `ctne` (lib/crypto/ctbig.myr:516-521). -/
def ctne (a b : Big) : Res Bool := do
  let v ← cteq a b
  .ok (Ct.not (b2b v) != 0)

/-- `ctgt` (lib/crypto/ctbig.myr:523-525). Comparisons also give the number that was
written to: `b`, here and in `ctle`, `a` in the others. -/
def ctgt (a b : Big) : Res (Big × Bool) := do
  let (b, bo) ← ctsubcc b b a 0
  .ok (b, bo != 0)

/-- `ctlt` (lib/crypto/ctbig.myr:534-536). -/
def ctlt (a b : Big) : Res (Big × Bool) := do
  let (a, bo) ← ctsubcc a a b 0
  .ok (a, bo != 0)

/-- `ctge` (lib/crypto/ctbig.myr:527-532). -/
def ctge (a b : Big) : Res (Big × Bool) := do
  let (a, v) ← ctlt a b
  .ok (a, Ct.not (b2b v) != 0)

/-- `ctle` (lib/crypto/ctbig.myr:538-543). -/
def ctle (a b : Big) : Res (Big × Bool) := do
  let (b, v) ← ctgt a b
  .ok (b, Ct.not (b2b v) != 0)

/-- `unalignedword` (lib/crypto/ctbig.myr:315-327). -/
def unalignedword (v : Big) (bit : Nat) : Res W := do
  let s := bit % 32
  let i := bit / 32
  let lo ← rdChk v.dig i
  let hi ← if s = 0 then .ok 0 else rdChk v.dig (i + 1)
  .ok ((lo >>> s) ||| (hi <<< (32 - s)))

/-- The loop of `growmod` (lib/crypto/ctbig.myr:362-375) over the digits of `m` and
`r`: gives the new digits of `r`, `cc` and `tb`. -/
def subMul (q : W) : List W → List W → BitVec 64 → W → List W × BitVec 64 × W
  | mw :: ms, xw :: xs, cc, tb =>
    let zl : BitVec 64 := mw.setWidth 64 * q.setWidth 64 + cc
    let cc := zl >>> 32
    let zw : W := zl.setWidth 32
    let nxw := xw - zw
    let cc := cc + (Ct.gt false nxw xw).setWidth 64
    let tb := Ct.mux (Ct.eq false nxw mw) tb (Ct.gt false nxw mw)
    let (ds, cc, tb) := subMul q ms xs cc tb
    (nxw :: ds, cc, tb)
  | _, _, cc, tb => ([], cc, tb)

/-- The quotient that `growmod` estimates (lib/crypto/ctbig.myr:356-358). -/
def estimate (a0 a1 b0 : BitVec 64) : W :=
  let g : W := ((a0 + a1) / b0).setWidth 32
  let e := Ct.eq false a0 b0
  Ct.mux (e.setWidth 32) 0xffffffff (Ct.mux (Ct.eq false g 0) 0 (g - 1))

/-- `growmod` (lib/crypto/ctbig.myr:332-394) for `r = a`, as its only caller but the
tests uses it. -/
def growmod (a : Big) (k : W) (m : Big) : Res Big := do
  checksz a m
  if a.dig.length ≤ 1 then .abort
  else
    let mt ← rdChk m.dig (m.dig.length - 1)
    if mt &&& ((1 : W) <<< 31) = 0 then .abort
    else if m.nbit % 32 ≠ 0 then .abort
    else
      let a0 ← unalignedword a (a.nbit - 32)
      let a0 : BitVec 64 := a0.setWidth 64 <<< 32
      let a1 ← unalignedword a (a.nbit - 64)
      let a1 : BitVec 64 := a1.setWidth 64 <<< 0
      let b0 ← unalignedword m (m.nbit - 32)
      let b0 : BitVec 64 := b0.setWidth 64
      let hi ← rdChk a.dig (a.dig.length - 1)
      let r := k :: a.dig.take (a.dig.length - 1)
      let q := estimate a0 a1 b0
      let (r, cc, tb) := subMul q m.dig r 0 1
      let chf : W := (cc >>> 32).setWidth 32
      let clow : W := (cc >>> 0).setWidth 32
      let over := chf ||| Ct.gt false clow hi
      let under := ~~~ over &&& (tb ||| (~~~ chf &&& Ct.lt false clow hi))
      let r : Big := ⟨a.nbit, r⟩
      let r ← ctaddcc r r m over
      let (r, _) ← ctsubcc r r m under
      clip r

/-- The loop of `tomonty` (lib/crypto/ctbig.myr:401-403). -/
def growLoop (m : Big) : Nat → Big → Res Big
  | 0, r => .ok r
  | k + 1, r => do
    let r ← growmod r 0 m
    growLoop m k r

/-- `tomonty` (lib/crypto/ctbig.myr:396-404). -/
def tomonty (r x m : Big) : Res Big := do
  checksz x r
  checksz x m
  growLoop m m.dig.length { r with dig := x.dig }

/-- The loop of `ccopy` (lib/crypto/ctbig.myr:408-410). -/
def copyLoop (ctl : W) : List W → List W → List W
  | r :: rs, v :: vs => Ct.mux ctl v r :: copyLoop ctl rs vs
  | _, _ => []

/-- `ccopy` (lib/crypto/ctbig.myr:406-411). -/
def ccopy (r v : Big) (ctl : W) : Res Big := do
  checksz r v
  .ok { r with dig := copyLoop ctl r.dig v.dig }

/-- `muladd` (lib/crypto/ctbig.myr:413-415). -/
def muladd (a b k : W) : BitVec 64 := a.setWidth 64 * b.setWidth 64 + k.setWidth 64

/-- The inner loop of `montymul` (lib/crypto/ctbig.myr:435-447) over the digits of `y`,
`r` and `m`: every `z`, of which the code drops the first, and `r1` and `r2`. -/
def montyRow (xu f : W) : List W → List W → List W → BitVec 64 → BitVec 64 → List W × BitVec 64 × BitVec 64
  | y :: ys, r :: rs, m :: ms, r1, r2 =>
    let z := muladd xu y r + r1
    let r1 := z >>> 32
    let t : W := z.setWidth 32
    let z := muladd f m t + r2
    let r2 := z >>> 32
    let (zs, r1, r2) := montyRow xu f ys rs ms r1 r2
    (z.setWidth 32 :: zs, r1, r2)
  | _, _, _, r1, r2 => ([], r1, r2)

/-- The outer loop of `montymul` (lib/crypto/ctbig.myr:427-451) over the digits of `x`. -/
def montyLoop (y m : List W) (m0i : W) : List W → List W → BitVec 64 → Res (List W × BitVec 64)
  | xu :: xs, r, dh => do
    let r0 ← rdChk r 0
    let y0 ← rdChk y 0
    let f := (r0 + xu * y0) * m0i
    let (zs, r1, r2) := montyRow xu f y r m 0 0
    let zh := dh + r1 + r2
    montyLoop y m m0i xs (zs.tail ++ [zh.setWidth 32]) (zh >>> 32)
  | [], r, dh => .ok (r, dh)

/-- `montymul` (lib/crypto/ctbig.myr:417-459), into a number `r` of its own. -/
def montymul (r x y m : Big) (m0i : W) : Res Big := do
  checksz x y
  checksz x m
  checksz x r
  let (d, dh) ← montyLoop y.dig m.dig m0i x.dig (List.replicate r.dig.length 0) 0
  let r : Big := { r with dig := d }
  let (r, ge) ← ctge r m
  let s : BitVec 64 := Ct.ne false dh 0 ||| (b2b ge).setWidth 64
  let (r, _) ← ctsubcc r r m (s.setWidth 32)
  .ok r

/-- `ninv32` (lib/crypto/ctbig.myr:461-470). -/
def ninv32 (x : W) : W :=
  let y := 2 - x
  let y := y * (2 - y * x)
  let y := y * (2 - y * x)
  let y := y * (2 - y * x)
  let y := y * (2 - y * x)
  Ct.mux (x &&& 1) (-y) 0

/-- The loop of `ctmodpow` (lib/crypto/ctbig.myr:483-489) from bit `i`, `k` bits to go. -/
def powLoop (e m t2 : Big) (m0i : W) : Nat → Nat → Big → Big → Res Big
  | 0, _, r, _ => .ok r
  | k + 1, i, r, t1 => do
    let d ← rdChk e.dig (i / 32)
    let ctl := (d >>> (i % 32)) &&& 1
    let p ← montymul t2 r t1 m m0i
    let r ← ccopy r p ctl
    let p ← montymul p t1 t1 m m0i
    powLoop e m p m0i k (i + 1) r { t1 with dig := p.dig }

/-- `ctmodpow` (lib/crypto/ctbig.myr:472-492), into a number `r` of its own. -/
def ctmodpow (r a e m : Big) : Res Big := do
  let m0 ← rdChk m.dig 0
  let m0i := ninv32 m0
  let t1 ← tomonty a a m
  let ds ← wrChk (List.replicate r.dig.length 0) 0 1
  powLoop e m (ctzero a.nbit) m0i e.nbit 0 { r with dig := ds } t1

/-! ## rsa.myr -/

/-- The search of `bitcount` for the first byte that is not zero
(lib/crypto/rsa.myr:95-98), from `i`: every round advances by two, and `buf[i]` is
read before `i` is compared. -/
def skipZero (buf : List Byte) (i : Nat) : Res Nat :=
  if _h : i < buf.length then
    if buf[i] = 0 then skipZero buf (i + 2) else .ok i
  else .abort
termination_by buf.length - i

/-- `bitcount` (lib/crypto/rsa.myr:87-107). -/
def bitcount (buf : List Byte) : Res Nat := do
  let i ← skipZero buf 0
  let top ← rdChk buf i
  let bits : List Byte := [0x80, 0xc0, 0xe0, 0xf0, 0xf8, 0xfc, 0xfe, 0xff]
  .ok (8 * buf.length - (bits.takeWhile fun b => top &&& b = 0).length)

/-- `pad` (lib/crypto/rsa.myr:58-81). `ps`: the padding, given by the caller or drawn
by `randbytes`, which is not modelled here; a padding of the wrong length fails the
assertion of `slcp`. -/
def pad (msg : List Byte) (nbytes : Nat) (ps : List Byte) : Res (List Byte) :=
  if ¬ msg.length + 11 < nbytes then .abort
  else if ps.length ≠ nbytes - msg.length - 3 then .abort
  else .ok ([0, 2] ++ ps ++ [0] ++ msg)

/-- `rsapubseed_pkcs15` (lib/crypto/rsa.myr:26-43), with `decodepad` and `decode`
(45-56). `g`: what the new bytes of the result hold. -/
def rsapub (g msgbuf expbuf modbuf ps : List Byte) : Res (List Byte) := do
  let nbit ← bitcount modbuf
  let res := ctzero nbit
  let mpad ← pad msgbuf ((nbit + 7) / 8) ps
  let msg ← mkctbigbe mpad nbit
  let exp ← mkctbigbe expbuf nbit
  let mod ← mkctbigbe modbuf nbit
  let res ← ctmodpow res msg exp mod
  ctbytesbe g res

end Verif.Ctbig
