import Verif.Crypto.Model

/-!
# The ChaCha20 cipher of lib/crypto

Model of `chacha20.myr`. The message and the ciphertext are slices of one memory
shared with the caller, so that encrypting in place and between overlapping
buffers is expressible; the scratch array of 64 bytes is a separate object whose
first content is whatever was on the stack.
-/

namespace Verif.Chacha

open Crypto (get upd rot slcpAt lenSeen)

/-- The sixteen words of the generator, or sixteen local variables. -/
abbrev Words := Vector (BitVec 32) 16

/-- `"expand 32-byte k"` (lib/crypto/chacha20.myr:13). -/
def sigma : List Byte := [101, 120, 112, 97, 110, 100, 32, 51, 50, 45, 98, 121, 116, 101, 32, 107]

/-- `"expand 16-byte k"` (lib/crypto/chacha20.myr:14). -/
def tau : List Byte := [101, 120, 112, 97, 110, 100, 32, 49, 54, 45, 98, 121, 116, 101, 32, 107]

/-- Four words `x.input[i] = std.getle32(b[4*k:4*k+4])`, from the `i`-th on
(lib/crypto/chacha20.myr:19-22, 31-34 and 35-38). -/
def load4 (b : List Byte) (x : Words) (i0 i1 i2 i3 : Fin 16) : Res Words := do
  let w0 ← slice b 0 4 >>= Endian.getle32 32
  let x := upd x i0 w0
  let w1 ← slice b 4 8 >>= Endian.getle32 32
  let x := upd x i1 w1
  let w2 ← slice b 8 12 >>= Endian.getle32 32
  let x := upd x i2 w2
  let w3 ← slice b 12 16 >>= Endian.getle32 32
  .ok (upd x i3 w3)

/-- `chacha20keysetup` (lib/crypto/chacha20.myr:16-39). -/
def keysetup (x : Words) (k : List Byte) : Res Words := do
  let x ← load4 k x 4 5 6 7
  if k.length * 8 = 256 then do
    let k ← slice k 16 k.length
    let x ← load4 k x 8 9 10 11
    load4 sigma x 0 1 2 3
  else if k.length * 8 = 128 then do
    let x ← load4 k x 8 9 10 11
    load4 tau x 0 1 2 3
  else .abort

/-- `chacha20ivsetup` (lib/crypto/chacha20.myr:41-46). -/
def ivsetup (x : Words) (iv : List Byte) : Res Words := do
  let x := upd x 12 0
  let x := upd x 13 0
  let w0 ← slice iv 0 4 >>= Endian.getle32 32
  let x := upd x 14 w0
  let w1 ← slice iv 4 8 >>= Endian.getle32 32
  .ok (upd x 15 w1)

/-- A line of the rounds: `xa = (xa + xb)`, or
`xd = (((xd ^ xa) << l) | ((xd ^ xa) >> (32 - r)))`. -/
inductive Line where
  | add (a b : Fin 16)
  | rot (d a : Fin 16) (l r : Nat)
deriving DecidableEq

/-- What such a line does. -/
def exec (x : Words) : Line → Words
  | .add a b => upd x a (get x a + get x b)
  | .rot d a l r => upd x d (rot (get x d ^^^ get x a) l (32 - r))

/-- The lines of one pass of the loop (lib/crypto/chacha20.myr:98-168). -/
def lines : List Line :=
  [.add 0 4, .rot 12 0 16 16, .add 8 12, .rot 4 8 12 12,
   .add 0 4, .rot 12 0 8 8, .add 8 12, .rot 4 8 7 7,
   .add 1 5, .rot 13 1 16 16, .add 9 13, .rot 5 9 12 12,
   .add 1 5, .rot 13 1 8 8, .add 9 13, .rot 5 9 7 7,
   .add 2 6, .rot 14 2 16 16, .add 10 14, .rot 6 10 12 12,
   .add 2 6, .rot 14 2 8 8, .add 10 14, .rot 6 10 7 7,
   .add 3 7, .rot 15 3 16 16, .add 11 15, .rot 7 11 12 12,
   .add 3 7, .rot 15 3 8 8, .add 11 15, .rot 7 11 7 7,
   .add 0 5, .rot 15 0 16 16, .add 10 15, .rot 5 10 12 12,
   .add 0 5, .rot 15 0 8 8, .add 10 15, .rot 5 10 7 7,
   .add 1 6, .rot 12 1 16 16, .add 11 12, .rot 6 11 12 12,
   .add 1 6, .rot 12 1 8 8, .add 11 12, .rot 6 11 7 7,
   .add 2 7, .rot 13 2 16 16, .add 8 13, .rot 7 8 12 12,
   .add 2 7, .rot 13 2 8 8, .add 8 13, .rot 7 8 7 7,
   .add 3 4, .rot 14 3 16 16, .add 9 14, .rot 4 9 12 12,
   .add 3 4, .rot 14 3 8 8, .add 9 14, .rot 4 9 7 7]

/-- `for var i = 20; i > 0; i -= 2` (lib/crypto/chacha20.myr:97-169): ten passes. -/
def rounds (x : Words) : Words := (List.range 10).foldl (fun x _ => lines.foldl exec x) x

/-- lib/crypto/chacha20.myr:187-202: the words of the message are xored in. -/
def xorWords (m : List Byte) (x : Words) : List (Fin 16) → Res Words
  | [] => .ok x
  | i :: is => do
    let w ← slice m (4 * i.val) (4 * i.val + 4) >>= Endian.getle32 32
    xorWords m (upd x i (get x i ^^^ w)) is

/-- lib/crypto/chacha20.myr:209-224: the words are stored. -/
def putWords (x : Words) (c : List Byte) : List (Fin 16) → Res (List Byte)
  | [] => .ok c
  | i :: is => do
    let s ← slice c (4 * i.val) (4 * i.val + 4)
    let p ← Endian.putle s ((get x i).setWidth 64) 4
    putWords x (c.take (4 * i.val) ++ p.1 ++ c.drop (4 * i.val + 4)) is

/-- 0, …, 15: the words in the order of the lines just cited. -/
def all16 : List (Fin 16) := [0, 1, 2, 3, 4, 5, 6, 7, 8, 9, 10, 11, 12, 13, 14, 15]

/-- A slice: `len` bytes of the caller's memory from `off` on, or `tmp[:]`
(modelling device). -/
inductive Ref where
  | mem (off len : Nat)
  | tmp

/-- `.len`; `tmp` is a `byte[64]` (lib/crypto/chacha20.myr:53). -/
def Ref.len : Ref → Nat
  | .mem _ n => n
  | .tmp => 64

/-- What `.len` gives in the comparisons and bounds of `chacha20encrypt`
(lib/crypto/chacha20.myr:74-75 and 226-228): nothing fixes its type, so it is an
`int` (parse/infer.c:2313-2319 and 2233-2239, 6/simp.c:321-335). -/
def Ref.seen (r : Ref) : Int := lenSeen false r.len

/-- The bytes a slice shows. -/
def bytes (mem tmp : List Byte) : Ref → List Byte
  | .mem o n => (mem.drop o).take n
  | .tmp => tmp

/-- Stores into a slice: both memories afterwards. -/
def store (mem tmp : List Byte) (r : Ref) (bs : List Byte) : List Byte × List Byte :=
  match r with
  | .mem o _ => (mem.take o ++ bs ++ mem.drop (o + bs.length), tmp)
  | .tmp => (mem, bs)

/-- `s[n:]` (lib/crypto/chacha20.myr:234-235). -/
def Ref.from (n : Nat) : Ref → Res Ref
  | .mem o l => if n ≤ l then .ok (.mem (o + n) (l - n)) else .ub
  | .tmp => .ub

/-- `j12++; if j12 == 0 j13++` (lib/crypto/chacha20.myr:204-207). -/
def bump (j : Words) : Words :=
  let j := upd j 12 (get j 12 + 1)
  if get j 12 = 0 then upd j 13 (get j 13 + 1) else j

/-- lib/crypto/chacha20.myr:74-79: a message of less than 64 bytes is copied to
`tmp`, which takes the place of both the message and the ciphertext. -/
def prep (mem tmp : List Byte) (m c ct : Ref) : Res (List Byte × Ref × Ref × Ref) :=
  if m.seen < 64 then
    if m.seen < 0 then .abort
    else do
      let t ← slcpAt tmp 0 m.seen.toNat (bytes mem tmp m)
      .ok (t, .tmp, .tmp, c)
  else .ok (tmp, m, c, ct)

/-- lib/crypto/chacha20.myr:227-229; never done, as `m` has 64 bytes or more by then. -/
def copyOut (mem tmp : List Byte) (m c ct : Ref) : Res (List Byte) :=
  if m.seen < 64 then do
    let d ← slice (bytes mem tmp ct) 0 m.len
    if d.length = c.len then .ok (store mem tmp ct (bytes mem tmp c)).1 else .abort
  else .ok mem

/-- The loop of `chacha20encrypt` (lib/crypto/chacha20.myr:73-236): the memory and
the words afterwards. -/
def encLoop : Nat → Words → List Byte → List Byte → Ref → Ref → Ref → Res (List Byte × Words)
  | 0, _, _, _, _, _, _ => .spin
  | fuel + 1, j, mem, tmp, m, c, ct => do
    let p ← prep mem tmp m c ct
    let tmp := p.1
    let m := p.2.1
    let c := p.2.2.1
    let ct := p.2.2.2
    let x := Vector.zipWith (· + ·) (rounds j) j
    let x ← xorWords (bytes mem tmp m) x all16
    let j := bump j
    let cb ← putWords x (bytes mem tmp c) all16
    let s := store mem tmp c cb
    if m.seen ≤ 64 then do
      let mem ← copyOut s.1 s.2 m c ct
      .ok (mem, j)
    else do
      let c ← c.from 64
      let m ← m.from 64
      encLoop fuel j s.1 s.2 m c ct

/-- `chacha20encrypt` (lib/crypto/chacha20.myr:49-238), of the bytes `mo`, … into
the bytes `co`, … of the memory; `tmp` is what the scratch array holds at first.
The lengths are compared as 32 bits, like the others. -/
def encrypt (x : Words) (mem tmp : List Byte) (mo mn co cn : Nat) : Res (List Byte × Words) :=
  if mn % 2 ^ 32 = cn % 2 ^ 32 then do
    let r ← encLoop (mn / 64 + 1) x mem tmp (.mem mo mn) (.mem co cn) (.mem 0 0)
    .ok (r.1, upd (upd x 12 (get r.2 12)) 13 (get r.2 13))
  else .abort

end Verif.Chacha
