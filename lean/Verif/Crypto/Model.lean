import Verif.Endian.Model

/-!
# The hash functions of lib/crypto

Model of `md5.myr`, `sha1.myr`, `sha256.myr` (SHA-256 and SHA-224),
`sha512.myr` (SHA-512 and SHA-384), `sha3.myr` (Keccak) and `hmac.myr`.

The straight-line compression functions are kept line by line: every source
line of a given shape becomes one row of a table, which names the variables the
line mentions, its constants and (where they vary) its shift counts, and the
shape itself is one definition that executes a row.
-/

namespace Verif.Crypto

/-- A hashing state: the chaining value, the buffered bytes and the number of
bytes seen so far (lib/crypto/md5.myr:16-24, sha1.myr:16-24, sha256.myr:23-27 and 128-132,
sha512.myr:24-34, sha3.myr:4-26). `tail` is an array of one block. -/
structure St (X : Type) where
  x : X
  tail : List Byte
  msglen : BitVec 64

/-- The value of one of a group of local variables or array elements
(modelling device). -/
def get {α : Type} {n : Nat} (r : Vector α n) (i : Fin n) : α := r[i.val]

/-- Assignment to one of a group of local variables or array elements
(modelling device). -/
def upd {α : Type} {n : Nat} (r : Vector α n) (i : Fin n) (v : α) : Vector α n := r.set i.val v

/-- `std.slcp(dst[lo:hi], src)` (lib/std/slcp.myr:9-12); `src` and `dst` are
different arrays at all the modelled calls, so the copy is that of the bytes
`src` holds at the call. The assertion compares the lengths cut to 32 bits: each
`.len` there is an `int` (parse/infer.c:2313-2319 and 2233-2239, 6/simp.c:321-335).
The number of bytes copied is the whole length of the destination, as `memblit`
takes a `std.size`; copying more than `src` holds is undefined. -/
def slcpAt (dst : List Byte) (lo hi : Nat) (src : List Byte) : Res (List Byte) := do
  let a ← slice dst lo hi
  if a.length % 2 ^ 32 = src.length % 2 ^ 32 then
    if a.length ≤ src.length then .ok (dst.take lo ++ src.take a.length ++ dst.drop hi) else .ub
  else .abort

/-- `std.slfill(dst[lo:], v)` (lib/std/slfill.myr:5-10). -/
def slfillFrom (dst : List Byte) (lo : Nat) (v : Byte) : Res (List Byte) := do
  let a ← slice dst lo dst.length
  .ok (dst.take lo ++ List.replicate a.length v)

/-! ## Streaming -/

/-- What a comparison with `data.len` sees. Each `.len` has a type of its own
(parse/infer.c:2313-2319). In sha3.myr:195 it is that of the byte counter, of
64 bits (`wide`; sha3.myr:178-186). In the other loops nothing fixes it, so it
is `int` (parse/infer.c:2233-2239), and the length is cut to 32 bits and taken
as signed (6/simp.c:321-335). -/
def lenSeen (wide : Bool) (n : Nat) : Int := if wide then n else (BitVec.ofNat 32 n).toInt

/-- The loop over the full blocks of the data (lib/crypto/md5.myr:74-77,
sha1.myr:76-79, sha256.myr:105-108 and 165-168, sha512.myr:113-116 and 167-170,
sha3.myr:195-199): what is left over is returned. The first argument bounds the
number of iterations. -/
def blocks {X : Type} (B : Nat) (wide : Bool) (step : X → List Byte → Res X) : Nat → X → List Byte → Res (X × List Byte)
  | 0, _, _ => .spin
  | fuel + 1, x, data =>
    if (B : Int) ≤ lenSeen wide data.length then do
      let m ← slice data 0 B
      let x ← step x m
      let data ← slice data B data.length
      blocks B wide step fuel x data
    else .ok (x, data)

/-- The end of `hadd`: the loop, then keeping the left-over bytes. md5.myr:78,
sha1.myr:81 and sha3.myr:200 copy them to `tail[:data.len]`, while sha256.myr:110-111
and 170-171 and sha512.myr:118-119 and 172-173 copy them to
`tail[:st.msglen % Blocksz]` (`byMsglen`). The `data.len` of the former is an
`int` in all of them; as a bound of a slice it is extended with its sign, and one
below 0 is beyond the end of the array. -/
def haddRest {X : Type} (B : Nat) (wide byMsglen : Bool) (step : X → List Byte → Res X) (x : X) (tail : List Byte)
    (msglen : BitVec 64) (data : List Byte) : Res (St X) := do
  let p ← blocks B wide step (data.length + 1) x data
  let hi : Int := if byMsglen then (msglen.toNat % B : Nat) else lenSeen false p.2.length
  if hi < 0 then .abort
  else do
    let tail ← slcpAt tail 0 hi.toNat p.2
    .ok ⟨p.1, tail, msglen⟩

/-- `hadd` (lib/crypto/md5.myr:60-79, sha1.myr:61-82, sha256.myr:90-112 and
150-172, sha512.myr:98-120 and 152-174). `msglen` is a `uint64` and wraps, and
fixes the type of the other lengths here; as the lengths of slices are below
2^63, arithmetic on them is modelled in `Nat`. -/
def hadd {X : Type} (B : Nat) (wide byMsglen : Bool) (step : X → List Byte → Res X) (st : St X) (data : List Byte) :
    Res (St X) :=
  let ntail := st.msglen.toNat % B
  let msglen := st.msglen + BitVec.ofNat 64 data.length
  if 0 < ntail then do
    let n := min (B - ntail) data.length
    let d ← slice data 0 n
    let tail ← slcpAt st.tail ntail (ntail + n) d
    let data ← slice data n data.length
    if n + ntail < B then .ok ⟨st.x, tail, msglen⟩
    else do
      let x ← step st.x tail
      haddRest B wide byMsglen step x tail msglen data
  else haddRest B wide byMsglen step st.x st.tail msglen data

/-- `st.tail[i] = ((st.msglen * 8) >> k : byte)` for a list of pairs `(i, k)`
(lib/crypto/md5.myr:94-101, sha1.myr:98-105, sha256.myr:201-208,
sha512.myr:202-209). -/
def putLen (msglen : BitVec 64) (tail : List Byte) : List (Nat × Nat) → Res (List Byte)
  | [] => .ok tail
  | (i, k) :: t => do
    let tail ← wrChk tail i (((msglen * 8#64) >>> k).setWidth 8)
    putLen msglen tail t

/-- The padding at the end (lib/crypto/md5.myr:84-102, sha1.myr:87-106,
sha256.myr:188-210 `tail`, sha512.myr:189-211 `tail`): `L` is the room asked
for the length, `ps` the list of the assignments that store it. -/
def finish {X : Type} (B L : Nat) (ps : List (Nat × Nat)) (step : X → List Byte → Res X) (st : St X) :
    Res (St X) := do
  let ntail := st.msglen.toNat % B
  let tail ← wrChk st.tail ntail 0x80#8
  let tail ← slfillFrom tail (ntail + 1) 0#8
  let p ← (if B - (ntail + 1) < L then do
      let x ← step st.x tail
      let tail ← slfillFrom tail 0 0#8
      .ok (x, tail)
    else .ok (st.x, tail) : Res (X × List Byte))
  let tail ← putLen st.msglen p.2 ps
  let x ← step p.1 tail
  .ok ⟨x, tail, st.msglen⟩

/-- The assignments of lib/crypto/md5.myr:94-101. -/
def lenLe : List (Nat × Nat) := [(56, 0), (57, 8), (58, 16), (59, 24), (60, 32), (61, 40), (62, 48), (63, 56)]

/-- The assignments of lib/crypto/sha1.myr:98-105 and sha256.myr:201-208. -/
def lenBe : List (Nat × Nat) := [(56, 56), (57, 48), (58, 40), (59, 32), (60, 24), (61, 16), (62, 8), (63, 0)]

/-- The assignments of lib/crypto/sha512.myr:202-209. -/
def lenBe512 : List (Nat × Nat) :=
  [(120, 56), (121, 48), (122, 40), (123, 32), (124, 24), (125, 16), (126, 8), (127, 0)]

/-! ## Words -/

/-- `v |= (b[i] : uint32) << k` for a list of pairs `(i, k)`, from `v = 0`
(lib/crypto/md5.myr:228-237, sha1.myr:256-265, sha256.myr:438-447,
sha512.myr:489-502, all called `unpack`). -/
def unpack (w : Nat) (b : List Byte) : List (Nat × Nat) → BitVec w → Res (BitVec w)
  | [], v => .ok v
  | (i, k) :: t, v => do
    let x ← rdChk b i
    unpack w b t (v ||| x.setWidth w <<< k)

/-- The lines of `unpack` in lib/crypto/md5.myr:232-235. -/
def unLe : List (Nat × Nat) := [(0, 0), (1, 8), (2, 16), (3, 24)]

/-- The lines of `unpack` in lib/crypto/sha1.myr:260-263 and sha256.myr:442-445. -/
def unBe : List (Nat × Nat) := [(0, 24), (1, 16), (2, 8), (3, 0)]

/-- The lines of `unpack` in lib/crypto/sha512.myr:493-500. -/
def unBe64 : List (Nat × Nat) := [(0, 56), (1, 48), (2, 40), (3, 32), (4, 24), (5, 16), (6, 8), (7, 0)]

/-- The lines `s_i = unpack(msg[n*i : n*i+n])` for the `i` listed
(lib/crypto/md5.myr:133-148, sha1.myr:147-162, sha256.myr:232-247,
sha512.myr:235-250). The variables start out with whatever they hold (0 at the
calls below) and are not read before they are set. -/
def load {w m : Nat} (n : Nat) (un : List (Nat × Nat)) (msg : List Byte) :
    List (Fin m) → Vector (BitVec w) m → Res (Vector (BitVec w) m)
  | [], s => .ok s
  | i :: t, s => do
    let b ← slice msg (n * i.val) (n * i.val + n)
    let v ← unpack w b un 0#w
    load n un msg t (upd s i v)

/-- `(x << l) | (x >> r)`, the shape of every rotation in the sources; the
counts are constants below the width. -/
def rot {w : Nat} (x : BitVec w) (l r : Nat) : BitVec w := x <<< l ||| x >>> r

/-! ## MD5 -/

/-- One line of lib/crypto/md5.myr:151-220: the four variables in their roles,
which of the four functions is used, the constant, the message word and the two
shift counts. The variables `a b c d` are numbered from 0. -/
structure Md5Line where
  a : Fin 4
  b : Fin 4
  c : Fin 4
  d : Fin 4
  f : Nat
  k : BitVec 32
  s : Fin 16
  l : Nat
  r : Nat
  deriving DecidableEq

/-- The functions of the lines of lib/crypto/md5.myr:151-166, 169-184, 187-202
and 205-220. -/
def md5F (f : Nat) (b c d : BitVec 32) : BitVec 32 :=
  match f with
  | 0 => d ^^^ (b &&& (c ^^^ d))
  | 1 => c ^^^ (d &&& (b ^^^ c))
  | 2 => b ^^^ c ^^^ d
  | _ => c ^^^ (b ||| ~~~d)

/-- `a += F(b, c, d) + K + s; a = b + (a << l | a >> r)`
(lib/crypto/md5.myr:151-220). -/
def md5Exec (s : Vector (BitVec 32) 16) (v : Vector (BitVec 32) 4) (n : Md5Line) : Vector (BitVec 32) 4 :=
  let v := upd v n.a (get v n.a + (md5F n.f (get v n.b) (get v n.c) (get v n.d) + n.k + get s n.s))
  upd v n.a (get v n.b + rot (get v n.a) n.l n.r)

/-- lib/crypto/md5.myr:151-166, 169-184, 187-202, 205-220, row by row. -/
def md5Lines : List Md5Line :=
  [   ⟨0, 1, 2, 3, 0, 0xd76aa478, 0, 7, 25⟩, ⟨3, 0, 1, 2, 0, 0xe8c7b756, 1, 12, 20⟩, ⟨2, 3, 0, 1, 0, 0x242070db, 2, 17, 15⟩, ⟨1, 2, 3, 0, 0, 0xc1bdceee, 3, 22, 10⟩,
   ⟨0, 1, 2, 3, 0, 0xf57c0faf, 4, 7, 25⟩, ⟨3, 0, 1, 2, 0, 0x4787c62a, 5, 12, 20⟩, ⟨2, 3, 0, 1, 0, 0xa8304613, 6, 17, 15⟩, ⟨1, 2, 3, 0, 0, 0xfd469501, 7, 22, 10⟩,
   ⟨0, 1, 2, 3, 0, 0x698098d8, 8, 7, 25⟩, ⟨3, 0, 1, 2, 0, 0x8b44f7af, 9, 12, 20⟩, ⟨2, 3, 0, 1, 0, 0xffff5bb1, 10, 17, 15⟩, ⟨1, 2, 3, 0, 0, 0x895cd7be, 11, 22, 10⟩,
   ⟨0, 1, 2, 3, 0, 0x6b901122, 12, 7, 25⟩, ⟨3, 0, 1, 2, 0, 0xfd987193, 13, 12, 20⟩, ⟨2, 3, 0, 1, 0, 0xa679438e, 14, 17, 15⟩, ⟨1, 2, 3, 0, 0, 0x49b40821, 15, 22, 10⟩,
   ⟨0, 1, 2, 3, 1, 0xf61e2562, 1, 5, 27⟩, ⟨3, 0, 1, 2, 1, 0xc040b340, 6, 9, 23⟩, ⟨2, 3, 0, 1, 1, 0x265e5a51, 11, 14, 18⟩, ⟨1, 2, 3, 0, 1, 0xe9b6c7aa, 0, 20, 12⟩,
   ⟨0, 1, 2, 3, 1, 0xd62f105d, 5, 5, 27⟩, ⟨3, 0, 1, 2, 1, 0x02441453, 10, 9, 23⟩, ⟨2, 3, 0, 1, 1, 0xd8a1e681, 15, 14, 18⟩, ⟨1, 2, 3, 0, 1, 0xe7d3fbc8, 4, 20, 12⟩,
   ⟨0, 1, 2, 3, 1, 0x21e1cde6, 9, 5, 27⟩, ⟨3, 0, 1, 2, 1, 0xc33707d6, 14, 9, 23⟩, ⟨2, 3, 0, 1, 1, 0xf4d50d87, 3, 14, 18⟩, ⟨1, 2, 3, 0, 1, 0x455a14ed, 8, 20, 12⟩,
   ⟨0, 1, 2, 3, 1, 0xa9e3e905, 13, 5, 27⟩, ⟨3, 0, 1, 2, 1, 0xfcefa3f8, 2, 9, 23⟩, ⟨2, 3, 0, 1, 1, 0x676f02d9, 7, 14, 18⟩, ⟨1, 2, 3, 0, 1, 0x8d2a4c8a, 12, 20, 12⟩,
   ⟨0, 1, 2, 3, 2, 0xfffa3942, 5, 4, 28⟩, ⟨3, 0, 1, 2, 2, 0x8771f681, 8, 11, 21⟩, ⟨2, 3, 0, 1, 2, 0x6d9d6122, 11, 16, 16⟩, ⟨1, 2, 3, 0, 2, 0xfde5380c, 14, 23, 9⟩,
   ⟨0, 1, 2, 3, 2, 0xa4beea44, 1, 4, 28⟩, ⟨3, 0, 1, 2, 2, 0x4bdecfa9, 4, 11, 21⟩, ⟨2, 3, 0, 1, 2, 0xf6bb4b60, 7, 16, 16⟩, ⟨1, 2, 3, 0, 2, 0xbebfbc70, 10, 23, 9⟩,
   ⟨0, 1, 2, 3, 2, 0x289b7ec6, 13, 4, 28⟩, ⟨3, 0, 1, 2, 2, 0xeaa127fa, 0, 11, 21⟩, ⟨2, 3, 0, 1, 2, 0xd4ef3085, 3, 16, 16⟩, ⟨1, 2, 3, 0, 2, 0x04881d05, 6, 23, 9⟩,
   ⟨0, 1, 2, 3, 2, 0xd9d4d039, 9, 4, 28⟩, ⟨3, 0, 1, 2, 2, 0xe6db99e5, 12, 11, 21⟩, ⟨2, 3, 0, 1, 2, 0x1fa27cf8, 15, 16, 16⟩, ⟨1, 2, 3, 0, 2, 0xc4ac5665, 2, 23, 9⟩,
   ⟨0, 1, 2, 3, 3, 0xf4292244, 0, 6, 26⟩, ⟨3, 0, 1, 2, 3, 0x432aff97, 7, 10, 22⟩, ⟨2, 3, 0, 1, 3, 0xab9423a7, 14, 15, 17⟩, ⟨1, 2, 3, 0, 3, 0xfc93a039, 5, 21, 11⟩,
   ⟨0, 1, 2, 3, 3, 0x655b59c3, 12, 6, 26⟩, ⟨3, 0, 1, 2, 3, 0x8f0ccc92, 3, 10, 22⟩, ⟨2, 3, 0, 1, 3, 0xffeff47d, 10, 15, 17⟩, ⟨1, 2, 3, 0, 3, 0x85845dd1, 1, 21, 11⟩,
   ⟨0, 1, 2, 3, 3, 0x6fa87e4f, 8, 6, 26⟩, ⟨3, 0, 1, 2, 3, 0xfe2ce6e0, 15, 10, 22⟩, ⟨2, 3, 0, 1, 3, 0xa3014314, 6, 15, 17⟩, ⟨1, 2, 3, 0, 3, 0x4e0811a1, 13, 21, 11⟩,
   ⟨0, 1, 2, 3, 3, 0xf7537e82, 4, 6, 26⟩, ⟨3, 0, 1, 2, 3, 0xbd3af235, 11, 10, 22⟩, ⟨2, 3, 0, 1, 3, 0x2ad7d2bb, 2, 15, 17⟩, ⟨1, 2, 3, 0, 3, 0xeb86d391, 9, 21, 11⟩]

/-- lib/crypto/md5.myr:123-226 (`step`). -/
def md5Step (x : Vector (BitVec 32) 4) (blk : List Byte) : Res (Vector (BitVec 32) 4) := do
  let s ← load 4 unLe blk [0, 1, 2, 3, 4, 5, 6, 7, 8, 9, 10, 11, 12, 13, 14, 15] (.replicate 16 0#32)
  let v := md5Lines.foldl (md5Exec s) x
  .ok (Vector.zipWith (· + ·) x v)

/-! ## SHA-1 -/

/-- One line of lib/crypto/sha1.myr:164-247: from the seventeenth on it starts
with `t = s_p ^ s_q ^ s_u ^ s_v; s_z = t << 1 | t >> 31`. The variables
`a b c d e` are numbered from 0. -/
structure Sha1Line where
  sched : Option (Fin 16 × Fin 16 × Fin 16 × Fin 16 × Fin 16)
  a : Fin 5
  b : Fin 5
  c : Fin 5
  d : Fin 5
  e : Fin 5
  f : Nat
  k : Nat
  s : Fin 16
  deriving DecidableEq

/-- The three functions of the lines of lib/crypto/sha1.myr:164-185, 186-205 and
228-247, 207-226. -/
def sha1F (f : Nat) (b c d : BitVec 32) : BitVec 32 :=
  match f with
  | 0 => d ^^^ (b &&& (c ^^^ d))
  | 1 => b ^^^ c ^^^ d
  | _ => (b &&& (c ||| d)) ||| (c &&& d)

/-- lib/crypto/sha1.myr:131-134 (`K0` … `K3`). -/
def sha1K : Nat → BitVec 32
  | 0 => 0x5a827999
  | 1 => 0x6ed9eba1
  | 2 => 0x8f1bbcdc
  | _ => 0xCA62C1D6

/-- `t = s_p ^ s_q ^ s_u ^ s_v; s_z = t << 1 | t >> 31` (lib/crypto/sha1.myr:182-247). -/
def sha1Sched (s : Vector (BitVec 32) 16) :
    Option (Fin 16 × Fin 16 × Fin 16 × Fin 16 × Fin 16) → Vector (BitVec 32) 16
  | none => s
  | some (p, q, u, v, z) => upd s z (rot (get s p ^^^ get s q ^^^ get s u ^^^ get s v) 1 31)

/-- `e += (a << 5 | a >> 27) + F(b, c, d) + s + K; b = b << 30 | b >> 2`
(lib/crypto/sha1.myr:164-247), after the first part of the line. -/
def sha1Exec (p : (Vector (BitVec 32) 16) × (Vector (BitVec 32) 5)) (n : Sha1Line) :
    (Vector (BitVec 32) 16) × (Vector (BitVec 32) 5) :=
  let s := sha1Sched p.1 n.sched
  let v := p.2
  let v := upd v n.e (get v n.e + (rot (get v n.a) 5 27 + sha1F n.f (get v n.b) (get v n.c) (get v n.d) + get s n.s + sha1K n.k))
  (s, upd v n.b (rot (get v n.b) 30 2))

/-- lib/crypto/sha1.myr:164-179, 182-205, 207-226, 228-247, row by row. -/
def sha1Lines : List Sha1Line :=
  [   ⟨none, 0, 1, 2, 3, 4, 0, 0, 0⟩, ⟨none, 4, 0, 1, 2, 3, 0, 0, 1⟩,
   ⟨none, 3, 4, 0, 1, 2, 0, 0, 2⟩, ⟨none, 2, 3, 4, 0, 1, 0, 0, 3⟩,
   ⟨none, 1, 2, 3, 4, 0, 0, 0, 4⟩, ⟨none, 0, 1, 2, 3, 4, 0, 0, 5⟩,
   ⟨none, 4, 0, 1, 2, 3, 0, 0, 6⟩, ⟨none, 3, 4, 0, 1, 2, 0, 0, 7⟩,
   ⟨none, 2, 3, 4, 0, 1, 0, 0, 8⟩, ⟨none, 1, 2, 3, 4, 0, 0, 0, 9⟩,
   ⟨none, 0, 1, 2, 3, 4, 0, 0, 10⟩, ⟨none, 4, 0, 1, 2, 3, 0, 0, 11⟩,
   ⟨none, 3, 4, 0, 1, 2, 0, 0, 12⟩, ⟨none, 2, 3, 4, 0, 1, 0, 0, 13⟩,
   ⟨none, 1, 2, 3, 4, 0, 0, 0, 14⟩, ⟨none, 0, 1, 2, 3, 4, 0, 0, 15⟩,
   ⟨some (13, 8, 2, 0, 0), 4, 0, 1, 2, 3, 0, 0, 0⟩, ⟨some (14, 9, 3, 1, 1), 3, 4, 0, 1, 2, 0, 0, 1⟩,
   ⟨some (15, 10, 4, 2, 2), 2, 3, 4, 0, 1, 0, 0, 2⟩, ⟨some (0, 11, 5, 3, 3), 1, 2, 3, 4, 0, 0, 0, 3⟩,
   ⟨some (1, 12, 6, 4, 4), 0, 1, 2, 3, 4, 1, 1, 4⟩, ⟨some (2, 13, 7, 5, 5), 4, 0, 1, 2, 3, 1, 1, 5⟩,
   ⟨some (3, 14, 8, 6, 6), 3, 4, 0, 1, 2, 1, 1, 6⟩, ⟨some (4, 15, 9, 7, 7), 2, 3, 4, 0, 1, 1, 1, 7⟩,
   ⟨some (5, 0, 10, 8, 8), 1, 2, 3, 4, 0, 1, 1, 8⟩, ⟨some (6, 1, 11, 9, 9), 0, 1, 2, 3, 4, 1, 1, 9⟩,
   ⟨some (7, 2, 12, 10, 10), 4, 0, 1, 2, 3, 1, 1, 10⟩, ⟨some (8, 3, 13, 11, 11), 3, 4, 0, 1, 2, 1, 1, 11⟩,
   ⟨some (9, 4, 14, 12, 12), 2, 3, 4, 0, 1, 1, 1, 12⟩, ⟨some (10, 5, 15, 13, 13), 1, 2, 3, 4, 0, 1, 1, 13⟩,
   ⟨some (11, 6, 0, 14, 14), 0, 1, 2, 3, 4, 1, 1, 14⟩, ⟨some (12, 7, 1, 15, 15), 4, 0, 1, 2, 3, 1, 1, 15⟩,
   ⟨some (13, 8, 2, 0, 0), 3, 4, 0, 1, 2, 1, 1, 0⟩, ⟨some (14, 9, 3, 1, 1), 2, 3, 4, 0, 1, 1, 1, 1⟩,
   ⟨some (15, 10, 4, 2, 2), 1, 2, 3, 4, 0, 1, 1, 2⟩, ⟨some (0, 11, 5, 3, 3), 0, 1, 2, 3, 4, 1, 1, 3⟩,
   ⟨some (1, 12, 6, 4, 4), 4, 0, 1, 2, 3, 1, 1, 4⟩, ⟨some (2, 13, 7, 5, 5), 3, 4, 0, 1, 2, 1, 1, 5⟩,
   ⟨some (3, 14, 8, 6, 6), 2, 3, 4, 0, 1, 1, 1, 6⟩, ⟨some (4, 15, 9, 7, 7), 1, 2, 3, 4, 0, 1, 1, 7⟩,
   ⟨some (5, 0, 10, 8, 8), 0, 1, 2, 3, 4, 2, 2, 8⟩, ⟨some (6, 1, 11, 9, 9), 4, 0, 1, 2, 3, 2, 2, 9⟩,
   ⟨some (7, 2, 12, 10, 10), 3, 4, 0, 1, 2, 2, 2, 10⟩, ⟨some (8, 3, 13, 11, 11), 2, 3, 4, 0, 1, 2, 2, 11⟩,
   ⟨some (9, 4, 14, 12, 12), 1, 2, 3, 4, 0, 2, 2, 12⟩, ⟨some (10, 5, 15, 13, 13), 0, 1, 2, 3, 4, 2, 2, 13⟩,
   ⟨some (11, 6, 0, 14, 14), 4, 0, 1, 2, 3, 2, 2, 14⟩, ⟨some (12, 7, 1, 15, 15), 3, 4, 0, 1, 2, 2, 2, 15⟩,
   ⟨some (13, 8, 2, 0, 0), 2, 3, 4, 0, 1, 2, 2, 0⟩, ⟨some (14, 9, 3, 1, 1), 1, 2, 3, 4, 0, 2, 2, 1⟩,
   ⟨some (15, 10, 4, 2, 2), 0, 1, 2, 3, 4, 2, 2, 2⟩, ⟨some (0, 11, 5, 3, 3), 4, 0, 1, 2, 3, 2, 2, 3⟩,
   ⟨some (1, 12, 6, 4, 4), 3, 4, 0, 1, 2, 2, 2, 4⟩, ⟨some (2, 13, 7, 5, 5), 2, 3, 4, 0, 1, 2, 2, 5⟩,
   ⟨some (3, 14, 8, 6, 6), 1, 2, 3, 4, 0, 2, 2, 6⟩, ⟨some (4, 15, 9, 7, 7), 0, 1, 2, 3, 4, 2, 2, 7⟩,
   ⟨some (5, 0, 10, 8, 8), 4, 0, 1, 2, 3, 2, 2, 8⟩, ⟨some (6, 1, 11, 9, 9), 3, 4, 0, 1, 2, 2, 2, 9⟩,
   ⟨some (7, 2, 12, 10, 10), 2, 3, 4, 0, 1, 2, 2, 10⟩, ⟨some (8, 3, 13, 11, 11), 1, 2, 3, 4, 0, 2, 2, 11⟩,
   ⟨some (9, 4, 14, 12, 12), 0, 1, 2, 3, 4, 1, 3, 12⟩, ⟨some (10, 5, 15, 13, 13), 4, 0, 1, 2, 3, 1, 3, 13⟩,
   ⟨some (11, 6, 0, 14, 14), 3, 4, 0, 1, 2, 1, 3, 14⟩, ⟨some (12, 7, 1, 15, 15), 2, 3, 4, 0, 1, 1, 3, 15⟩,
   ⟨some (13, 8, 2, 0, 0), 1, 2, 3, 4, 0, 1, 3, 0⟩, ⟨some (14, 9, 3, 1, 1), 0, 1, 2, 3, 4, 1, 3, 1⟩,
   ⟨some (15, 10, 4, 2, 2), 4, 0, 1, 2, 3, 1, 3, 2⟩, ⟨some (0, 11, 5, 3, 3), 3, 4, 0, 1, 2, 1, 3, 3⟩,
   ⟨some (1, 12, 6, 4, 4), 2, 3, 4, 0, 1, 1, 3, 4⟩, ⟨some (2, 13, 7, 5, 5), 1, 2, 3, 4, 0, 1, 3, 5⟩,
   ⟨some (3, 14, 8, 6, 6), 0, 1, 2, 3, 4, 1, 3, 6⟩, ⟨some (4, 15, 9, 7, 7), 4, 0, 1, 2, 3, 1, 3, 7⟩,
   ⟨some (5, 0, 10, 8, 8), 3, 4, 0, 1, 2, 1, 3, 8⟩, ⟨some (6, 1, 11, 9, 9), 2, 3, 4, 0, 1, 1, 3, 9⟩,
   ⟨some (7, 2, 12, 10, 10), 1, 2, 3, 4, 0, 1, 3, 10⟩, ⟨some (8, 3, 13, 11, 11), 0, 1, 2, 3, 4, 1, 3, 11⟩,
   ⟨some (9, 4, 14, 12, 12), 4, 0, 1, 2, 3, 1, 3, 12⟩, ⟨some (10, 5, 15, 13, 13), 3, 4, 0, 1, 2, 1, 3, 13⟩,
   ⟨some (11, 6, 0, 14, 14), 2, 3, 4, 0, 1, 1, 3, 14⟩, ⟨some (12, 7, 1, 15, 15), 1, 2, 3, 4, 0, 1, 3, 15⟩]

/-- lib/crypto/sha1.myr:135-254 (`step`). -/
def sha1Step (x : Vector (BitVec 32) 5) (blk : List Byte) : Res (Vector (BitVec 32) 5) := do
  let s ← load 4 unBe blk [0, 1, 2, 3, 4, 5, 6, 7, 8, 9, 10, 11, 12, 13, 14, 15] (.replicate 16 0#32)
  let v := (sha1Lines.foldl sha1Exec (s, x)).2
  .ok (Vector.zipWith (· + ·) x v)

/-! ## SHA-2 -/

/-- One line `s_t = s_p + s_q + σ0(s_x) + σ1(s_y)` of lib/crypto/sha256.myr:249-296
or sha512.myr:252-315. -/
structure SchLine (m : Nat) where
  t : Fin m
  p : Fin m
  q : Fin m
  x : Fin m
  y : Fin m
  deriving DecidableEq

/-- Two lines `h += Σ1(e) + Ch + K + s` and `d += h; h += Σ0(a) + Maj` of
lib/crypto/sha256.myr:299-426 or sha512.myr:318-477; the variables `a` … `h` are
numbered from 0. -/
structure RndLine (w m : Nat) where
  a : Fin 8
  b : Fin 8
  c : Fin 8
  d : Fin 8
  e : Fin 8
  f : Fin 8
  g : Fin 8
  h : Fin 8
  k : BitVec w
  s : Fin m
  deriving DecidableEq

/-- The shift counts the lines use (constant over a file). -/
structure Sha2Cfg where
  s0 : Nat × Nat × Nat × Nat × Nat
  s1 : Nat × Nat × Nat × Nat × Nat
  b0 : Nat × Nat × Nat × Nat × Nat × Nat
  b1 : Nat × Nat × Nat × Nat × Nat × Nat

/-- lib/crypto/sha256.myr:249 and 299-300. -/
def cfg256 : Sha2Cfg :=
  ⟨(25, 7, 14, 18, 3), (15, 17, 32 - 19, 19, 10), (30, 2, 19, 13, 10, 22), (26, 6, 21, 11, 7, 25)⟩

/-- lib/crypto/sha512.myr:252 and 318-319. -/
def cfg512 : Sha2Cfg :=
  ⟨(63, 1, 56, 8, 7), (45, 19, 3, 61, 6), (36, 28, 64 - 34, 34, 25, 39), (50, 14, 64 - 18, 18, 23, 41)⟩

/-- `((x << l1) | (x >> r1)) ^ ((x << l2) | (x >> r2)) ^ (x >> n)`
(lib/crypto/sha256.myr:249, sha512.myr:252). -/
def small {w : Nat} (c : Nat × Nat × Nat × Nat × Nat) (x : BitVec w) : BitVec w :=
  rot x c.1 c.2.1 ^^^ rot x c.2.2.1 c.2.2.2.1 ^^^ x >>> c.2.2.2.2

/-- `((x << l1) | (x >> r1)) ^ ((x << l2) | (x >> r2)) ^ ((x << l3) | (x >> r3))`
(lib/crypto/sha256.myr:299-300, sha512.myr:318-319). -/
def big {w : Nat} (c : Nat × Nat × Nat × Nat × Nat × Nat) (x : BitVec w) : BitVec w :=
  rot x c.1 c.2.1 ^^^ rot x c.2.2.1 c.2.2.2.1 ^^^ rot x c.2.2.2.2.1 c.2.2.2.2.2

/-- One line of lib/crypto/sha256.myr:249-296 or sha512.myr:252-315. -/
def schExec {w m : Nat} (c : Sha2Cfg) (s : Vector (BitVec w) m) (n : SchLine m) : Vector (BitVec w) m :=
  upd s n.t (get s n.p + get s n.q + small c.s0 (get s n.x) + small c.s1 (get s n.y))

/-- Two lines of lib/crypto/sha256.myr:299-426 or sha512.myr:318-477. -/
def rndExec {w m : Nat} (c : Sha2Cfg) (s : Vector (BitVec w) m) (v : Vector (BitVec w) 8) (n : RndLine w m) :
    Vector (BitVec w) 8 :=
  let v := upd v n.h (get v n.h + (big c.b1 (get v n.e) +
    (get v n.g ^^^ (get v n.e &&& (get v n.f ^^^ get v n.g))) + n.k + get s n.s))
  let v := upd v n.d (get v n.d + get v n.h)
  upd v n.h (get v n.h + (big c.b0 (get v n.a) +
    ((get v n.a &&& (get v n.b ||| get v n.c)) ||| (get v n.b &&& get v n.c))))

/-- lib/crypto/sha256.myr:249-296, row by row. -/
def sch256 : List (SchLine 64) :=
  [   ⟨16, 0, 9, 1, 14⟩, ⟨17, 1, 10, 2, 15⟩, ⟨18, 2, 11, 3, 16⟩, ⟨19, 3, 12, 4, 17⟩, ⟨20, 4, 13, 5, 18⟩, ⟨21, 5, 14, 6, 19⟩,
   ⟨22, 6, 15, 7, 20⟩, ⟨23, 7, 16, 8, 21⟩, ⟨24, 8, 17, 9, 22⟩, ⟨25, 9, 18, 10, 23⟩, ⟨26, 10, 19, 11, 24⟩, ⟨27, 11, 20, 12, 25⟩,
   ⟨28, 12, 21, 13, 26⟩, ⟨29, 13, 22, 14, 27⟩, ⟨30, 14, 23, 15, 28⟩, ⟨31, 15, 24, 16, 29⟩, ⟨32, 16, 25, 17, 30⟩, ⟨33, 17, 26, 18, 31⟩,
   ⟨34, 18, 27, 19, 32⟩, ⟨35, 19, 28, 20, 33⟩, ⟨36, 20, 29, 21, 34⟩, ⟨37, 21, 30, 22, 35⟩, ⟨38, 22, 31, 23, 36⟩, ⟨39, 23, 32, 24, 37⟩,
   ⟨40, 24, 33, 25, 38⟩, ⟨41, 25, 34, 26, 39⟩, ⟨42, 26, 35, 27, 40⟩, ⟨43, 27, 36, 28, 41⟩, ⟨44, 28, 37, 29, 42⟩, ⟨45, 29, 38, 30, 43⟩,
   ⟨46, 30, 39, 31, 44⟩, ⟨47, 31, 40, 32, 45⟩, ⟨48, 32, 41, 33, 46⟩, ⟨49, 33, 42, 34, 47⟩, ⟨50, 34, 43, 35, 48⟩, ⟨51, 35, 44, 36, 49⟩,
   ⟨52, 36, 45, 37, 50⟩, ⟨53, 37, 46, 38, 51⟩, ⟨54, 38, 47, 39, 52⟩, ⟨55, 39, 48, 40, 53⟩, ⟨56, 40, 49, 41, 54⟩, ⟨57, 41, 50, 42, 55⟩,
   ⟨58, 42, 51, 43, 56⟩, ⟨59, 43, 52, 44, 57⟩, ⟨60, 44, 53, 45, 58⟩, ⟨61, 45, 54, 46, 59⟩, ⟨62, 46, 55, 47, 60⟩, ⟨63, 47, 56, 48, 61⟩]

/-- lib/crypto/sha256.myr:299-426, two lines a row. -/
def rnd256 : List (RndLine 32 64) :=
  [   ⟨0, 1, 2, 3, 4, 5, 6, 7, 0x428a2f98, 0⟩, ⟨7, 0, 1, 2, 3, 4, 5, 6, 0x71374491, 1⟩, ⟨6, 7, 0, 1, 2, 3, 4, 5, 0xb5c0fbcf, 2⟩,
   ⟨5, 6, 7, 0, 1, 2, 3, 4, 0xe9b5dba5, 3⟩, ⟨4, 5, 6, 7, 0, 1, 2, 3, 0x3956c25b, 4⟩, ⟨3, 4, 5, 6, 7, 0, 1, 2, 0x59f111f1, 5⟩,
   ⟨2, 3, 4, 5, 6, 7, 0, 1, 0x923f82a4, 6⟩, ⟨1, 2, 3, 4, 5, 6, 7, 0, 0xab1c5ed5, 7⟩, ⟨0, 1, 2, 3, 4, 5, 6, 7, 0xd807aa98, 8⟩,
   ⟨7, 0, 1, 2, 3, 4, 5, 6, 0x12835b01, 9⟩, ⟨6, 7, 0, 1, 2, 3, 4, 5, 0x243185be, 10⟩, ⟨5, 6, 7, 0, 1, 2, 3, 4, 0x550c7dc3, 11⟩,
   ⟨4, 5, 6, 7, 0, 1, 2, 3, 0x72be5d74, 12⟩, ⟨3, 4, 5, 6, 7, 0, 1, 2, 0x80deb1fe, 13⟩, ⟨2, 3, 4, 5, 6, 7, 0, 1, 0x9bdc06a7, 14⟩,
   ⟨1, 2, 3, 4, 5, 6, 7, 0, 0xc19bf174, 15⟩, ⟨0, 1, 2, 3, 4, 5, 6, 7, 0xe49b69c1, 16⟩, ⟨7, 0, 1, 2, 3, 4, 5, 6, 0xefbe4786, 17⟩,
   ⟨6, 7, 0, 1, 2, 3, 4, 5, 0x0fc19dc6, 18⟩, ⟨5, 6, 7, 0, 1, 2, 3, 4, 0x240ca1cc, 19⟩, ⟨4, 5, 6, 7, 0, 1, 2, 3, 0x2de92c6f, 20⟩,
   ⟨3, 4, 5, 6, 7, 0, 1, 2, 0x4a7484aa, 21⟩, ⟨2, 3, 4, 5, 6, 7, 0, 1, 0x5cb0a9dc, 22⟩, ⟨1, 2, 3, 4, 5, 6, 7, 0, 0x76f988da, 23⟩,
   ⟨0, 1, 2, 3, 4, 5, 6, 7, 0x983e5152, 24⟩, ⟨7, 0, 1, 2, 3, 4, 5, 6, 0xa831c66d, 25⟩, ⟨6, 7, 0, 1, 2, 3, 4, 5, 0xb00327c8, 26⟩,
   ⟨5, 6, 7, 0, 1, 2, 3, 4, 0xbf597fc7, 27⟩, ⟨4, 5, 6, 7, 0, 1, 2, 3, 0xc6e00bf3, 28⟩, ⟨3, 4, 5, 6, 7, 0, 1, 2, 0xd5a79147, 29⟩,
   ⟨2, 3, 4, 5, 6, 7, 0, 1, 0x06ca6351, 30⟩, ⟨1, 2, 3, 4, 5, 6, 7, 0, 0x14292967, 31⟩, ⟨0, 1, 2, 3, 4, 5, 6, 7, 0x27b70a85, 32⟩,
   ⟨7, 0, 1, 2, 3, 4, 5, 6, 0x2e1b2138, 33⟩, ⟨6, 7, 0, 1, 2, 3, 4, 5, 0x4d2c6dfc, 34⟩, ⟨5, 6, 7, 0, 1, 2, 3, 4, 0x53380d13, 35⟩,
   ⟨4, 5, 6, 7, 0, 1, 2, 3, 0x650a7354, 36⟩, ⟨3, 4, 5, 6, 7, 0, 1, 2, 0x766a0abb, 37⟩, ⟨2, 3, 4, 5, 6, 7, 0, 1, 0x81c2c92e, 38⟩,
   ⟨1, 2, 3, 4, 5, 6, 7, 0, 0x92722c85, 39⟩, ⟨0, 1, 2, 3, 4, 5, 6, 7, 0xa2bfe8a1, 40⟩, ⟨7, 0, 1, 2, 3, 4, 5, 6, 0xa81a664b, 41⟩,
   ⟨6, 7, 0, 1, 2, 3, 4, 5, 0xc24b8b70, 42⟩, ⟨5, 6, 7, 0, 1, 2, 3, 4, 0xc76c51a3, 43⟩, ⟨4, 5, 6, 7, 0, 1, 2, 3, 0xd192e819, 44⟩,
   ⟨3, 4, 5, 6, 7, 0, 1, 2, 0xd6990624, 45⟩, ⟨2, 3, 4, 5, 6, 7, 0, 1, 0xf40e3585, 46⟩, ⟨1, 2, 3, 4, 5, 6, 7, 0, 0x106aa070, 47⟩,
   ⟨0, 1, 2, 3, 4, 5, 6, 7, 0x19a4c116, 48⟩, ⟨7, 0, 1, 2, 3, 4, 5, 6, 0x1e376c08, 49⟩, ⟨6, 7, 0, 1, 2, 3, 4, 5, 0x2748774c, 50⟩,
   ⟨5, 6, 7, 0, 1, 2, 3, 4, 0x34b0bcb5, 51⟩, ⟨4, 5, 6, 7, 0, 1, 2, 3, 0x391c0cb3, 52⟩, ⟨3, 4, 5, 6, 7, 0, 1, 2, 0x4ed8aa4a, 53⟩,
   ⟨2, 3, 4, 5, 6, 7, 0, 1, 0x5b9cca4f, 54⟩, ⟨1, 2, 3, 4, 5, 6, 7, 0, 0x682e6ff3, 55⟩, ⟨0, 1, 2, 3, 4, 5, 6, 7, 0x748f82ee, 56⟩,
   ⟨7, 0, 1, 2, 3, 4, 5, 6, 0x78a5636f, 57⟩, ⟨6, 7, 0, 1, 2, 3, 4, 5, 0x84c87814, 58⟩, ⟨5, 6, 7, 0, 1, 2, 3, 4, 0x8cc70208, 59⟩,
   ⟨4, 5, 6, 7, 0, 1, 2, 3, 0x90befffa, 60⟩, ⟨3, 4, 5, 6, 7, 0, 1, 2, 0xa4506ceb, 61⟩, ⟨2, 3, 4, 5, 6, 7, 0, 1, 0xbef9a3f7, 62⟩,
   ⟨1, 2, 3, 4, 5, 6, 7, 0, 0xc67178f2, 63⟩]

/-- lib/crypto/sha512.myr:252-315, row by row. -/
def sch512 : List (SchLine 80) :=
  [   ⟨16, 0, 9, 1, 14⟩, ⟨17, 1, 10, 2, 15⟩, ⟨18, 2, 11, 3, 16⟩, ⟨19, 3, 12, 4, 17⟩, ⟨20, 4, 13, 5, 18⟩, ⟨21, 5, 14, 6, 19⟩,
   ⟨22, 6, 15, 7, 20⟩, ⟨23, 7, 16, 8, 21⟩, ⟨24, 8, 17, 9, 22⟩, ⟨25, 9, 18, 10, 23⟩, ⟨26, 10, 19, 11, 24⟩, ⟨27, 11, 20, 12, 25⟩,
   ⟨28, 12, 21, 13, 26⟩, ⟨29, 13, 22, 14, 27⟩, ⟨30, 14, 23, 15, 28⟩, ⟨31, 15, 24, 16, 29⟩, ⟨32, 16, 25, 17, 30⟩, ⟨33, 17, 26, 18, 31⟩,
   ⟨34, 18, 27, 19, 32⟩, ⟨35, 19, 28, 20, 33⟩, ⟨36, 20, 29, 21, 34⟩, ⟨37, 21, 30, 22, 35⟩, ⟨38, 22, 31, 23, 36⟩, ⟨39, 23, 32, 24, 37⟩,
   ⟨40, 24, 33, 25, 38⟩, ⟨41, 25, 34, 26, 39⟩, ⟨42, 26, 35, 27, 40⟩, ⟨43, 27, 36, 28, 41⟩, ⟨44, 28, 37, 29, 42⟩, ⟨45, 29, 38, 30, 43⟩,
   ⟨46, 30, 39, 31, 44⟩, ⟨47, 31, 40, 32, 45⟩, ⟨48, 32, 41, 33, 46⟩, ⟨49, 33, 42, 34, 47⟩, ⟨50, 34, 43, 35, 48⟩, ⟨51, 35, 44, 36, 49⟩,
   ⟨52, 36, 45, 37, 50⟩, ⟨53, 37, 46, 38, 51⟩, ⟨54, 38, 47, 39, 52⟩, ⟨55, 39, 48, 40, 53⟩, ⟨56, 40, 49, 41, 54⟩, ⟨57, 41, 50, 42, 55⟩,
   ⟨58, 42, 51, 43, 56⟩, ⟨59, 43, 52, 44, 57⟩, ⟨60, 44, 53, 45, 58⟩, ⟨61, 45, 54, 46, 59⟩, ⟨62, 46, 55, 47, 60⟩, ⟨63, 47, 56, 48, 61⟩,
   ⟨64, 48, 57, 49, 62⟩, ⟨65, 49, 58, 50, 63⟩, ⟨66, 50, 59, 51, 64⟩, ⟨67, 51, 60, 52, 65⟩, ⟨68, 52, 61, 53, 66⟩, ⟨69, 53, 62, 54, 67⟩,
   ⟨70, 54, 63, 55, 68⟩, ⟨71, 55, 64, 56, 69⟩, ⟨72, 56, 65, 57, 70⟩, ⟨73, 57, 66, 58, 71⟩, ⟨74, 58, 67, 59, 72⟩, ⟨75, 59, 68, 60, 73⟩,
   ⟨76, 60, 69, 61, 74⟩, ⟨77, 61, 70, 62, 75⟩, ⟨78, 62, 71, 63, 76⟩, ⟨79, 63, 72, 64, 77⟩]

/-- lib/crypto/sha512.myr:318-477, two lines a row. -/
def rnd512 : List (RndLine 64 80) :=
  [   ⟨0, 1, 2, 3, 4, 5, 6, 7, 0x428a2f98d728ae22, 0⟩, ⟨7, 0, 1, 2, 3, 4, 5, 6, 0x7137449123ef65cd, 1⟩,
   ⟨6, 7, 0, 1, 2, 3, 4, 5, 0xb5c0fbcfec4d3b2f, 2⟩, ⟨5, 6, 7, 0, 1, 2, 3, 4, 0xe9b5dba58189dbbc, 3⟩,
   ⟨4, 5, 6, 7, 0, 1, 2, 3, 0x3956c25bf348b538, 4⟩, ⟨3, 4, 5, 6, 7, 0, 1, 2, 0x59f111f1b605d019, 5⟩,
   ⟨2, 3, 4, 5, 6, 7, 0, 1, 0x923f82a4af194f9b, 6⟩, ⟨1, 2, 3, 4, 5, 6, 7, 0, 0xab1c5ed5da6d8118, 7⟩,
   ⟨0, 1, 2, 3, 4, 5, 6, 7, 0xd807aa98a3030242, 8⟩, ⟨7, 0, 1, 2, 3, 4, 5, 6, 0x12835b0145706fbe, 9⟩,
   ⟨6, 7, 0, 1, 2, 3, 4, 5, 0x243185be4ee4b28c, 10⟩, ⟨5, 6, 7, 0, 1, 2, 3, 4, 0x550c7dc3d5ffb4e2, 11⟩,
   ⟨4, 5, 6, 7, 0, 1, 2, 3, 0x72be5d74f27b896f, 12⟩, ⟨3, 4, 5, 6, 7, 0, 1, 2, 0x80deb1fe3b1696b1, 13⟩,
   ⟨2, 3, 4, 5, 6, 7, 0, 1, 0x9bdc06a725c71235, 14⟩, ⟨1, 2, 3, 4, 5, 6, 7, 0, 0xc19bf174cf692694, 15⟩,
   ⟨0, 1, 2, 3, 4, 5, 6, 7, 0xe49b69c19ef14ad2, 16⟩, ⟨7, 0, 1, 2, 3, 4, 5, 6, 0xefbe4786384f25e3, 17⟩,
   ⟨6, 7, 0, 1, 2, 3, 4, 5, 0x0fc19dc68b8cd5b5, 18⟩, ⟨5, 6, 7, 0, 1, 2, 3, 4, 0x240ca1cc77ac9c65, 19⟩,
   ⟨4, 5, 6, 7, 0, 1, 2, 3, 0x2de92c6f592b0275, 20⟩, ⟨3, 4, 5, 6, 7, 0, 1, 2, 0x4a7484aa6ea6e483, 21⟩,
   ⟨2, 3, 4, 5, 6, 7, 0, 1, 0x5cb0a9dcbd41fbd4, 22⟩, ⟨1, 2, 3, 4, 5, 6, 7, 0, 0x76f988da831153b5, 23⟩,
   ⟨0, 1, 2, 3, 4, 5, 6, 7, 0x983e5152ee66dfab, 24⟩, ⟨7, 0, 1, 2, 3, 4, 5, 6, 0xa831c66d2db43210, 25⟩,
   ⟨6, 7, 0, 1, 2, 3, 4, 5, 0xb00327c898fb213f, 26⟩, ⟨5, 6, 7, 0, 1, 2, 3, 4, 0xbf597fc7beef0ee4, 27⟩,
   ⟨4, 5, 6, 7, 0, 1, 2, 3, 0xc6e00bf33da88fc2, 28⟩, ⟨3, 4, 5, 6, 7, 0, 1, 2, 0xd5a79147930aa725, 29⟩,
   ⟨2, 3, 4, 5, 6, 7, 0, 1, 0x06ca6351e003826f, 30⟩, ⟨1, 2, 3, 4, 5, 6, 7, 0, 0x142929670a0e6e70, 31⟩,
   ⟨0, 1, 2, 3, 4, 5, 6, 7, 0x27b70a8546d22ffc, 32⟩, ⟨7, 0, 1, 2, 3, 4, 5, 6, 0x2e1b21385c26c926, 33⟩,
   ⟨6, 7, 0, 1, 2, 3, 4, 5, 0x4d2c6dfc5ac42aed, 34⟩, ⟨5, 6, 7, 0, 1, 2, 3, 4, 0x53380d139d95b3df, 35⟩,
   ⟨4, 5, 6, 7, 0, 1, 2, 3, 0x650a73548baf63de, 36⟩, ⟨3, 4, 5, 6, 7, 0, 1, 2, 0x766a0abb3c77b2a8, 37⟩,
   ⟨2, 3, 4, 5, 6, 7, 0, 1, 0x81c2c92e47edaee6, 38⟩, ⟨1, 2, 3, 4, 5, 6, 7, 0, 0x92722c851482353b, 39⟩,
   ⟨0, 1, 2, 3, 4, 5, 6, 7, 0xa2bfe8a14cf10364, 40⟩, ⟨7, 0, 1, 2, 3, 4, 5, 6, 0xa81a664bbc423001, 41⟩,
   ⟨6, 7, 0, 1, 2, 3, 4, 5, 0xc24b8b70d0f89791, 42⟩, ⟨5, 6, 7, 0, 1, 2, 3, 4, 0xc76c51a30654be30, 43⟩,
   ⟨4, 5, 6, 7, 0, 1, 2, 3, 0xd192e819d6ef5218, 44⟩, ⟨3, 4, 5, 6, 7, 0, 1, 2, 0xd69906245565a910, 45⟩,
   ⟨2, 3, 4, 5, 6, 7, 0, 1, 0xf40e35855771202a, 46⟩, ⟨1, 2, 3, 4, 5, 6, 7, 0, 0x106aa07032bbd1b8, 47⟩,
   ⟨0, 1, 2, 3, 4, 5, 6, 7, 0x19a4c116b8d2d0c8, 48⟩, ⟨7, 0, 1, 2, 3, 4, 5, 6, 0x1e376c085141ab53, 49⟩,
   ⟨6, 7, 0, 1, 2, 3, 4, 5, 0x2748774cdf8eeb99, 50⟩, ⟨5, 6, 7, 0, 1, 2, 3, 4, 0x34b0bcb5e19b48a8, 51⟩,
   ⟨4, 5, 6, 7, 0, 1, 2, 3, 0x391c0cb3c5c95a63, 52⟩, ⟨3, 4, 5, 6, 7, 0, 1, 2, 0x4ed8aa4ae3418acb, 53⟩,
   ⟨2, 3, 4, 5, 6, 7, 0, 1, 0x5b9cca4f7763e373, 54⟩, ⟨1, 2, 3, 4, 5, 6, 7, 0, 0x682e6ff3d6b2b8a3, 55⟩,
   ⟨0, 1, 2, 3, 4, 5, 6, 7, 0x748f82ee5defb2fc, 56⟩, ⟨7, 0, 1, 2, 3, 4, 5, 6, 0x78a5636f43172f60, 57⟩,
   ⟨6, 7, 0, 1, 2, 3, 4, 5, 0x84c87814a1f0ab72, 58⟩, ⟨5, 6, 7, 0, 1, 2, 3, 4, 0x8cc702081a6439ec, 59⟩,
   ⟨4, 5, 6, 7, 0, 1, 2, 3, 0x90befffa23631e28, 60⟩, ⟨3, 4, 5, 6, 7, 0, 1, 2, 0xa4506cebde82bde9, 61⟩,
   ⟨2, 3, 4, 5, 6, 7, 0, 1, 0xbef9a3f7b2c67915, 62⟩, ⟨1, 2, 3, 4, 5, 6, 7, 0, 0xc67178f2e372532b, 63⟩,
   ⟨0, 1, 2, 3, 4, 5, 6, 7, 0xca273eceea26619c, 64⟩, ⟨7, 0, 1, 2, 3, 4, 5, 6, 0xd186b8c721c0c207, 65⟩,
   ⟨6, 7, 0, 1, 2, 3, 4, 5, 0xeada7dd6cde0eb1e, 66⟩, ⟨5, 6, 7, 0, 1, 2, 3, 4, 0xf57d4f7fee6ed178, 67⟩,
   ⟨4, 5, 6, 7, 0, 1, 2, 3, 0x06f067aa72176fba, 68⟩, ⟨3, 4, 5, 6, 7, 0, 1, 2, 0x0a637dc5a2c898a6, 69⟩,
   ⟨2, 3, 4, 5, 6, 7, 0, 1, 0x113f9804bef90dae, 70⟩, ⟨1, 2, 3, 4, 5, 6, 7, 0, 0x1b710b35131c471b, 71⟩,
   ⟨0, 1, 2, 3, 4, 5, 6, 7, 0x28db77f523047d84, 72⟩, ⟨7, 0, 1, 2, 3, 4, 5, 6, 0x32caab7b40c72493, 73⟩,
   ⟨6, 7, 0, 1, 2, 3, 4, 5, 0x3c9ebe0a15c9bebc, 74⟩, ⟨5, 6, 7, 0, 1, 2, 3, 4, 0x431d67c49c100d4c, 75⟩,
   ⟨4, 5, 6, 7, 0, 1, 2, 3, 0x4cc5d4becb3e42b6, 76⟩, ⟨3, 4, 5, 6, 7, 0, 1, 2, 0x597f299cfc657e2a, 77⟩,
   ⟨2, 3, 4, 5, 6, 7, 0, 1, 0x5fcb6fab3ad6faec, 78⟩, ⟨1, 2, 3, 4, 5, 6, 7, 0, 0x6c44198c4a475817, 79⟩]

/-- lib/crypto/sha256.myr:212-436 (`step`). -/
def sha256Step (x : Vector (BitVec 32) 8) (msg : List Byte) : Res (Vector (BitVec 32) 8) := do
  let s ← load 4 unBe msg [0, 1, 2, 3, 4, 5, 6, 7, 8, 9, 10, 11, 12, 13, 14, 15] (.replicate 64 0#32)
  let s := sch256.foldl (schExec cfg256) s
  let v := rnd256.foldl (rndExec cfg256 s) x
  .ok (Vector.zipWith (· + ·) x v)

/-- lib/crypto/sha512.myr:213-487 (`step`). -/
def sha512Step (x : Vector (BitVec 64) 8) (msg : List Byte) : Res (Vector (BitVec 64) 8) := do
  let s ← load 8 unBe64 msg [0, 1, 2, 3, 4, 5, 6, 7, 8, 9, 10, 11, 12, 13, 14, 15] (.replicate 80 0#64)
  let s := sch512.foldl (schExec cfg512) s
  let v := rnd512.foldl (rndExec cfg512 s) x
  .ok (Vector.zipWith (· + ·) x v)

/-! ## Storing the digest -/

/-- `r[i] = (v >> k : byte)` for a list of triples `(i, j, k)` with `v` the word
number `j` of the chaining value (lib/crypto/md5.myr:104-119, sha1.myr:108-127). -/
def putBytes {w m : Nat} (x : Vector (BitVec w) m) : List (Nat × Fin m × Nat) → List Byte → Res (List Byte)
  | [], r => .ok r
  | (i, j, k) :: t, r => do
    let r ← wrChk r i ((get x j >>> k).setWidth 8)
    putBytes x t r

/-- `pack(r[lo:hi], v)`: the slice is taken, then byte `i` of it is assigned
`(v >> k : byte)` for the pairs `(i, k)` (lib/crypto/sha256.myr:449-454,
sha512.myr:504-513). -/
def packAt {w : Nat} (r : List Byte) (lo hi : Nat) (v : BitVec w) (ps : List (Nat × Nat)) : Res (List Byte) := do
  let b ← slice r lo hi
  let b ← putBytes #v[v] (ps.map fun p => (p.1, 0, p.2)) b
  .ok (r.take lo ++ b ++ r.drop hi)

/-- The calls `pack(r[n*j : n*j+n], st.x[j])` for the `j` listed
(lib/crypto/sha256.myr:117-124 and 177-183, sha512.myr:125-132 and 179-184). -/
def packAll {w m : Nat} (n : Nat) (ps : List (Nat × Nat)) (x : Vector (BitVec w) m) :
    List (Fin m) → List Byte → Res (List Byte)
  | [], r => .ok r
  | j :: t, r => do
    let r ← packAt r (n * j.val) (n * j.val + n) (get x j) ps
    packAll n ps x t r

/-- lib/crypto/md5.myr:104-119. -/
def outMd5 : List (Nat × Fin 4 × Nat) :=
  [(0, 0, 0), (1, 0, 8), (2, 0, 16), (3, 0, 24), (4, 1, 0), (5, 1, 8), (6, 1, 16), (7, 1, 24),
   (8, 2, 0), (9, 2, 8), (10, 2, 16), (11, 2, 24), (12, 3, 0), (13, 3, 8), (14, 3, 16), (15, 3, 24)]

/-- lib/crypto/sha1.myr:108-127. -/
def outSha1 : List (Nat × Fin 5 × Nat) :=
  [(0, 0, 24), (1, 0, 16), (2, 0, 8), (3, 0, 0), (4, 1, 24), (5, 1, 16), (6, 1, 8), (7, 1, 0),
   (8, 2, 24), (9, 2, 16), (10, 2, 8), (11, 2, 0), (12, 3, 24), (13, 3, 16), (14, 3, 8), (15, 3, 0),
   (16, 4, 24), (17, 4, 16), (18, 4, 8), (19, 4, 0)]

/-! ## The implementations of the `hash` trait -/

/-- lib/crypto/hash.myr:4-11 (`trait hash`): the two constants and the three
functions. `hinit` leaves the buffered bytes as they are. `hfin` returns the
state and the destination. -/
structure Hash where
  X : Type
  Blocksz : Nat
  Hashsz : Nat
  hinit : St X → St X
  hadd : St X → List Byte → Res (St X)
  hfin : St X → List Byte → Res (St X × List Byte)

/-- lib/crypto/md5.myr:48-121. -/
def md5 : Hash where
  X := Vector (BitVec 32) 4
  Blocksz := 64
  Hashsz := 16
  hinit st := { st with x := #v[0x67452301, 0xefcdab89, 0x98badcfe, 0x10325476], msglen := 0#64 }
  hadd := hadd 64 false false md5Step
  hfin st r := do
    let st ← finish 64 8 lenLe md5Step st
    let r ← putBytes st.x outMd5 r
    .ok (st, r)

/-- lib/crypto/sha1.myr:48-129. -/
def sha1 : Hash where
  X := Vector (BitVec 32) 5
  Blocksz := 64
  Hashsz := 20
  hinit st := { st with x := #v[0x67452301, 0xefcdab89, 0x98badcfe, 0x10325476, 0xc3d2e1f0], msglen := 0#64 }
  hadd := hadd 64 false false sha1Step
  hfin st r := do
    let st ← finish 64 8 lenBe sha1Step st
    let r ← putBytes st.x outSha1 r
    .ok (st, r)

/-- lib/crypto/sha256.myr:74-126. -/
def sha256 : Hash where
  X := Vector (BitVec 32) 8
  Blocksz := 64
  Hashsz := 32
  hinit st := { st with
    x := #v[0x6a09e667, 0xbb67ae85, 0x3c6ef372, 0xa54ff53a, 0x510e527f, 0x9b05688c, 0x1f83d9ab, 0x5be0cd19]
    msglen := 0#64 }
  hadd := hadd 64 false true sha256Step
  hfin st r := do
    let st ← finish 64 8 lenBe sha256Step st
    let r ← packAll 4 unBe st.x [0, 1, 2, 3, 4, 5, 6, 7] r
    .ok (st, r)

/-- lib/crypto/sha256.myr:134-185. -/
def sha224 : Hash where
  X := Vector (BitVec 32) 8
  Blocksz := 64
  Hashsz := 28
  hinit st := { st with
    x := #v[0xc1059ed8, 0x367cd507, 0x3070dd17, 0xf70e5939, 0xffc00b31, 0x68581511, 0x64f98fa7, 0xbefa4fa4]
    msglen := 0#64 }
  hadd := hadd 64 false true sha256Step
  hfin st r := do
    let st ← finish 64 8 lenBe sha256Step st
    let r ← packAll 4 unBe st.x [0, 1, 2, 3, 4, 5, 6] r
    .ok (st, r)

/-- lib/crypto/sha512.myr:82-134. -/
def sha512 : Hash where
  X := Vector (BitVec 64) 8
  Blocksz := 128
  Hashsz := 64
  hinit st := { st with
    x := #v[0x6a09e667f3bcc908, 0xbb67ae8584caa73b, 0x3c6ef372fe94f82b, 0xa54ff53a5f1d36f1,
           0x510e527fade682d1, 0x9b05688c2b3e6c1f, 0x1f83d9abfb41bd6b, 0x5be0cd19137e2179]
    msglen := 0#64 }
  hadd := hadd 128 false true sha512Step
  hfin st r := do
    let st ← finish 128 16 lenBe512 sha512Step st
    let r ← packAll 8 unBe64 st.x [0, 1, 2, 3, 4, 5, 6, 7] r
    .ok (st, r)

/-- lib/crypto/sha512.myr:136-186. -/
def sha384 : Hash where
  X := Vector (BitVec 64) 8
  Blocksz := 128
  Hashsz := 48
  hinit st := { st with
    x := #v[0xCBBB9D5DC1059ED8, 0x629A292A367CD507, 0x9159015A3070DD17, 0x152FECD8F70E5939,
           0x67332667FFC00B31, 0x8EB44A8768581511, 0xDB0C2E0D64F98FA7, 0x47B5481DBEFA4FA4]
    msglen := 0#64 }
  hadd := hadd 128 false true sha512Step
  hfin st r := do
    let st ← finish 128 16 lenBe512 sha512Step st
    let r ← packAll 8 unBe64 st.x [0, 1, 2, 3, 4, 5] r
    .ok (st, r)

/-- Any number of `hadd` calls, one after the other (a client of
lib/crypto/hash.myr:9). -/
def Hash.adds (H : Hash) : St H.X → List (List Byte) → Res (St H.X)
  | st, [] => .ok st
  | st, d :: ds => do
    let st ← H.hadd st d
    H.adds st ds

/-- A client that initialises a state, adds the given pieces and asks for the
digest, as `md5`, `sha1`, `sha256` … do with one piece (lib/crypto/md5.myr:26-46,
sha1.myr:26-46, sha256.myr:29-71, sha512.myr:36-80). `t` is what the buffer
of the state holds at first, `r` the destination. -/
def Hash.digest (H : Hash) (x0 : H.X) (l0 : BitVec 64) (t : List Byte) (ds : List (List Byte)) (r : List Byte) :
    Res (List Byte) := do
  let st ← H.adds (H.hinit ⟨x0, t, l0⟩) ds
  let p ← H.hfin st r
  .ok p.2

/-! ## Keccak -/

/-- lib/crypto/sha3.myr:255-278, row by row: the element, and the two counts. -/
def rhoLines : List (Fin 25 × Nat × Nat) :=
  [   (10, 1, 63), (7, 3, 61), (11, 6, 58), (17, 10, 54), (18, 15, 49), (3, 21, 43),
   (5, 28, 36), (16, 36, 28), (8, 45, 19), (21, 55, 9), (24, 2, 62), (4, 14, 50),
   (15, 27, 37), (23, 41, 23), (19, 56, 8), (13, 8, 56), (12, 25, 39), (2, 43, 21),
   (20, 62, 2), (14, 18, 46), (22, 39, 25), (9, 61, 3), (6, 20, 44), (1, 44, 20)]

/-- lib/crypto/sha3.myr:330-339 (`rconst`). -/
def rconst : List (BitVec 64) :=
  [   0x0000000000000001, 0x0000000000008082, 0x800000000000808a, 0x8000000080008000,
   0x000000000000808b, 0x0000000080000001, 0x8000000080008081, 0x8000000000008009,
   0x000000000000008a, 0x0000000000000088, 0x0000000080008009, 0x000000008000000a,
   0x000000008000808b, 0x800000000000008b, 0x8000000000008089, 0x8000000000008003,
   0x8000000000008002, 0x8000000000000080, 0x000000000000800a, 0x800000008000000a,
   0x8000000080008081, 0x8000000000008080, 0x0000000080000001, 0x8000000080008008]

/-- lib/crypto/sha3.myr:209-250: `x[i] ^= t(i % 5)`, with the sums and the `t`s
taken before any assignment. -/
def theta (x : Vector (BitVec 64) 25) : Vector (BitVec 64) 25 :=
  let bc0 := get x 0 ^^^ get x 5 ^^^ get x 10 ^^^ get x 15 ^^^ get x 20
  let bc1 := get x 1 ^^^ get x 6 ^^^ get x 11 ^^^ get x 16 ^^^ get x 21
  let bc2 := get x 2 ^^^ get x 7 ^^^ get x 12 ^^^ get x 17 ^^^ get x 22
  let bc3 := get x 3 ^^^ get x 8 ^^^ get x 13 ^^^ get x 18 ^^^ get x 23
  let bc4 := get x 4 ^^^ get x 9 ^^^ get x 14 ^^^ get x 19 ^^^ get x 24
  let t0 := bc4 ^^^ rot bc1 1 63
  let t1 := bc0 ^^^ rot bc2 1 63
  let t2 := bc1 ^^^ rot bc3 1 63
  let t3 := bc2 ^^^ rot bc4 1 63
  let t4 := bc3 ^^^ rot bc0 1 63
  #v[get x 0 ^^^ t0, get x 1 ^^^ t1, get x 2 ^^^ t2, get x 3 ^^^ t3, get x 4 ^^^ t4,
    get x 5 ^^^ t0, get x 6 ^^^ t1, get x 7 ^^^ t2, get x 8 ^^^ t3, get x 9 ^^^ t4,
    get x 10 ^^^ t0, get x 11 ^^^ t1, get x 12 ^^^ t2, get x 13 ^^^ t3, get x 14 ^^^ t4,
    get x 15 ^^^ t0, get x 16 ^^^ t1, get x 17 ^^^ t2, get x 18 ^^^ t3, get x 19 ^^^ t4,
    get x 20 ^^^ t0, get x 21 ^^^ t1, get x 22 ^^^ t2, get x 23 ^^^ t3, get x 24 ^^^ t4]

/-- `t1 = x[i]; x[i] = ((t0 << l) | (t0 >> r)); t0 = t1` (lib/crypto/sha3.myr:255-278). -/
def rhoExec (p : (Vector (BitVec 64) 25) × BitVec 64) (n : Fin 25 × Nat × Nat) : (Vector (BitVec 64) 25) × BitVec 64 :=
  (upd p.1 n.1 (rot p.2 n.2.1 n.2.2), get p.1 n.1)

/-- lib/crypto/sha3.myr:254-278. -/
def rhopi (x : Vector (BitVec 64) 25) : Vector (BitVec 64) 25 := (rhoLines.foldl rhoExec (x, get x 1)).1

/-- One iteration of the loop of lib/crypto/sha3.myr:281-292. -/
def chiRow (i0 i1 i2 i3 i4 : Fin 25) (x : Vector (BitVec 64) 25) : Vector (BitVec 64) 25 :=
  let bc0 := get x i0
  let bc1 := get x i1
  let bc2 := get x i2
  let bc3 := get x i3
  let bc4 := get x i4
  let x := upd x i0 (get x i0 ^^^ (~~~bc1 &&& bc2))
  let x := upd x i1 (get x i1 ^^^ (~~~bc2 &&& bc3))
  let x := upd x i2 (get x i2 ^^^ (~~~bc3 &&& bc4))
  let x := upd x i3 (get x i3 ^^^ (~~~bc4 &&& bc0))
  upd x i4 (get x i4 ^^^ (~~~bc0 &&& bc1))

/-- lib/crypto/sha3.myr:281-292, the five iterations. -/
def chi (x : Vector (BitVec 64) 25) : Vector (BitVec 64) 25 :=
  chiRow 20 21 22 23 24 (chiRow 15 16 17 18 19 (chiRow 10 11 12 13 14 (chiRow 5 6 7 8 9 (chiRow 0 1 2 3 4 x))))

/-- One iteration of the loop of lib/crypto/sha3.myr:208-297, with the constant
of line 296. -/
def kround (x : Vector (BitVec 64) 25) (rc : BitVec 64) : Vector (BitVec 64) 25 :=
  let x := chi (rhopi (theta x))
  upd x 0 (get x 0 ^^^ rc)

/-- lib/crypto/sha3.myr:204-298 (`keccakf`); `Nrounds` (line 49) is the number
of constants. -/
def keccakf (x : Vector (BitVec 64) 25) : Vector (BitVec 64) 25 := rconst.foldl kround x

/-- `x[j] ^= std.getle64(buf[8*j : 8*j+8])` for the `j` listed
(lib/crypto/sha3.myr:301-309, 313-316, 320-323, 327). -/
def xorLanes (buf : List Byte) : List (Fin 25) → (Vector (BitVec 64) 25) → Res (Vector (BitVec 64) 25)
  | [], x => .ok x
  | j :: t, x => do
    let b ← slice buf (8 * j.val) (8 * j.val + 8)
    let v ← Endian.getle64 64 b
    xorLanes buf t (upd x j (get x j ^^^ v))

/-- lib/crypto/sha3.myr:300-328 (`addblock`). -/
def addblock (x : Vector (BitVec 64) 25) (buf : List Byte) : Res (Vector (BitVec 64) 25) := do
  let x ← xorLanes buf [0, 1, 2, 3, 4, 5, 6, 7, 8] x
  if buf.length ≤ 72 then .ok x
  else do
    let x ← xorLanes buf [9, 10, 11, 12] x
    if buf.length ≤ 104 then .ok x
    else do
      let x ← xorLanes buf [13, 14, 15, 16] x
      if buf.length ≤ 136 then .ok x
      else xorLanes buf [17] x

/-- `addblock(x, b); keccakf(x)` (lib/crypto/sha3.myr:192-193, 196-197, 175-176). -/
def keccakStep (x : Vector (BitVec 64) 25) (b : List Byte) : Res (Vector (BitVec 64) 25) := do
  let x ← addblock x b
  .ok (keccakf x)

/-- lib/crypto/sha3.myr:179-202 (`keccak`) with the callers' `st.msglen += …`
(lines 65, 93, 121, 150). `msglen` is a signed `std.size`: going beyond what it
holds is called undefined here; below that the code is that of `hadd`. -/
def kadd (B : Nat) (st : St (Vector (BitVec 64) 25)) (data : List Byte) : Res (St (Vector (BitVec 64) 25)) :=
  if st.msglen.toNat + data.length < 2 ^ 63 then hadd B true false keccakStep st data else .ub

/-- lib/crypto/sha3.myr:168-177 (`fin`). -/
def kfin (B : Nat) (st : St (Vector (BitVec 64) 25)) : Res (St (Vector (BitVec 64) 25)) := do
  let ntail := st.msglen.toNat % B
  let tail ← slfillFrom st.tail ntail 0#8
  let b ← rdChk tail ntail
  let tail ← wrChk tail ntail (b ||| 0x01#8)
  let b ← rdChk tail (tail.length - 1)
  let tail ← wrChk tail (tail.length - 1) (b ||| 0x80#8)
  let x ← keccakStep st.x tail
  .ok ⟨x, tail, st.msglen⟩

/-- `std.putle64(ret[8*j : 8*j+8], st.x[j])` for the `j` listed
(lib/crypto/sha3.myr:72-74, 100-103, 128-133, 157-164). -/
def putLanes (x : Vector (BitVec 64) 25) : List (Fin 25) → List Byte → Res (List Byte)
  | [], r => .ok r
  | j :: t, r => do
    let b ← slice r (8 * j.val) (8 * j.val + 8)
    let p ← Endian.putle b (get x j) 8
    putLanes x t (r.take (8 * j.val) ++ p.1 ++ r.drop (8 * j.val + 8))

/-- lib/crypto/sha3.myr:68-77 (`keccak224fin`): the last word is stored with
`std.putle32`. -/
def kout224 (x : Vector (BitVec 64) 25) (r : List Byte) : Res (List Byte) := do
  let r ← putLanes x [0, 1, 2] r
  let b ← slice r 24 28
  let p ← Endian.putle b (get x 3) 4
  .ok (r.take 24 ++ p.1 ++ r.drop 28)

/-- The initialisers (lib/crypto/sha3.myr:59-62, 87-90, 115-118, 137-140). -/
def kinit (st : St (Vector (BitVec 64) 25)) : St (Vector (BitVec 64) 25) := { st with x := .replicate 25 0#64, msglen := 0#64 }

/-- lib/crypto/sha3.myr:51-77. The digest is returned as an array; `hfin` is
given one to write to, as for the other hashes. -/
def keccak224 : Hash where
  X := Vector (BitVec 64) 25
  Blocksz := 144
  Hashsz := 28
  hinit := kinit
  hadd := kadd 144
  hfin st r := do
    let st ← kfin 144 st
    let r ← kout224 st.x r
    .ok (st, r)

/-- lib/crypto/sha3.myr:79-105. -/
def keccak256 : Hash where
  X := Vector (BitVec 64) 25
  Blocksz := 136
  Hashsz := 32
  hinit := kinit
  hadd := kadd 136
  hfin st r := do
    let st ← kfin 136 st
    let r ← putLanes st.x [0, 1, 2, 3] r
    .ok (st, r)

/-- lib/crypto/sha3.myr:107-135. -/
def keccak384 : Hash where
  X := Vector (BitVec 64) 25
  Blocksz := 104
  Hashsz := 48
  hinit := kinit
  hadd := kadd 104
  hfin st r := do
    let st ← kfin 104 st
    let r ← putLanes st.x [0, 1, 2, 3, 4, 5] r
    .ok (st, r)

/-- lib/crypto/sha3.myr:137-166. -/
def keccak512 : Hash where
  X := Vector (BitVec 64) 25
  Blocksz := 72
  Hashsz := 64
  hinit := kinit
  hadd := kadd 72
  hfin st r := do
    let st ← kfin 72 st
    let r ← putLanes st.x [0, 1, 2, 3, 4, 5, 6, 7] r
    .ok (st, r)

/-! ## HMAC -/

/-- lib/crypto/hmac.myr:7-10 (`hmac(@h)`). -/
structure Hmac (H : Hash) where
  inner : St H.X
  outer : St H.X

/-- lib/crypto/hmac.myr:56-59: `ik[i] = k[i] ^ v` for `i` below the block size
(both loops have this shape); the entries from `i` on, `n` of them. -/
def xorKey (k : List Byte) (v : Byte) (i : Nat) : Nat → Res (List Byte)
  | 0 => .ok []
  | n + 1 => do
    let b ← rdChk k i
    let t ← xorKey k v (i + 1) n
    .ok ((b ^^^ v) :: t)

/-- lib/crypto/hmac.myr:47-53: the block `k`, from the uninitialised array
`k0` of 128 bytes, and the inner state. -/
def hmacKey (H : Hash) (inner : St H.X) (k0 : List Byte) (key : List Byte) : Res (St H.X × List Byte) := do
  let k ← slcpAt k0 0 H.Blocksz (List.replicate H.Blocksz 0#8)
  if H.Blocksz < key.length then do
    let st ← H.hadd (H.hinit inner) key
    let d ← slice k 0 H.Hashsz
    let p ← H.hfin st d
    .ok (p.1, p.2 ++ k.drop H.Hashsz)
  else do
    let k ← slcpAt k 0 key.length key
    .ok (inner, k)

/-- lib/crypto/hmac.myr:40-64 (`hmacinit`); `h` holds the states before. -/
def hmacinit (H : Hash) (h : Hmac H) (k0 : List Byte) (key : List Byte) : Res (Hmac H) := do
  let p ← hmacKey H h.inner k0 key
  let ik ← xorKey p.2 0x36#8 0 H.Blocksz
  let ok ← xorKey p.2 0x5c#8 0 H.Blocksz
  let inner ← H.hadd (H.hinit p.1) ik
  let outer ← H.hadd (H.hinit h.outer) ok
  .ok ⟨inner, outer⟩

/-- lib/crypto/hmac.myr:67-69 (`hmacadd`). -/
def hmacadd (H : Hash) (h : Hmac H) (msg : List Byte) : Res (Hmac H) := do
  let inner ← H.hadd h.inner msg
  .ok ⟨inner, h.outer⟩

/-- lib/crypto/hmac.myr:71-75 (`hmacfin`). -/
def hmacfin (H : Hash) (h : Hmac H) (dst : List Byte) : Res (List Byte) := do
  let p ← H.hfin h.inner dst
  let outer ← H.hadd h.outer p.2
  let q ← H.hfin outer p.2
  .ok q.2

/-- Any number of `hmacadd` calls (a client of lib/crypto/hmac.myr:15). -/
def hmacadds (H : Hash) : Hmac H → List (List Byte) → Res (Hmac H)
  | h, [] => .ok h
  | h, d :: ds => do
    let h ← hmacadd H h d
    hmacadds H h ds

/-- A client that asks for the MAC of the pieces, as `hmacsha256` and
`hmacsha224` do with one piece (lib/crypto/hmac.myr:19-37). `h` and `k0` are
what the state and the local array hold at first, `r` is the destination. -/
def hmac (H : Hash) (h : Hmac H) (k0 : List Byte) (key : List Byte) (ds : List (List Byte)) (r : List Byte) :
    Res (List Byte) := do
  let h ← hmacinit H h k0 key
  let h ← hmacadds H h ds
  hmacfin H h r

end Verif.Crypto
