import Verif.Endian.Model

/-!
# The AES block cipher of lib/crypto

Model of `aes.myr`: the bit-sliced implementation, in which a word holds one bit of each byte of up to
four blocks.  Nothing fixes the types of the lengths `key.len`, `m.len` and `c.len`, so they are `int`s of
32 bits (parse/infer.c:2232-2238, 6/simp.c:321-336): the low 32 bits of the lengths of the slices.  The
arrays of eight words `q` are only used with constant indices below eight; they are records
here, so that no bounds check of them can fail.  Arrays that nothing has been written to hold arbitrary
values, which are parameters.
-/

namespace Verif.Aes

/-- Eight of a kind. -/
structure Oct (α : Type) where
  (q0 q1 q2 q3 q4 q5 q6 q7 : α)
deriving DecidableEq, Repr

/-- `uint64[8]`. -/
abbrev Q := Oct (BitVec 64)

/-- All members changed alike. -/
def Oct.map {α β : Type} (f : α → β) (o : Oct α) : Oct β :=
  ⟨f o.q0, f o.q1, f o.q2, f o.q3, f o.q4, f o.q5, f o.q6, f o.q7⟩

/-! ## The S-box circuit -/

/-- A variable of `sbox` (aes.myr:446-459), by its letter and number. -/
abbrev Var := Nat

/-- `x0` to `x7`, aes.myr:446. -/
abbrev x (i : Nat) : Var := i
/-- `y1` to `y21`, aes.myr:447-449. -/
abbrev y (i : Nat) : Var := 10 + i
/-- `z0` to `z17`, aes.myr:450-451. -/
abbrev z (i : Nat) : Var := 40 + i
/-- `t0` to `t67`, aes.myr:452-458. -/
abbrev t (i : Nat) : Var := 60 + i
/-- `s0` to `s7`, aes.myr:459. -/
abbrev s (i : Nat) : Var := 130 + i

/-- A statement of `sbox`: `d = a ^ b`, `d = a & b` or `d = a ^ ~b`, aes.myr:473-597. -/
inductive Gate where
  | xor (d a b : Var) | and (d a b : Var) | xnor (d a b : Var)

/-- The statements of `sbox`, aes.myr:473-597, in order. -/
def gates : List Gate := [
    .xor (y 14) (x 3) (x 5), .xor (y 13) (x 0) (x 6), .xor (y 9) (x 0) (x 3),
    .xor (y 8) (x 0) (x 5), .xor (t 0) (x 1) (x 2), .xor (y 1) (t 0) (x 7),
    .xor (y 4) (y 1) (x 3), .xor (y 12) (y 13) (y 14), .xor (y 2) (y 1) (x 0),
    .xor (y 5) (y 1) (x 6), .xor (y 3) (y 5) (y 8), .xor (t 1) (x 4) (y 12),
    .xor (y 15) (t 1) (x 5), .xor (y 20) (t 1) (x 1), .xor (y 6) (y 15) (x 7),
    .xor (y 10) (y 15) (t 0), .xor (y 11) (y 20) (y 9), .xor (y 7) (x 7) (y 11),
    .xor (y 17) (y 10) (y 11), .xor (y 19) (y 10) (y 8), .xor (y 16) (t 0) (y 11),
    .xor (y 21) (y 13) (y 16), .xor (y 18) (x 0) (y 16), .and (t 2) (y 12) (y 15),
    .and (t 3) (y 3) (y 6), .xor (t 4) (t 3) (t 2), .and (t 5) (y 4) (x 7),
    .xor (t 6) (t 5) (t 2), .and (t 7) (y 13) (y 16), .and (t 8) (y 5) (y 1),
    .xor (t 9) (t 8) (t 7), .and (t 10) (y 2) (y 7), .xor (t 11) (t 10) (t 7),
    .and (t 12) (y 9) (y 11), .and (t 13) (y 14) (y 17), .xor (t 14) (t 13) (t 12),
    .and (t 15) (y 8) (y 10), .xor (t 16) (t 15) (t 12), .xor (t 17) (t 4) (t 14),
    .xor (t 18) (t 6) (t 16), .xor (t 19) (t 9) (t 14), .xor (t 20) (t 11) (t 16),
    .xor (t 21) (t 17) (y 20), .xor (t 22) (t 18) (y 19), .xor (t 23) (t 19) (y 21),
    .xor (t 24) (t 20) (y 18), .xor (t 25) (t 21) (t 22), .and (t 26) (t 21) (t 23),
    .xor (t 27) (t 24) (t 26), .and (t 28) (t 25) (t 27), .xor (t 29) (t 28) (t 22),
    .xor (t 30) (t 23) (t 24), .xor (t 31) (t 22) (t 26), .and (t 32) (t 31) (t 30),
    .xor (t 33) (t 32) (t 24), .xor (t 34) (t 23) (t 33), .xor (t 35) (t 27) (t 33),
    .and (t 36) (t 24) (t 35), .xor (t 37) (t 36) (t 34), .xor (t 38) (t 27) (t 36),
    .and (t 39) (t 29) (t 38), .xor (t 40) (t 25) (t 39), .xor (t 41) (t 40) (t 37),
    .xor (t 42) (t 29) (t 33), .xor (t 43) (t 29) (t 40), .xor (t 44) (t 33) (t 37),
    .xor (t 45) (t 42) (t 41), .and (z 0) (t 44) (y 15), .and (z 1) (t 37) (y 6),
    .and (z 2) (t 33) (x 7), .and (z 3) (t 43) (y 16), .and (z 4) (t 40) (y 1),
    .and (z 5) (t 29) (y 7), .and (z 6) (t 42) (y 11), .and (z 7) (t 45) (y 17),
    .and (z 8) (t 41) (y 10), .and (z 9) (t 44) (y 12), .and (z 10) (t 37) (y 3),
    .and (z 11) (t 33) (y 4), .and (z 12) (t 43) (y 13), .and (z 13) (t 40) (y 5),
    .and (z 14) (t 29) (y 2), .and (z 15) (t 42) (y 9), .and (z 16) (t 45) (y 14),
    .and (z 17) (t 41) (y 8), .xor (t 46) (z 15) (z 16), .xor (t 47) (z 10) (z 11),
    .xor (t 48) (z 5) (z 13), .xor (t 49) (z 9) (z 10), .xor (t 50) (z 2) (z 12),
    .xor (t 51) (z 2) (z 5), .xor (t 52) (z 7) (z 8), .xor (t 53) (z 0) (z 3),
    .xor (t 54) (z 6) (z 7), .xor (t 55) (z 16) (z 17), .xor (t 56) (z 12) (t 48),
    .xor (t 57) (t 50) (t 53), .xor (t 58) (z 4) (t 46), .xor (t 59) (z 3) (t 54),
    .xor (t 60) (t 46) (t 57), .xor (t 61) (z 14) (t 57), .xor (t 62) (t 52) (t 58),
    .xor (t 63) (t 49) (t 58), .xor (t 64) (z 4) (t 59), .xor (t 65) (t 61) (t 62),
    .xor (t 66) (z 1) (t 63), .xor (s 0) (t 59) (t 63), .xnor (s 6) (t 56) (t 62),
    .xnor (s 7) (t 48) (t 60), .xor (t 67) (t 64) (t 65), .xor (s 3) (t 53) (t 66),
    .xor (s 4) (t 51) (t 66), .xor (s 5) (t 47) (t 65), .xnor (s 1) (t 64) (s 3),
    .xnor (s 2) (t 55) (t 67)]

/-- The operations on the words (or, in the proofs, on single bits). -/
structure Ops (α : Type) where
  (xor and : α → α → α)
  (not : α → α)

/-- Words of 64 bits. -/
def words : Ops (BitVec 64) := ⟨(· ^^^ ·), (· &&& ·), (~~~ ·)⟩

/-- The variables assigned so far, the last first. -/
abbrev Env (α : Type) := List (Var × α)

/-- The value of a variable; each is assigned before it is used (`dflt` is never the answer). -/
def Env.get {α : Type} (dflt : α) : Env α → Var → α
  | [], _ => dflt
  | (d, a) :: r, v => if d = v then a else Env.get dflt r v

/-- A statement carried out. -/
def exec {α : Type} (O : Ops α) (dflt : α) (e : Env α) : Gate → Env α
  | .xor d a b => (d, O.xor (e.get dflt a) (e.get dflt b)) :: e
  | .and d a b => (d, O.and (e.get dflt a) (e.get dflt b)) :: e
  | .xnor d a b => (d, O.xor (e.get dflt a) (O.not (e.get dflt b))) :: e

/-- `sbox`, aes.myr:433-607: x0 is the last word of `q`. -/
def sboxWith {α : Type} (O : Ops α) (dflt : α) (q : Oct α) : Oct α :=
  let e := gates.foldl (exec O dflt) [(x 0, q.q7), (x 1, q.q6), (x 2, q.q5), (x 3, q.q4), (x 4, q.q3), (x 5, q.q2), (x 6, q.q1), (x 7, q.q0)]
  ⟨e.get dflt (s 7), e.get dflt (s 6), e.get dflt (s 5), e.get dflt (s 4), e.get dflt (s 3), e.get dflt (s 2), e.get dflt (s 1), e.get dflt (s 0)⟩

/-- `sbox`, aes.myr:433-607. -/
def sbox (q : Q) : Q := sboxWith words 0 q

/-- The linear part of `invsbox`, aes.myr:612-627, and again 631-646. -/
def invaff (q : Q) : Q :=
  let q0 := ~~~ q.q0
  let q1 := ~~~ q.q1
  let q2 := q.q2
  let q3 := q.q3
  let q4 := q.q4
  let q5 := ~~~ q.q5
  let q6 := ~~~ q.q6
  let q7 := q.q7
  { q7 := q1 ^^^ q4 ^^^ q6
    q6 := q0 ^^^ q3 ^^^ q5
    q5 := q7 ^^^ q2 ^^^ q4
    q4 := q6 ^^^ q1 ^^^ q3
    q3 := q5 ^^^ q0 ^^^ q2
    q2 := q4 ^^^ q7 ^^^ q1
    q1 := q3 ^^^ q6 ^^^ q0
    q0 := q2 ^^^ q5 ^^^ q7 }

/-- `invsbox`, aes.myr:609-647. -/
def invsbox (q : Q) : Q := invaff (sbox (invaff q))

/-! ## The other steps of a round -/

/-- `rotr32`, aes.myr:650-652. -/
def rotr32 (x : BitVec 64) : BitVec 64 := x <<< 32 ||| x >>> 32

/-- The rotation `r0 = (q0 >> 16) | (q0 << 48)`, aes.myr:275-282 and 306-313. -/
def rot16 (x : BitVec 64) : BitVec 64 := x >>> 16 ||| x <<< 48

/-- `addroundkey`, aes.myr:222-231. -/
def addroundkey (q k : Q) : Q :=
  ⟨q.q0 ^^^ k.q0, q.q1 ^^^ k.q1, q.q2 ^^^ k.q2, q.q3 ^^^ k.q3, q.q4 ^^^ k.q4, q.q5 ^^^ k.q5, q.q6 ^^^ k.q6, q.q7 ^^^ k.q7⟩

/-- A word of `shiftrows`, aes.myr:237-244. -/
def shiftrow (x : BitVec 64) : BitVec 64 :=
  (x &&& 0x000000000000FFFF#64)
    ||| ((x &&& 0x00000000FFF00000#64) >>> 4)
    ||| ((x &&& 0x00000000000F0000#64) <<< 12)
    ||| ((x &&& 0x0000FF0000000000#64) >>> 8)
    ||| ((x &&& 0x000000FF00000000#64) <<< 8)
    ||| ((x &&& 0xF000000000000000#64) >>> 12)
    ||| ((x &&& 0x0FFF000000000000#64) <<< 4)

/-- `shiftrows`, aes.myr:233-246. -/
def shiftrows (q : Q) : Q := q.map shiftrow

/-- A word of `invshiftrows`, aes.myr:252-259. -/
def invshiftrow (x : BitVec 64) : BitVec 64 :=
  (x &&& 0x000000000000FFFF#64)
    ||| ((x &&& 0x000000000FFF0000#64) <<< 4)
    ||| ((x &&& 0x00000000F0000000#64) >>> 12)
    ||| ((x &&& 0x000000FF00000000#64) <<< 8)
    ||| ((x &&& 0x0000FF0000000000#64) >>> 8)
    ||| ((x &&& 0x000F000000000000#64) <<< 12)
    ||| ((x &&& 0xFFF0000000000000#64) >>> 4)

/-- `invshiftrows`, aes.myr:248-261. -/
def invshiftrows (q : Q) : Q := q.map invshiftrow

/-- `mixcols`, aes.myr:263-292. -/
def mixcols (q : Q) : Q :=
  let q0 := q.q0
  let q1 := q.q1
  let q2 := q.q2
  let q3 := q.q3
  let q4 := q.q4
  let q5 := q.q5
  let q6 := q.q6
  let q7 := q.q7
  let r0 := rot16 q0
  let r1 := rot16 q1
  let r2 := rot16 q2
  let r3 := rot16 q3
  let r4 := rot16 q4
  let r5 := rot16 q5
  let r6 := rot16 q6
  let r7 := rot16 q7
  { q0 := q7 ^^^ r7 ^^^ r0 ^^^ rotr32 (q0 ^^^ r0)
    q1 := q0 ^^^ r0 ^^^ q7 ^^^ r7 ^^^ r1 ^^^ rotr32 (q1 ^^^ r1)
    q2 := q1 ^^^ r1 ^^^ r2 ^^^ rotr32 (q2 ^^^ r2)
    q3 := q2 ^^^ r2 ^^^ q7 ^^^ r7 ^^^ r3 ^^^ rotr32 (q3 ^^^ r3)
    q4 := q3 ^^^ r3 ^^^ q7 ^^^ r7 ^^^ r4 ^^^ rotr32 (q4 ^^^ r4)
    q5 := q4 ^^^ r4 ^^^ r5 ^^^ rotr32 (q5 ^^^ r5)
    q6 := q5 ^^^ r5 ^^^ r6 ^^^ rotr32 (q6 ^^^ r6)
    q7 := q6 ^^^ r6 ^^^ r7 ^^^ rotr32 (q7 ^^^ r7) }

/-- `invmixcols`, aes.myr:294-323. -/
def invmixcols (q : Q) : Q :=
  let q0 := q.q0
  let q1 := q.q1
  let q2 := q.q2
  let q3 := q.q3
  let q4 := q.q4
  let q5 := q.q5
  let q6 := q.q6
  let q7 := q.q7
  let r0 := rot16 q0
  let r1 := rot16 q1
  let r2 := rot16 q2
  let r3 := rot16 q3
  let r4 := rot16 q4
  let r5 := rot16 q5
  let r6 := rot16 q6
  let r7 := rot16 q7
  { q0 := q5 ^^^ q6 ^^^ q7 ^^^ r0 ^^^ r5 ^^^ r7 ^^^ rotr32 (q0 ^^^ q5 ^^^ q6 ^^^ r0 ^^^ r5)
    q1 := q0 ^^^ q5 ^^^ r0 ^^^ r1 ^^^ r5 ^^^ r6 ^^^ r7 ^^^ rotr32 (q1 ^^^ q5 ^^^ q7 ^^^ r1 ^^^ r5 ^^^ r6)
    q2 := q0 ^^^ q1 ^^^ q6 ^^^ r1 ^^^ r2 ^^^ r6 ^^^ r7 ^^^ rotr32 (q0 ^^^ q2 ^^^ q6 ^^^ r2 ^^^ r6 ^^^ r7)
    q3 := q0 ^^^ q1 ^^^ q2 ^^^ q5 ^^^ q6 ^^^ r0 ^^^ r2 ^^^ r3 ^^^ r5 ^^^ rotr32 (q0 ^^^ q1 ^^^ q3 ^^^ q5 ^^^ q6 ^^^ q7 ^^^ r0 ^^^ r3 ^^^ r5 ^^^ r7)
    q4 := q1 ^^^ q2 ^^^ q3 ^^^ q5 ^^^ r1 ^^^ r3 ^^^ r4 ^^^ r5 ^^^ r6 ^^^ r7 ^^^ rotr32 (q1 ^^^ q2 ^^^ q4 ^^^ q5 ^^^ q7 ^^^ r1 ^^^ r4 ^^^ r5 ^^^ r6)
    q5 := q2 ^^^ q3 ^^^ q4 ^^^ q6 ^^^ r2 ^^^ r4 ^^^ r5 ^^^ r6 ^^^ r7 ^^^ rotr32 (q2 ^^^ q3 ^^^ q5 ^^^ q6 ^^^ r2 ^^^ r5 ^^^ r6 ^^^ r7)
    q6 := q3 ^^^ q4 ^^^ q5 ^^^ q7 ^^^ r3 ^^^ r5 ^^^ r6 ^^^ r7 ^^^ rotr32 (q3 ^^^ q4 ^^^ q6 ^^^ q7 ^^^ r3 ^^^ r6 ^^^ r7)
    q7 := q4 ^^^ q5 ^^^ q6 ^^^ r4 ^^^ r6 ^^^ r7 ^^^ rotr32 (q4 ^^^ q5 ^^^ q7 ^^^ r4 ^^^ r7) }

/-! ## Blocks to words and back -/

/-- The spreading of the bytes of a word in `interleavein`, e.g. `x0`, aes.myr:336-355. -/
def spread (w : BitVec 32) : BitVec 64 :=
  let x := w.zeroExtend 64
  let x := (x ||| x <<< 16) &&& 0x0000FFFF0000FFFF#64
  (x ||| x <<< 8) &&& 0x00FF00FF00FF00FF#64

/-- `interleavein`, aes.myr:333-358: the words for `q0#` and `q1#`. -/
def interleavein (w0 w1 w2 w3 : BitVec 32) : BitVec 64 × BitVec 64 :=
  (spread w0 ||| spread w2 <<< 8, spread w1 ||| spread w3 <<< 8)

/-- The gathering of the bytes of a word in `interleaveout`, from `x0 = q0 & …` on, aes.myr:364-379. -/
def gather (x : BitVec 64) : BitVec 32 :=
  let x := x &&& 0x00FF00FF00FF00FF#64
  let x := (x ||| x >>> 8) &&& 0x0000FFFF0000FFFF#64
  x.truncate 32 ||| (x >>> 16).truncate 32

/-- `interleaveout`, aes.myr:361-380. -/
def interleaveout (q0 q1 : BitVec 64) : BitVec 32 × BitVec 32 × BitVec 32 × BitVec 32 :=
  (gather q0, gather q1, gather (q0 >>> 8), gather (q1 >>> 8))

/-- `swap`, aes.myr:424-431. -/
def swap (kl kh : BitVec 64) (n : Nat) (a b : BitVec 64) : BitVec 64 × BitVec 64 :=
  ((a &&& kl) ||| ((b &&& kl) <<< n), ((a &&& kh) >>> n) ||| (b &&& kh))

/-- `Kl2`, `Kh2` and so on, aes.myr:418-423. -/
def swap1 := swap 0x5555555555555555#64 0xAAAAAAAAAAAAAAAA#64 1
/-- `Kl4` and `Kh4`, aes.myr:420-421. -/
def swap2 := swap 0x3333333333333333#64 0xCCCCCCCCCCCCCCCC#64 2
/-- `Kl8` and `Kh8`, aes.myr:422-423. -/
def swap4 := swap 0x0F0F0F0F0F0F0F0F#64 0xF0F0F0F0F0F0F0F0#64 4

/-- `ortho`, aes.myr:391-394. -/
def ortho1 (q : Q) : Q :=
  { q0 := (swap1 q.q0 q.q1).1, q1 := (swap1 q.q0 q.q1).2
    q2 := (swap1 q.q2 q.q3).1, q3 := (swap1 q.q2 q.q3).2
    q4 := (swap1 q.q4 q.q5).1, q5 := (swap1 q.q4 q.q5).2
    q6 := (swap1 q.q6 q.q7).1, q7 := (swap1 q.q6 q.q7).2 }

/-- `ortho`, aes.myr:396-399. -/
def ortho2 (q : Q) : Q :=
  { q0 := (swap2 q.q0 q.q2).1, q2 := (swap2 q.q0 q.q2).2
    q1 := (swap2 q.q1 q.q3).1, q3 := (swap2 q.q1 q.q3).2
    q4 := (swap2 q.q4 q.q6).1, q6 := (swap2 q.q4 q.q6).2
    q5 := (swap2 q.q5 q.q7).1, q7 := (swap2 q.q5 q.q7).2 }

/-- `ortho`, aes.myr:401-404. -/
def ortho4 (q : Q) : Q :=
  { q0 := (swap4 q.q0 q.q4).1, q4 := (swap4 q.q0 q.q4).2
    q1 := (swap4 q.q1 q.q5).1, q5 := (swap4 q.q1 q.q5).2
    q2 := (swap4 q.q2 q.q6).1, q6 := (swap4 q.q2 q.q6).2
    q3 := (swap4 q.q3 q.q7).1, q7 := (swap4 q.q3 q.q7).2 }

/-- `ortho`, aes.myr:390-405. -/
def ortho (q : Q) : Q := ortho4 (ortho2 (ortho1 q))

/-! ## The key -/

/-- `subword`, aes.myr:407-416. -/
def subword (w : BitVec 32) : BitVec 32 :=
  (ortho (sbox (ortho ⟨w.zeroExtend 64, 0, 0, 0, 0, 0, 0, 0⟩))).q0.truncate 32

/-- `Rcon`, aes.myr:41. -/
def rcon : List (BitVec 32) := [0x01, 0x02, 0x04, 0x08, 0x10, 0x20, 0x40, 0x80, 0x1B, 0x36]

/-- `skey[i>>2] = std.getle32(key[i:i+4])`, aes.myr:58-60, from word `i` on. -/
def loadkey (key : List Byte) (skey : List (BitVec 32)) (i : Nat) : Nat → Res (List (BitVec 32))
  | 0 => .ok skey
  | n + 1 => do
    let w ← slice key (4 * i) (4 * i + 4) >>= Endian.getle32 32
    let skey ← wrChk skey i w
    loadkey key skey (i + 1) n

/-- The changes of `tmp` in aes.myr:65-70. -/
def keystep (nk : Nat) (tmp : BitVec 32) (j k : Nat) : Res (BitVec 32) :=
  if j = 0 then do
    let r ← rdChk rcon k
    pure (subword (tmp <<< 24 ||| tmp >>> 8) ^^^ r)
  else if nk > 6 ∧ j = 4 then pure (subword tmp)
  else pure tmp

/-- The loop aes.myr:64-78, `n` rounds of it from `i` on. -/
def keyloop (nk : Nat) (skey : List (BitVec 32)) (tmp : BitVec 32) (i j k : Nat) : Nat → Res (List (BitVec 32))
  | 0 => .ok skey
  | n + 1 => do
    let tmp ← keystep nk tmp j k
    let o ← rdChk skey (i - nk)
    let tmp := tmp ^^^ o
    let skey ← wrChk skey i tmp
    if j + 1 = nk then keyloop nk skey tmp (i + 1) 0 (k + 1) n
    else keyloop nk skey tmp (i + 1) (j + 1) k n

/-- The words for four words of the expanded key, aes.myr:82-99. -/
def compress (w0 w1 w2 w3 : BitVec 32) : BitVec 64 × BitVec 64 :=
  let (a, b) := interleavein w0 w1 w2 w3
  let q := ortho ⟨a, a, a, a, b, b, b, b⟩
  ((q.q0 &&& 0x1111111111111111#64) ||| (q.q1 &&& 0x2222222222222222#64)
      ||| (q.q2 &&& 0x4444444444444444#64) ||| (q.q3 &&& 0x8888888888888888#64),
    (q.q4 &&& 0x1111111111111111#64) ||| (q.q5 &&& 0x2222222222222222#64)
      ||| (q.q6 &&& 0x4444444444444444#64) ||| (q.q7 &&& 0x8888888888888888#64))

/-- The loop aes.myr:80-101, `n` rounds of it from the round key `i` on. -/
def comploop (skey : List (BitVec 32)) (out : List (BitVec 64)) (i : Nat) : Nat → Res (List (BitVec 64))
  | 0 => .ok out
  | n + 1 => do
    let ws ← slice skey (4 * i) (4 * i + 4)
    let w0 ← rdChk ws 0
    let w1 ← rdChk ws 1
    let w2 ← rdChk ws 2
    let w3 ← rdChk ws 3
    let out ← wrChk out (2 * i) (compress w0 w1 w2 w3).1
    let out ← wrChk out (2 * i + 1) (compress w0 w1 w2 w3).2
    comploop skey out (i + 1) n

/-- `aesctx`, aes.myr:30-34 (`accum` is not used). -/
structure Ctx where
  nrounds : Nat
  skey : List (BitVec 64)
deriving DecidableEq, Repr

/-- The low 32 bits of a length. As an `int` they are negative from 2^31 on; what is compared here
is equal or not whether they are taken as signed or not. -/
def low (n : Nat) : Nat := n % 2 ^ 32

/-- The number of rounds for a key whose length has the low bits `n`, aes.myr:49-54. -/
def nrounds (n : Nat) : Res Nat :=
  if n = 16 then pure 10
  else if n = 24 then pure 12
  else if n = 32 then pure 14
  else Res.abort

/-- `aeskeysched`, aes.myr:43-102: `x` is the context before, `junk` the array `skey` (of 60 words)
before anything is written to it. -/
def keysched (x : Ctx) (junk : List (BitVec 32)) (key : List Byte) : Res Ctx := do
  let nrounds ← nrounds (low key.length)
  let nk := low key.length >>> 2
  let nkf := (nrounds + 1) <<< 2
  let skey ← loadkey key junk 0 nk
  let tmp ← rdChk skey (nk - 1)
  let skey ← keyloop nk skey tmp nk 0 0 (nkf - nk)
  let out ← comploop skey x.skey 0 (nrounds + 1)
  pure ⟨nrounds, out⟩

/-- A word of `expand`, e.g. `x1 = key[u]`, …, `(x1 << 4) - x1`, aes.myr:174-185. -/
def widen (m : BitVec 64) (n : Nat) (k : BitVec 64) : BitVec 64 :=
  let x := (k &&& m) >>> n
  x <<< 4 - x

/-- `expand`, aes.myr:166-189: `n` rounds from `u` on. -/
def expand (expkey key : List (BitVec 64)) (u : Nat) : Nat → Res (List (BitVec 64))
  | 0 => .ok expkey
  | n + 1 => do
    let k ← rdChk key u
    let expkey ← wrChk expkey (4 * u + 0) (widen 0x1111111111111111#64 0 k)
    let expkey ← wrChk expkey (4 * u + 1) (widen 0x2222222222222222#64 1 k)
    let expkey ← wrChk expkey (4 * u + 2) (widen 0x4444444444444444#64 2 k)
    let expkey ← wrChk expkey (4 * u + 3) (widen 0x8888888888888888#64 3 k)
    expand expkey key (u + 1) n

/-! ## Encryption and decryption -/

/-- The eight words of `sk`, as read by `addroundkey`, aes.myr:223-230. -/
def oct (l : List (BitVec 64)) : Res Q := do
  let a ← rdChk l 0
  let b ← rdChk l 1
  let c ← rdChk l 2
  let d ← rdChk l 3
  let e ← rdChk l 4
  let f ← rdChk l 5
  let g ← rdChk l 6
  let h ← rdChk l 7
  pure ⟨a, b, c, d, e, f, g, h⟩

/-- `addroundkey(q, skey[i*8:i*8+8])`, aes.myr:199. -/
def addkey (skey : List (BitVec 64)) (i : Nat) (q : Q) : Res Q := do
  let k ← slice skey (i * 8) (i * 8 + 8) >>= oct
  pure (addroundkey q k)

/-- The rounds of `encrypt64`, aes.myr:195-200, `n` of them from `i` on. -/
def encrounds (skey : List (BitVec 64)) (i : Nat) (q : Q) : Nat → Res Q
  | 0 => .ok q
  | n + 1 => do
    let q ← addkey skey i (mixcols (shiftrows (sbox q)))
    encrounds skey (i + 1) q n

/-- `encrypt64`, aes.myr:191-205. -/
def encrypt64 (nrounds : Nat) (skey : List (BitVec 64)) (q : Q) : Res Q := do
  let k ← oct skey
  let q := addroundkey q k
  let q ← encrounds skey 1 q (nrounds - 1)
  addkey skey nrounds (shiftrows (sbox q))

/-- The rounds of `decrypt64`, aes.myr:211-216, from `u` down. -/
def decrounds (skey : List (BitVec 64)) (q : Q) : Nat → Res Q
  | 0 => .ok q
  | u + 1 => do
    let q ← addkey skey (u + 1) (invsbox (invshiftrows q))
    decrounds skey (invmixcols q) u

/-- `decrypt64`, aes.myr:207-220. -/
def decrypt64 (nrounds : Nat) (skey : List (BitVec 64)) (q : Q) : Res Q := do
  let q ← addkey skey nrounds q
  let q ← decrounds skey q (nrounds - 1)
  addkey skey 0 (invsbox (invshiftrows q))

/-- `std.putle32(c[4*i:4*i+4], w)`, aes.myr:125-128 and 156-159. -/
def putword (c : List Byte) (i : Nat) (w : BitVec 32) : Res (List Byte) := do
  let b ← slice c (4 * i) (4 * i + 4)
  let p ← Endian.putle b (w.setWidth 64) 4
  pure (c.take (4 * i) ++ p.1 ++ c.drop (4 * i + 4))

/-- The four words of a block, aes.myr:114-117 and 145-148. -/
def getwords (m : List Byte) : Res (BitVec 32 × BitVec 32 × BitVec 32 × BitVec 32) := do
  let w0 ← slice m 0 4 >>= Endian.getle32 32
  let w1 ← slice m 4 8 >>= Endian.getle32 32
  let w2 ← slice m 8 12 >>= Endian.getle32 32
  let w3 ← slice m 12 16 >>= Endian.getle32 32
  pure (w0, w1, w2, w3)

/-- The words of a block to be worked on, aes.myr:119-123 and 150-154; `q` is what the words held before. -/
def through (work : Q → Res Q) (q : Q) (w : BitVec 32 × BitVec 32 × BitVec 32 × BitVec 32) :
    Res (Q × BitVec 32 × BitVec 32 × BitVec 32 × BitVec 32) := do
  let ab := interleavein w.1 w.2.1 w.2.2.1 w.2.2.2
  let q ← work (ortho { q with q0 := ab.1, q4 := ab.2 })
  let q := ortho q
  pure (q, interleaveout q.q0 q.q4)

/-- The four words written, aes.myr:125-128 and 156-159. -/
def putwords (c : List Byte) (w : BitVec 32 × BitVec 32 × BitVec 32 × BitVec 32) : Res (List Byte) := do
  let c ← putword c 0 w.1
  let c ← putword c 1 w.2.1
  let c ← putword c 2 w.2.2.1
  putword c 3 w.2.2.2

/-- The loops of `aesencrypt` and `aesdecrypt`, aes.myr:113-132 and 144-163: the input is the `mn` bytes of
the memory from `mo` on, the output the `cn` bytes from `co` on. -/
def blocks (work : Q → Res Q) : Nat → Q → List Byte → Nat → Nat → Nat → Nat → Res (List Byte)
  | 0, _, _, _, _, _, _ => .spin
  | fuel + 1, q, mem, mo, mn, co, cn =>
    if low mn ≠ 0 then do
      let w ← getwords ((mem.drop mo).take mn)
      let r ← through work q w
      let c ← putwords ((mem.drop co).take cn) r.2
      let mem := mem.take co ++ c ++ mem.drop (co + cn)
      if mn < 16 ∨ cn < 16 then .ub else blocks work fuel r.1 mem (mo + 16) (mn - 16) (co + 16) (cn - 16)
    else .ok mem

/-- What `aesencrypt` and `aesdecrypt` share, aes.myr:109-113 and 140-144: `q` and `junk` are what the arrays
`q` and `expkey` (of 240 words) hold at first. -/
def crypt (work : Nat → List (BitVec 64) → Q → Res Q) (x : Ctx) (q : Q) (junk : List (BitVec 64)) (mem : List Byte)
    (mo mn co cn : Nat) : Res (List Byte) :=
  if low mn % 16 = 0 ∧ low mn = low cn then do
    let expkey ← expand junk x.skey 0 ((x.nrounds + 1) * 2)
    blocks (work x.nrounds expkey) (mn / 16 + 1) q mem mo mn co cn
  else .abort

/-- `aesencrypt`, aes.myr:104-133: `m` is the `mn` bytes of the memory from `mo` on, `c` the `cn` bytes from `co` on. -/
def encrypt (x : Ctx) (q : Q) (junk : List (BitVec 64)) (mem : List Byte) (mo mn co cn : Nat) : Res (List Byte) :=
  crypt encrypt64 x q junk mem mo mn co cn

/-- `aesdecrypt`, aes.myr:135-164: `c` is the `cn` bytes of the memory from `co` on, `m` the `mn` bytes from `mo` on. -/
def decrypt (x : Ctx) (q : Q) (junk : List (BitVec 64)) (mem : List Byte) (co cn mo mn : Nat) : Res (List Byte) :=
  crypt decrypt64 x q junk mem co cn mo mn

end Verif.Aes
