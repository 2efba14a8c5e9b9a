import Verif.Prelude
import Mathlib.Data.Fin.VecNotation

/-!
# What the hash functions are to compute

MD5 as in RFC 1321, SHA-1 and the SHA-2 family as in FIPS 180-4, Keccak as in
the Keccak reference (FIPS 202 with the original padding, that is without the
two suffix bits SHA-3 adds) and HMAC as in RFC 2104. Nothing here mentions the
model.
-/

namespace Verif.Crypto.Spec

/-! ## Bytes -/

/-- The number written by the bytes, most significant first (FIPS 180-4, 3.1). -/
def beNum (l : List Byte) : Nat := l.foldl (fun v b => 256 * v + b.toNat) 0

/-- The number written by the bytes, least significant first (RFC 1321, 2). -/
def leNum : List Byte → Nat
  | [] => 0
  | b :: t => b.toNat + 256 * leNum t

/-- A number in `n` bytes, most significant first (FIPS 180-4, 3.1). -/
def be (n v : Nat) : List Byte := (List.range n).map fun i => BitVec.ofNat 8 (v / 256 ^ (n - 1 - i))

/-- A number in `n` bytes, least significant first (RFC 1321, 2). -/
def le (n v : Nat) : List Byte := (List.range n).map fun i => BitVec.ofNat 8 (v / 256 ^ i)

/-- The bytes of a message from `n * i` on, `n` of them. -/
def part (n : Nat) (m : List Byte) (i : Nat) : List Byte := (m.drop (n * i)).take n

/-! ## Iterated hashing -/

/-- A padded message is cut into blocks of `B` bytes, which are worked into the
chaining value in order (FIPS 180-4, 6; RFC 1321, 3.4). -/
def chain {X : Type} (B : Nat) (f : X → List Byte → X) (iv : X) (m : List Byte) : X :=
  (List.range (m.length / B)).foldl (fun x i => f x (part B m i)) iv

/-- The number of zero bytes put in so that `n + 1` bytes, the zeros and `L`
bytes make up whole blocks. -/
def zeros (B L n : Nat) : Nat := (B - (n + 1 + L) % B) % B

/-- FIPS 180-4, 5.1 and RFC 1321, 3.1-3.2: a one bit and zeros, then the length
in bits in `L` bytes. -/
def pad (B L : Nat) (enc : Nat → Nat → List Byte) (m : List Byte) : List Byte :=
  m ++ 0x80#8 :: List.replicate (zeros B L m.length) 0#8 ++ enc L (8 * m.length)

/-! ## MD5 (RFC 1321, 3.4) -/

/-- The functions F, G, H and I. -/
def md5Fun (i : Nat) (x y z : BitVec 32) : BitVec 32 :=
  if i < 16 then (x &&& y) ||| (~~~x &&& z)
  else if i < 32 then (x &&& z) ||| (y &&& ~~~z)
  else if i < 48 then x ^^^ y ^^^ z
  else y ^^^ (x ||| ~~~z)

/-- The table T of RFC 1321 (the integer part of 4294967296 times the absolute
value of the sine of i+1). -/
def md5T : List (BitVec 32) :=
  [0xd76aa478, 0xe8c7b756, 0x242070db, 0xc1bdceee, 0xf57c0faf, 0x4787c62a, 0xa8304613, 0xfd469501,
   0x698098d8, 0x8b44f7af, 0xffff5bb1, 0x895cd7be, 0x6b901122, 0xfd987193, 0xa679438e, 0x49b40821,
   0xf61e2562, 0xc040b340, 0x265e5a51, 0xe9b6c7aa, 0xd62f105d, 0x02441453, 0xd8a1e681, 0xe7d3fbc8,
   0x21e1cde6, 0xc33707d6, 0xf4d50d87, 0x455a14ed, 0xa9e3e905, 0xfcefa3f8, 0x676f02d9, 0x8d2a4c8a,
   0xfffa3942, 0x8771f681, 0x6d9d6122, 0xfde5380c, 0xa4beea44, 0x4bdecfa9, 0xf6bb4b60, 0xbebfbc70,
   0x289b7ec6, 0xeaa127fa, 0xd4ef3085, 0x04881d05, 0xd9d4d039, 0xe6db99e5, 0x1fa27cf8, 0xc4ac5665,
   0xf4292244, 0x432aff97, 0xab9423a7, 0xfc93a039, 0x655b59c3, 0x8f0ccc92, 0xffeff47d, 0x85845dd1,
   0x6fa87e4f, 0xfe2ce6e0, 0xa3014314, 0x4e0811a1, 0xf7537e82, 0xbd3af235, 0x2ad7d2bb, 0xeb86d391]

/-- Which word of the block operation `i` takes. -/
def md5K (i : Nat) : Nat :=
  if i < 16 then i else if i < 32 then (5 * i + 1) % 16 else if i < 48 then (3 * i + 5) % 16 else 7 * i % 16

/-- How far operation `i` rotates. -/
def md5S (i : Nat) : Nat :=
  ([[7, 12, 17, 22], [5, 9, 14, 20], [4, 11, 16, 23], [6, 10, 15, 21]].getD (i / 16) []).getD (i % 4) 0

/-- Operation `i` on A, B, C, D: `B + ((A + F(B,C,D) + X[k] + T[i]) <<< s)`
becomes the new B, and the others move on by one. -/
def md5Op (blk : List Byte) (v : Fin 4 → BitVec 32) (i : Nat) : Fin 4 → BitVec 32 :=
  let x := BitVec.ofNat 32 (leNum (part 4 blk (md5K i)))
  ![v 3, v 1 + (v 0 + md5Fun i (v 1) (v 2) (v 3) + x + md5T.getD i 0).rotateLeft (md5S i), v 1, v 2]

/-- The 64 operations and the final additions. -/
def md5Block (h : Fin 4 → BitVec 32) (blk : List Byte) : Fin 4 → BitVec 32 :=
  let v := (List.range 64).foldl (md5Op blk) h
  fun i => h i + v i

/-- MD5 of a message (RFC 1321, 3). -/
def md5 (m : List Byte) : List Byte :=
  let h := chain 64 md5Block ![0x67452301, 0xefcdab89, 0x98badcfe, 0x10325476] (pad 64 8 le m)
  (List.ofFn h).flatMap fun w => le 4 w.toNat

/-! ## SHA-1 (FIPS 180-4, 4.1.1, 4.2.1, 6.1) -/

/-- f_t. -/
def sha1Fun (t : Nat) (x y z : BitVec 32) : BitVec 32 :=
  if t < 20 then (x &&& y) ^^^ (~~~x &&& z)
  else if 40 ≤ t ∧ t < 60 then (x &&& y) ^^^ (x &&& z) ^^^ (y &&& z)
  else x ^^^ y ^^^ z

/-- K_t. -/
def sha1Const (t : Nat) : BitVec 32 :=
  if t < 20 then 0x5a827999 else if t < 40 then 0x6ed9eba1 else if t < 60 then 0x8f1bbcdc else 0xca62c1d6

/-- The message schedule W_t. -/
def sha1W (blk : List Byte) (t : Nat) : BitVec 32 :=
  if t < 16 then BitVec.ofNat 32 (beNum (part 4 blk t))
  else (sha1W blk (t - 3) ^^^ sha1W blk (t - 8) ^^^ sha1W blk (t - 14) ^^^ sha1W blk (t - 16)).rotateLeft 1
termination_by t
decreasing_by all_goals omega

/-- One iteration on a, b, c, d, e. -/
def sha1Op (blk : List Byte) (v : Fin 5 → BitVec 32) (t : Nat) : Fin 5 → BitVec 32 :=
  ![(v 0).rotateLeft 5 + sha1Fun t (v 1) (v 2) (v 3) + v 4 + sha1Const t + sha1W blk t,
    v 0, (v 1).rotateLeft 30, v 2, v 3]

/-- The 80 iterations and the final additions. -/
def sha1Block (h : Fin 5 → BitVec 32) (blk : List Byte) : Fin 5 → BitVec 32 :=
  let v := (List.range 80).foldl (sha1Op blk) h
  fun i => h i + v i

/-- SHA-1 of a message. -/
def sha1 (m : List Byte) : List Byte :=
  let h := chain 64 sha1Block ![0x67452301, 0xefcdab89, 0x98badcfe, 0x10325476, 0xc3d2e1f0] (pad 64 8 be m)
  (List.ofFn h).flatMap fun w => be 4 w.toNat

/-! ## SHA-2 (FIPS 180-4, 4.1.2, 4.1.3, 4.2.2, 4.2.3, 5.3, 6.2-6.5) -/

/-- The primes in order. -/
def isPrime (p : Nat) : Bool := 2 ≤ p && (List.range p).all fun d => d < 2 || p % d != 0

/-- The first eighty primes. -/
def primes : List Nat := (List.range 410).filter isPrime

/-- The largest `r < 2 ^ b` above `r0` in steps of powers of two with
`r ^ k ≤ n`: the integer `k`-th root, bit by bit. -/
def rootFrom (k n : Nat) : Nat → Nat → Nat
  | 0, r => r
  | b + 1, r => rootFrom k n b (if (r + 2 ^ b) ^ k ≤ n then r + 2 ^ b else r)

/-- The first `w` bits of the fractional part of the `k`-th root of `p`: the
integer `k`-th root of `p * 2 ^ (k * w)`, without the integer part. -/
def rootBits (k w p : Nat) : BitVec w := BitVec.ofNat w (rootFrom k (p * 2 ^ (k * w)) (w + 8) 0)

/-- What differs between the two halves of the family. -/
structure Family (w : Nat) where
  rounds : Nat
  S0 : BitVec w → BitVec w
  S1 : BitVec w → BitVec w
  s0 : BitVec w → BitVec w
  s1 : BitVec w → BitVec w

/-- FIPS 180-4, 4.1.2. -/
def f256 : Family 32 where
  rounds := 64
  S0 x := x.rotateRight 2 ^^^ x.rotateRight 13 ^^^ x.rotateRight 22
  S1 x := x.rotateRight 6 ^^^ x.rotateRight 11 ^^^ x.rotateRight 25
  s0 x := x.rotateRight 7 ^^^ x.rotateRight 18 ^^^ x >>> 3
  s1 x := x.rotateRight 17 ^^^ x.rotateRight 19 ^^^ x >>> 10

/-- FIPS 180-4, 4.1.3. -/
def f512 : Family 64 where
  rounds := 80
  S0 x := x.rotateRight 28 ^^^ x.rotateRight 34 ^^^ x.rotateRight 39
  S1 x := x.rotateRight 14 ^^^ x.rotateRight 18 ^^^ x.rotateRight 41
  s0 x := x.rotateRight 1 ^^^ x.rotateRight 8 ^^^ x >>> 7
  s1 x := x.rotateRight 19 ^^^ x.rotateRight 61 ^^^ x >>> 6

/-- Ch. -/
def ch {w : Nat} (x y z : BitVec w) : BitVec w := (x &&& y) ^^^ (~~~x &&& z)

/-- Maj. -/
def maj {w : Nat} (x y z : BitVec w) : BitVec w := (x &&& y) ^^^ (x &&& z) ^^^ (y &&& z)

/-- K_t: the cube roots of the primes (4.2.2, 4.2.3). -/
def sha2K (w t : Nat) : BitVec w := rootBits 3 w (primes.getD t 0)

/-- The message schedule W_t. -/
def sha2W {w : Nat} (F : Family w) (blk : List Byte) (t : Nat) : BitVec w :=
  if t < 16 then BitVec.ofNat w (beNum (part (w / 8) blk t))
  else F.s1 (sha2W F blk (t - 2)) + sha2W F blk (t - 7) + F.s0 (sha2W F blk (t - 15)) + sha2W F blk (t - 16)
termination_by t
decreasing_by all_goals omega

/-- One iteration on a … h. -/
def sha2Op {w : Nat} (F : Family w) (blk : List Byte) (v : Fin 8 → BitVec w) (t : Nat) : Fin 8 → BitVec w :=
  let t1 := v 7 + F.S1 (v 4) + ch (v 4) (v 5) (v 6) + sha2K w t + sha2W F blk t
  let t2 := F.S0 (v 0) + maj (v 0) (v 1) (v 2)
  ![t1 + t2, v 0, v 1, v 2, v 3 + t1, v 4, v 5, v 6]

/-- The iterations and the final additions. -/
def sha2Block {w : Nat} (F : Family w) (h : Fin 8 → BitVec w) (blk : List Byte) : Fin 8 → BitVec w :=
  let v := (List.range F.rounds).foldl (sha2Op F blk) h
  fun i => h i + v i

/-- The initial value from the square roots of the first eight primes (5.3.3, 5.3.5). -/
def iv (w : Nat) : Fin 8 → BitVec w := fun i => rootBits 2 w (primes.getD i.val 0)

/-- The initial value from the ninth to sixteenth primes (5.3.4). -/
def iv384 : Fin 8 → BitVec 64 := fun i => rootBits 2 64 (primes.getD (8 + i.val) 0)

/-- The second 32 bits of the same roots (5.3.2). -/
def iv224 : Fin 8 → BitVec 32 := fun i => (iv384 i).setWidth 32

/-- SHA-256 of a message. -/
def sha256 (m : List Byte) : List Byte :=
  (List.ofFn (chain 64 (sha2Block f256) (iv 32) (pad 64 8 be m))).flatMap fun w => be 4 w.toNat

/-- SHA-224 of a message. -/
def sha224 (m : List Byte) : List Byte :=
  ((List.ofFn (chain 64 (sha2Block f256) iv224 (pad 64 8 be m))).flatMap fun w => be 4 w.toNat).take 28

/-- SHA-512 of a message. -/
def sha512 (m : List Byte) : List Byte :=
  (List.ofFn (chain 128 (sha2Block f512) (iv 64) (pad 128 16 be m))).flatMap fun w => be 8 w.toNat

/-- SHA-384 of a message. -/
def sha384 (m : List Byte) : List Byte :=
  ((List.ofFn (chain 128 (sha2Block f512) iv384 (pad 128 16 be m))).flatMap fun w => be 8 w.toNat).take 48

/-! ## Keccak (FIPS 202, 3.2; the sponge of section 4 with pad10*1) -/

/-- A state: lane A[x, y]. -/
abbrev KState := Fin 5 → Fin 5 → BitVec 64

/-- θ (3.2.1). -/
def kTheta (A : KState) : KState := fun x y =>
  let C := fun x => A x 0 ^^^ A x 1 ^^^ A x 2 ^^^ A x 3 ^^^ A x 4
  A x y ^^^ (C (x - 1) ^^^ (C (x + 1)).rotateLeft 1)

/-- The walk of 3.2.2: where it is after `t` steps from (1, 0). -/
def walk : Nat → Fin 5 × Fin 5
  | 0 => (1, 0)
  | t + 1 => let p := walk t; (p.2, 2 * p.1 + 3 * p.2)

/-- The offset of a lane (3.2.2): (t+1)(t+2)/2 if the walk is there after `t < 24`
steps, 0 for the lane it misses. -/
def kOffset (x y : Fin 5) : Nat :=
  match (List.range 24).find? fun t => walk t == (x, y) with
  | some t => (t + 1) * (t + 2) / 2 % 64
  | none => 0

/-- ρ (3.2.2). -/
def kRho (A : KState) : KState := fun x y => (A x y).rotateLeft (kOffset x y)

/-- π (3.2.3). -/
def kPi (A : KState) : KState := fun x y => A (x + 3 * y) x

/-- χ (3.2.4). -/
def kChi (A : KState) : KState := fun x y => A x y ^^^ (~~~A (x + 1) y &&& A (x + 2) y)

/-- One step of the register of 3.2.5 (Algorithm 5), bit 0 first. -/
def lfsr (R : List Bool) : List Bool :=
  let R := false :: R
  let b := R.getD 8 false
  ((List.range 9).map fun i => if i = 0 ∨ i = 4 ∨ i = 5 ∨ i = 6 then xor (R.getD i false) b else R.getD i false).take 8

/-- The register after `t` steps from 10000000. -/
def lfsrAt : Nat → List Bool
  | 0 => [true, false, false, false, false, false, false, false]
  | t + 1 => lfsr (lfsrAt t)

/-- rc(t) (3.2.5). -/
def rcBit (t : Nat) : Bool := (lfsrAt (t % 255)).getD 0 false

/-- RC of round `i` (3.2.5): bit 2^j - 1 is rc(j + 7 i). -/
def kRC (i : Nat) : BitVec 64 :=
  (List.range 7).foldl (fun v j => if rcBit (j + 7 * i) then v ||| BitVec.ofNat 64 (2 ^ (2 ^ j - 1)) else v) 0#64

/-- ι (3.2.5). -/
def kIota (i : Nat) (A : KState) : KState := fun x y => if x = 0 ∧ y = 0 then A x y ^^^ kRC i else A x y

/-- Keccak-f[1600]: 24 rounds (3.3, 3.4). -/
def keccakF (A : KState) : KState :=
  (List.range 24).foldl (fun A i => kIota i (kChi (kPi (kRho (kTheta A))))) A

/-- Adding a block to the state: lane A[x, y] gets the bytes from 8 (5 y + x) on,
least significant first (3.1.2), as far as the block goes. -/
def kXor (A : KState) (blk : List Byte) : KState := fun x y =>
  if 8 * (5 * y.val + x.val) < blk.length then A x y ^^^ BitVec.ofNat 64 (leNum (part 8 blk (5 * y.val + x.val)))
  else A x y

/-- pad10*1 on whole bytes: a one bit, zeros, a one bit, up to a whole number of
blocks. -/
def kPad (B : Nat) (m : List Byte) : List Byte :=
  if m.length % B = B - 1 then m ++ [0x81#8]
  else m ++ 0x01#8 :: List.replicate (B - 2 - m.length % B) 0#8 ++ [0x80#8]

/-- The bytes of a state in order (3.1.3). -/
def kBytes (A : KState) : List Byte :=
  (List.range 25).flatMap fun i => le 8 (A (Fin.ofNat 5 i) (Fin.ofNat 5 (i / 5))).toNat

/-- Keccak with digests of `d` bytes; the block size is 200 - 2 d. -/
def keccak (d : Nat) (m : List Byte) : List Byte :=
  (kBytes (chain (200 - 2 * d) (fun A b => keccakF (kXor A b)) (fun _ _ => 0#64) (kPad (200 - 2 * d) m))).take d

/-! ## HMAC (RFC 2104, 2) -/

/-- The key filled up to a block, long keys being hashed first. -/
def hmacKey (B : Nat) (H : List Byte → List Byte) (key : List Byte) : List Byte :=
  let k := if B < key.length then H key else key
  k ++ List.replicate (B - k.length) 0#8

/-- H(K ⊕ opad, H(K ⊕ ipad, text)). -/
def hmac (B : Nat) (H : List Byte → List Byte) (key text : List Byte) : List Byte :=
  let k := hmacKey B H key
  H (k.map (· ^^^ 0x5c#8) ++ H (k.map (· ^^^ 0x36#8) ++ text))

end Verif.Crypto.Spec
