import Verif.Prelude

/-!
# Model of /repo/lib/std/{getint,putint,endian}.myr

The generic type `@a` is a bit width `w` (8, 16, 32 or 64) and a signedness.  Shifts have the
machine's semantics: the count is taken modulo 64 for 64-bit operands and modulo 32 for
narrower ones (x86 `shl`/`shr`/`sar`).
-/

namespace Verif.Endian

/-- The effective shift count for operands of `w` bits (x86, not code of /repo). -/
def cnt (w n : Nat) : Nat := if w = 64 then n % 64 else n % 32

/-- `x << n` at width `w`. -/
def shl {w : Nat} (x : BitVec w) (n : Nat) : BitVec w := x <<< cnt w n

/-- `(buf[i] : @a) << n`, e.g. getint.myr:27. -/
def part (w : Nat) (buf : List Byte) (i n : Nat) : Res (BitVec w) := do
  let b ← rdChk buf i
  pure (shl (b.setWidth w) n)

/-- `getbe64`, getint.myr:26-35. -/
def getbe64 (w : Nat) (buf : List Byte) : Res (BitVec w) := do
  let a ← part w buf 0 56
  let b ← part w buf 1 48
  let c ← part w buf 2 40
  let d ← part w buf 3 32
  let e ← part w buf 4 24
  let f ← part w buf 5 16
  let g ← part w buf 6 8
  let h ← part w buf 7 0
  pure (a ||| b ||| c ||| d ||| e ||| f ||| g ||| h)

/-- `getle64`, getint.myr:37-46. -/
def getle64 (w : Nat) (buf : List Byte) : Res (BitVec w) := do
  let a ← part w buf 0 0
  let b ← part w buf 1 8
  let c ← part w buf 2 16
  let d ← part w buf 3 24
  let e ← part w buf 4 32
  let f ← part w buf 5 40
  let g ← part w buf 6 48
  let h ← part w buf 7 56
  pure (a ||| b ||| c ||| d ||| e ||| f ||| g ||| h)

/-- `getbe32`, getint.myr:55-60. -/
def getbe32 (w : Nat) (buf : List Byte) : Res (BitVec w) := do
  let a ← part w buf 0 24
  let b ← part w buf 1 16
  let c ← part w buf 2 8
  let d ← part w buf 3 0
  pure (a ||| b ||| c ||| d)

/-- `getle32`, getint.myr:62-67. -/
def getle32 (w : Nat) (buf : List Byte) : Res (BitVec w) := do
  let a ← part w buf 0 0
  let b ← part w buf 1 8
  let c ← part w buf 2 16
  let d ← part w buf 3 24
  pure (a ||| b ||| c ||| d)

/-- `getbe16`, getint.myr:76-79. -/
def getbe16 (w : Nat) (buf : List Byte) : Res (BitVec w) := do
  let a ← part w buf 0 8
  let b ← part w buf 1 0
  pure (a ||| b)

/-- `getle16`, getint.myr:81-84. -/
def getle16 (w : Nat) (buf : List Byte) : Res (BitVec w) := do
  let a ← part w buf 0 0
  let b ← part w buf 1 8
  pure (a ||| b)

/-- `getbe8`, `getle8` and `gethost8`, getint.myr:86-96. -/
def get8 (w : Nat) (buf : List Byte) : Res (BitVec w) := part w buf 0 0

/-- The little-endian value of `n` bytes in memory (x86 loads; not code of /repo). -/
def hostVal : List Byte → Nat
  | [] => 0
  | b :: bs => b.toNat + 256 * hostVal bs

/-- `gethost64`/`gethost32`/`gethost16`, getint.myr:19-24, 48-53, 69-74: `sz` is the size of
the local variable and the asserted length, `n` the number of bytes copied into it.  Copying
more bytes than the variable has is undefined, and so is reading outside of `buf`. -/
def gethost (w sz n : Nat) (buf : List Byte) : Res (BitVec w) :=
  if buf.length < sz then .abort
  else if n > sz ∨ n > buf.length then .ub
  else .ok ((BitVec.ofNat (8 * sz) (hostVal (buf.take n))).signExtend w)

/-- `gethost64`, getint.myr:19-24. -/
def gethost64 (w : Nat) (buf : List Byte) : Res (BitVec w) := gethost w 8 8 buf

/-- `gethost32`, getint.myr:48-53. -/
def gethost32 (w : Nat) (buf : List Byte) : Res (BitVec w) := gethost w 4 4 buf

/-- `gethost16`, getint.myr:69-74: four bytes are copied into an `int16`. -/
def gethost16 (w : Nat) (buf : List Byte) : Res (BitVec w) := gethost w 2 4 buf

/-- `putbe`, putint.myr:39-47; `k` rounds to go. -/
def putbeLoop (val : BitVec 64) (n : Nat) : Nat → List Byte → Res (List Byte)
  | 0, buf => .ok buf
  | k + 1, buf => do
    let i := n - (k + 1)
    let x := val >>> cnt 64 (8 * (n - i - 1))
    let buf ← wrChk buf i ((x &&& 0xff#64).setWidth 8)
    putbeLoop val n k buf

/-- `putbe`, putint.myr:39-47. -/
def putbe (buf : List Byte) (val : BitVec 64) (n : Nat) : Res (List Byte × Nat) := do
  let buf ← putbeLoop val n n buf
  pure (buf, n)

/-- `putle`, putint.myr:49-55; `k` rounds to go. -/
def putleLoop (n : Nat) : Nat → BitVec 64 → List Byte → Res (List Byte)
  | 0, _, buf => .ok buf
  | k + 1, val, buf => do
    let buf ← wrChk buf (n - (k + 1)) ((val &&& 0xff#64).setWidth 8)
    putleLoop n k (val >>> 8) buf

/-- `putle`, putint.myr:49-55. -/
def putle (buf : List Byte) (val : BitVec 64) (n : Nat) : Res (List Byte × Nat) := do
  let buf ← putleLoop n n val buf
  pure (buf, n)

/-- The `n` bytes of a value in memory (x86 stores; not code of /repo). -/
def hostBytes : Nat → Nat → List Byte
  | 0, _ => []
  | n + 1, v => BitVec.ofNat 8 v :: hostBytes n (v / 256)

/-- `puthost`, putint.myr:20-24, for an `n` byte type; `val` is already converted. -/
def puthost (buf : List Byte) (n : Nat) (val : BitVec (8 * n)) : Res (List Byte × Nat) :=
  if buf.length < n then .abort
  else .ok (hostBytes n val.toNat ++ buf.drop n, n)

/-- The conversion `(v : uint64)` of putint.myr:26-37 from a type of `w` bits. -/
def toU64 (signed : Bool) {w : Nat} (v : BitVec w) : BitVec 64 :=
  if signed then v.signExtend 64 else v.setWidth 64

/-- The loop of `hosttonet`, endian.myr:13-17 (`nettohost`, 26-30, is the same text): `v >>= 8`
is arithmetic for signed types. -/
def swapLoop (signed : Bool) {w : Nat} : Nat → BitVec w → BitVec w → BitVec w
  | 0, ret, _ => ret
  | n + 1, ret, v =>
    let ret := shl ret 8
    let ret := ret ||| (v &&& BitVec.ofNat w 0xff)
    swapLoop signed n ret (if signed then v.sshiftRight (cnt w 8) else v >>> cnt w 8)

/-- `hosttonet`, endian.myr:8-19. -/
def hosttonet (signed : Bool) {w : Nat} (v : BitVec w) : BitVec w := swapLoop signed (w / 8) 0#w v

/-- `nettohost`, endian.myr:21-32. -/
def nettohost (signed : Bool) {w : Nat} (v : BitVec w) : BitVec w := swapLoop signed (w / 8) 0#w v

end Verif.Endian
