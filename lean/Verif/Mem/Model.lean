import Verif.Prelude

/-!
# Model of the memory primitives

/repo/lib/std/memops-impl+posixy-x64.s, memops-impl+plan9-x64.s and memops-impl.myr.
Memory is a function from addresses to bytes.  Addresses are integers; the code compares
them as signed 64-bit numbers, so the correspondence needs all touched addresses to be
below 2^63 (user space).  Lengths are naturals below 2^63: `shrq $3`, `andq $7` and
`andq $~7` are `/ 8`, `% 8` and `- % 8`.
-/

namespace Verif.Mem

/-- Memory contents (modelling device). -/
abbrev Memory := Int → Byte

/-- A one byte store (modelling device). -/
def store (m : Memory) (a : Int) (v : Byte) : Memory := fun x => if x = a then v else m x

/-- `rep movsb` with count `n`, direction `dir` (1 after `cld`, -1 after `std`): memops-impl+posixy-x64.s:19
and 25; returns memory and the final %rdi, %rsi. -/
def repMovsb (dir : Int) : Nat → Memory → Int → Int → Memory × Int × Int
  | 0, m, di, si => (m, di, si)
  | n + 1, m, di, si => repMovsb dir n (store m di (m si)) (di + dir) (si + dir)

/-- One `movsq` store: eight bytes are read, then written. -/
def store8 (m : Memory) (di : Int) (v : Int → Byte) : Memory :=
  fun x => if di ≤ x ∧ x < di + 8 then v (x - di) else m x

/-- `rep movsq` forwards with count `n`, memops-impl+posixy-x64.s:16. -/
def repMovsq : Nat → Memory → Int → Int → Memory × Int × Int
  | 0, m, di, si => (m, di, si)
  | n + 1, m, di, si => repMovsq n (store8 m di fun k => m (si + k)) (di + 8) (si + 8)

/-- `.fwdcpy`, memops-impl+posixy-x64.s:14-20 (plan9: 13-20). -/
def fwdcpy (m : Memory) (dst src : Int) (len : Nat) : Memory :=
  let (m, di, si) := repMovsq (len / 8) m dst src
  (repMovsb 1 (len % 8) m di si).1

/-- `.revcpy`, memops-impl+posixy-x64.s:21-26 (plan9: 21-27). -/
def revcpy (m : Memory) (dst src : Int) (len : Nat) : Memory :=
  (repMovsb (-1) len m (len + dst - 1) (len + src - 1)).1

/-- `std$memblit`, memops-impl+posixy-x64.s:2-28.  The second test compares the length with
`src - dst`, which is negative there. -/
def memblit (m : Memory) (dst src : Int) (len : Nat) : Memory :=
  if src - dst = 0 then m
  else if src - dst > 0 then fwdcpy m dst src len
  else if (len : Int) > src - dst then revcpy m dst src len
  else fwdcpy m dst src len

/-- `std$memblit`, memops-impl+plan9-x64.s:5-29: the second test uses CX before it has been
loaded; `cx` is what the caller left in that register. -/
def memblitPlan9 (cx : Int) (m : Memory) (dst src : Int) (len : Nat) : Memory :=
  if src - dst = 0 then m
  else if src - dst > 0 then fwdcpy m dst src len
  else if cx > src - dst then revcpy m dst src len
  else fwdcpy m dst src len

/-- The ascending loop of the portable `memblit`, memops-impl.myr:22-24; `n` rounds to go. -/
def blitUp (dst src : Int) (len : Nat) : Nat → Memory → Memory
  | 0, m => m
  | n + 1, m =>
    let i : Int := len - (n + 1)
    blitUp dst src len n (store m (dst + i) (m (src + i)))

/-- The descending loop, memops-impl.myr:26-28; the argument is `i`. -/
def blitDown (dst src : Int) : Nat → Memory → Memory
  | 0, m => m
  | i + 1, m => blitDown dst src i (store m (dst + i) (m (src + i)))

/-- The portable `memblit`, memops-impl.myr:10-30. -/
def memblitMyr (m : Memory) (dst src : Int) (len : Nat) : Memory :=
  if dst = src then m
  else if dst < src then blitUp dst src len len m
  else blitDown dst src len m

/-- `rep stosb`, memops-impl+posixy-x64.s:46: the low byte of %rax. -/
def repStosb (al : Byte) : Nat → Memory → Int → Memory
  | 0, m, _ => m
  | n + 1, m, di => repStosb al n (store m di al) (di + 1)

/-- `rep stosq`, memops-impl+posixy-x64.s:43: byte `k` of %rax goes to `di + k`. -/
def repStosq (rax : BitVec 64) : Nat → Memory → Int → Memory × Int
  | 0, m, di => (m, di)
  | n + 1, m, di => repStosq rax n (store8 m di fun k => (rax >>> (8 * k.toNat)).setWidth 8) (di + 8)

/-- `std$memfill`, memops-impl+posixy-x64.s:33-47 (plan9: 31-44). -/
def memfill (m : Memory) (dst : Int) (val : Byte) (len : Nat) : Memory :=
  let rax := 0x101010101010101#64 * val.setWidth 64
  let (m, di) := repStosq rax (len / 8) m dst
  repStosb (rax.setWidth 8) (len % 8) m di

/-- A little-endian 64-bit load. -/
def load64 (m : Memory) (a : Int) : BitVec 64 :=
  m (a + 7) ++ m (a + 6) ++ m (a + 5) ++ m (a + 4) ++ m (a + 3) ++ m (a + 2) ++ m (a + 1) ++ m a

/-- `.nextbyte`, memops-impl+posixy-x64.s:70-78, `n` bytes to go. -/
def eqBytes (m : Memory) : Nat → Int → Int → Bool
  | 0, _, _ => true
  | n + 1, a, b =>
    if (m a).setWidth 32 ^^^ (m b).setWidth 32 = 0#32 then eqBytes m n (a + 1) (b + 1) else false

/-- `.nextquad`, memops-impl+posixy-x64.s:57-65, `n` words to go, then `.dotail` with `r` bytes. -/
def eqQuads (m : Memory) (r : Nat) : Nat → Int → Int → Bool
  | 0, a, b => eqBytes m r a b
  | n + 1, a, b =>
    if load64 m a ^^^ load64 m b = 0#64 then eqQuads m r n (a + 8) (b + 8) else false

/-- `std$memeq`, memops-impl+posixy-x64.s:50-84 (plan9: 46-77). -/
def memeq (m : Memory) (a b : Int) (len : Nat) : Bool := eqQuads m (len % 8) (len / 8) a b

end Verif.Mem
