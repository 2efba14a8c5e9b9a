import Verif.Endian.Model

/-!
# Model of /repo/lib/std/rand.myr
-/

namespace Verif.Rand
open Verif.Endian (cnt)

/-- `rng`, rand.myr:25-28. -/
structure Rng where
  s0 : BitVec 64
  s1 : BitVec 64
  deriving DecidableEq

/-- `mksrng`, rand.myr:41-46; shifts bind tighter than `&`. -/
def mksrng (seed : BitVec 32) : Rng :=
  ⟨(seed &&& 0xffff#32).setWidth 64, (seed &&& (0xffff0000#32 >>> 16)).setWidth 64⟩

/-- `rngrandnum` at `uint64`, rand.myr:93-105: the number and the next state.  For narrower
types the number is truncated. -/
def rngrandnum (rng : Rng) : BitVec 64 × Rng :=
  let s0 := rng.s0
  let s1 := rng.s1
  let r := s0 + s1
  let s1 := s1 ^^^ s0
  (r, ⟨(s0 <<< 55 ||| s0 >>> 9) ^^^ s1 ^^^ (s1 <<< 14), s1 <<< 36 ||| s1 >>> 28⟩)

/-- Comparison at a type of `w` bits. -/
def ltT (signed : Bool) {w : Nat} (a b : BitVec w) : Bool := if signed then a.slt b else a.ult b

/-- Division at a type of `w` bits (quotients are truncated); `b` is not 0. -/
def divT (signed : Bool) {w : Nat} (a b : BitVec w) : BitVec w := if signed then a.sdiv b else a.udiv b

/-- Remainder at a type of `w` bits (sign of the dividend); `b` is not 0. -/
def modT (signed : Bool) {w : Nat} (a b : BitVec w) : BitVec w := if signed then a.srem b else a.umod b

/-- `abs`, extremum.myr:34-40. -/
def abs (signed : Bool) {w : Nat} (a : BitVec w) : BitVec w := if ltT signed a 0#w then -a else a

/-- The loop at rand.myr:63-66, drawing until the number is not above the limit. -/
def drawLoop (signed : Bool) {w : Nat} (max lim : BitVec w) : Nat → Rng → Res (BitVec w × Rng)
  | 0, _ => .spin
  | fuel + 1, rng =>
    let (r, rng) := rngrandnum rng
    let val := r.setWidth w &&& max
    if ltT signed lim val then drawLoop signed max lim fuel rng else .ok (val, rng)

/-- `rngrand`, rand.myr:52-68, at a type of `w` bits.  Division by zero stops the program. -/
def rngrand (signed : Bool) {w : Nat} (fuel : Nat) (rng : Rng) (lo hi : BitVec w) : Res (BitVec w × Rng) :=
  let span := abs signed (hi - lo)
  let max := BitVec.allOnes w
  let max := if ltT signed max 0#w then (1#w <<< (w - 1)) - 1#w else max
  if span = 0#w then .abort
  else do
    let lim := divT signed max span * span
    let (val, rng) ← drawLoop signed max lim fuel rng
    pure (modT signed val span + lo, rng)

/-- The loop at rand.myr:74-78; `k` rounds to go, `n` bytes written. -/
def wordLoop : Nat → Nat → Rng → List Byte → Res (Nat × Rng × List Byte)
  | 0, n, rng, buf => .ok (n, rng, buf)
  | k + 1, n, rng, buf => do
    let (r, rng) := rngrandnum rng
    let piece ← slice buf n (n + 8)
    let (piece, _) ← Endian.putle piece r 8
    wordLoop k (n + 8) rng (buf.take n ++ piece ++ buf.drop (n + 8))

/-- The loop at rand.myr:80-83; `k` bytes to go. -/
def tailLoop : Nat → Nat → BitVec 64 → List Byte → Res (List Byte)
  | 0, _, _, buf => .ok buf
  | k + 1, n, r, buf => do
    let buf ← wrChk buf n ((r &&& 0xff#64).setWidth 8)
    tailLoop k (n + 1) (r >>> 8) buf

/-- `rngrandbytes`, rand.myr:70-84: the loop runs while `i + 8 < buf.len/8`. -/
def rngrandbytes (rng : Rng) (buf : List Byte) : Res (List Byte × Rng) := do
  let (n, rng, buf) ← wordLoop (buf.length / 8 - 8) 0 rng buf
  let (r, rng) := rngrandnum rng
  let buf ← tailLoop (buf.length - n) n r buf
  pure (buf, rng)

end Verif.Rand
