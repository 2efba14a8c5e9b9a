import Verif.Endian.Model

/-!
# Model of `siphash24`, /repo/lib/std/hashfuncs.myr:54-108
-/

namespace Verif.Sip

/-- The four state words. -/
abbrev V := BitVec 64 × BitVec 64 × BitVec 64 × BitVec 64

/-- `sipround`, hashfuncs.myr:54-72. -/
def sipround : V → V
  | (v0, v1, v2, v3) =>
    let v0 := v0 + v1
    let v1 := (v1 <<< 13) ||| (v1 >>> 51)
    let v1 := v1 ^^^ v0
    let v0 := (v0 <<< 32) ||| (v0 >>> 32)
    let v2 := v2 + v3
    let v3 := (v3 <<< 16) ||| (v3 >>> 48)
    let v3 := v3 ^^^ v2
    let v2 := v2 + v1
    let v1 := (v1 <<< 17) ||| (v1 >>> 47)
    let v1 := v1 ^^^ v2
    let v2 := (v2 <<< 32) ||| (v2 >>> 32)
    let v0 := v0 + v3
    let v3 := (v3 <<< 21) ||| (v3 >>> 43)
    let v3 := v3 ^^^ v0
    (v0, v1, v2, v3)

/-- One message word, hashfuncs.myr:87-90 and 97-100. -/
def absorb (m : BitVec 64) : V → V
  | (v0, v1, v2, v3) =>
    let (v0, v1, v2, v3) := sipround (sipround (v0, v1, v2, v3 ^^^ m))
    (v0 ^^^ m, v1, v2, v3)

/-- The loop at hashfuncs.myr:85-91, `n` rounds to go. -/
def mainLoop (data : List Byte) : Nat → Nat → V → Res V
  | 0, _, v => .ok v
  | n + 1, i, v => do
    let piece ← slice data (8 * i) (8 * (i + 1))
    let m ← Endian.getle64 64 piece
    mainLoop data n (i + 1) (absorb m v)

/-- The loop at hashfuncs.myr:92-94, `n` rounds to go. -/
def tailLoop (data : List Byte) (w : Nat) : Nat → Nat → List Byte → Res (List Byte)
  | 0, _, tail => .ok tail
  | n + 1, i, tail => do
    let b ← rdChk data (8 * w + i)
    let tail ← wrChk tail i b
    tailLoop data w n (i + 1) tail

/-- `siphash24`, hashfuncs.myr:74-108; the seed has 16 bytes. -/
def siphash24 (data seed : List Byte) : Res (BitVec 64) := do
  let s0 ← slice seed 0 8
  let k0 ← Endian.getle64 64 s0
  let s1 ← slice seed 8 16
  let k1 ← Endian.getle64 64 s1
  let v : V := (k0 ^^^ 0x736f6d6570736575#64, k1 ^^^ 0x646f72616e646f6d#64,
    k0 ^^^ 0x6c7967656e657261#64, k1 ^^^ 0x7465646279746573#64)
  let w := (data.length + 8) / 8 - 1
  let v ← mainLoop data w 0 v
  let tail ← tailLoop data w (data.length % 8) 0 (List.replicate 8 0#8)
  let tail ← wrChk tail 7 (BitVec.ofNat 8 (data.length % 256))
  let m ← Endian.getle64 64 tail
  let (v0, v1, v2, v3) := absorb m v
  let (v0, v1, v2, v3) := sipround (sipround (sipround (sipround (v0, v1, v2 ^^^ 0xff#64, v3))))
  pure (v0 ^^^ v1 ^^^ v2 ^^^ v3)

end Verif.Sip
