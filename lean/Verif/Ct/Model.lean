import Verif.Prelude

/-!
# The constant-time primitives of lib/crypto

Model of `ct.myr`. The functions are generic in an integer type: here its width
`w` and whether it is signed, which decides what `>>` does.
-/

namespace Verif.Ct

/-- `x >> n`: arithmetic at signed types, logical at unsigned ones (the
compiler's choice of instruction, 6/isel.c). -/
def shr (signed : Bool) {w : Nat} (x : BitVec w) (n : Nat) : BitVec w :=
  if signed then x.sshiftRight n else x >>> n

variable (signed : Bool) {w : Nat}

/-- `not` (lib/crypto/ct.myr:18-20). -/
def not (a : BitVec w) : BitVec w := a ^^^ 1

/-- `eq` (lib/crypto/ct.myr:22-26). -/
def eq (a b : BitVec w) : BitVec w :=
  let q := a ^^^ b
  shr signed (q ||| -q) (w - 1) ^^^ 1

/-- `gt` (lib/crypto/ct.myr:28-38). -/
def gt (a b : BitVec w) : BitVec w :=
  let z := b - a
  shr signed (z ^^^ ((a ^^^ b) &&& (a ^^^ z))) (w - 1)

/-- `lt` (lib/crypto/ct.myr:44-48). -/
def lt (a b : BitVec w) : BitVec w :=
  let z := a - b
  shr signed (z ^^^ ((b ^^^ a) &&& (b ^^^ a))) (w - 1)

/-- `ge` (lib/crypto/ct.myr:40-42). -/
def ge (a b : BitVec w) : BitVec w := lt signed a b ^^^ 1

/-- `le` (lib/crypto/ct.myr:50-52). -/
def le (a b : BitVec w) : BitVec w := gt signed a b ^^^ 1

/-- `ne` (lib/crypto/ct.myr:54-58). -/
def ne (a b : BitVec w) : BitVec w :=
  let q := a ^^^ b
  shr signed (q ||| -q) (w - 1)

/-- `mux` (lib/crypto/ct.myr:60-62). -/
def mux (c a b : BitVec w) : BitVec w := b ^^^ (-c &&& (a ^^^ b))

/-- `min` (lib/crypto/ct.myr:64-69). -/
def min (a b : BitVec w) : BitVec w :=
  let x := lt signed a b
  mux x a b

/-- `max` (lib/crypto/ct.myr:71-76). -/
def max (a b : BitVec w) : BitVec w :=
  let x := lt signed a b
  mux x b a

/-- The loop of `bufeq` (lib/crypto/ct.myr:83-85) from `i` on, `k` rounds to go. -/
def bufeqLoop (a b : List Byte) : Nat → Nat → Byte → Res Byte
  | 0, _, r => .ok r
  | k + 1, i, r => do
    let x ← rdChk a i
    let y ← rdChk b i
    bufeqLoop a b k (i + 1) (mux r (eq false x y) r)

/-- `bufeq` (lib/crypto/ct.myr:78-87). `min` is used at `std.size`, a signed type;
a negative `n` ends the loop at once. -/
def bufeq (a b : List Byte) : Res Bool := do
  let n : BitVec 64 := min true (BitVec.ofNat 64 a.length) (BitVec.ofNat 64 b.length)
  let r ← bufeqLoop a b n.toInt.toNat 0 1
  .ok (r != 0)

end Verif.Ct
