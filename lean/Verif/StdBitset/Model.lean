import Verif.Bitset.Model

/-!
# Model of /repo/lib/std/bitset.myr

`bits : size[:]` is a list of 64-bit words.  Elements are naturals below 2^63
(the conversion `(v : size)` of a negative or larger value is outside the
model).  Slices are bounds checked, so out-of-range accesses are `abort`.
-/

namespace Verif.StdBitset

/-- `bits`, lib/std/bitset.myr:13-15. -/
abbrev BS := List (BitVec 64)

/-- `mkbs`: a zeroed structure, i.e. an empty slice, bitset.myr:46-48. -/
def mkbs : BS := []

/-- `bsdup`, bitset.myr:50-52. -/
def bsdup (bs : BS) : BS := bs

/-- `bsclear`, bitset.myr:59-62. -/
def bsclear (bs : BS) : BS := bs.map fun _ => 0

/-- `bsmax`, bitset.myr:64-66. -/
def bsmax (bs : BS) : Nat := bs.length * 64

/-- `ensurelen`, bitset.myr:174-178 (`slzgrow` appends zeroes up to `len + 1`). -/
def ensurelen (bs : BS) (len : Nat) : BS :=
  if bs.length ≤ len then bs ++ List.replicate (len + 1 - bs.length) 0 else bs

/-- `eqsz`, bitset.myr:180-186. -/
def eqsz (a b : BS) : BS × BS :=
  let sz := max a.length b.length
  (ensurelen a sz, ensurelen b sz)

/-- `bsput`, bitset.myr:78-88; returns the new set and `changed`. -/
def bsput (bs : BS) (v : Nat) : Res (BS × Bool) :=
  let bs := ensurelen bs (v / 64)
  do let c ← rdChk bs (v / 64)
     let r ← wrChk bs (v / 64) (c ||| (1#64 <<< (v % 64)))
     pure (r, c &&& (1#64 <<< (v % 64)) == 0)

/-- `bsdel`, bitset.myr:90-101; returns the new set and `changed`. -/
def bsdel (bs : BS) (v : Nat) : Res (BS × Bool) :=
  if v / 64 < bs.length then do
    let c ← rdChk bs (v / 64)
    let r ← wrChk bs (v / 64) (c &&& ~~~(1#64 <<< (v % 64)))
    pure (r, c &&& (1#64 <<< (v % 64)) != 0)
  else .ok (bs, false)

/-- `bshas`, bitset.myr:103-113. -/
def bshas (bs : BS) (v : Nat) : Res Bool :=
  if v / 64 ≥ bs.length then .ok false
  else do
    let c ← rdChk bs (v / 64)
    pure (c &&& (1#64 <<< (v % 64)) != 0)

/-- The loops `for i = 0; i < n; i++; a[i] = f(a[i], b[i])` (bitset.myr:117-119,
126-128, 135-137): the first `n` words are combined, the rest of `a` is kept. -/
def loop2 (f : BitVec 64 → BitVec 64 → BitVec 64) : Nat → BS → BS → Res BS
  | 0, a, _ => .ok a
  | _ + 1, [], _ => .abort
  | _ + 1, _ :: _, [] => .abort
  | n + 1, x :: xs, y :: ys => do
    let r ← loop2 f n xs ys
    pure (f x y :: r)

/-- `bsunion`, bitset.myr:115-120; returns the new `a` and `b`. -/
def bsunion (a b : BS) : Res (BS × BS) :=
  let p := eqsz a b
  do let r ← loop2 (· ||| ·) p.2.length p.1 p.2
     pure (r, p.2)

/-- `bsintersect`, bitset.myr:122-129. -/
def bsintersect (a b : BS) : Res BS :=
  loop2 (· &&& ·) (min a.length b.length) a b

/-- `bsdiff`, bitset.myr:131-138. -/
def bsdiff (a b : BS) : Res BS :=
  loop2 (fun x y => x &&& ~~~y) (min b.length a.length) a b

/-- The early-exit loops of `bsissubset` (bitset.myr:142-146) and `eq` (153-157). -/
def all2 (f : BitVec 64 → BitVec 64 → Bool) : BS → BS → Res Bool
  | [], _ => .ok true
  | _ :: _, [] => .abort
  | x :: xs, y :: ys => if f x y then all2 f xs ys else .ok false

/-- `bsissubset`, bitset.myr:140-148. -/
def bsissubset (a b : BS) : Res (Bool × BS × BS) :=
  let p := eqsz a b
  do let r ← all2 (fun x y => (y &&& x) == y) p.1 p.2
     pure (r, p.1, p.2)

/-- `eq`, bitset.myr:150-160. -/
def bseq (a b : BS) : Res (Bool × BS × BS) :=
  let p := eqsz a b
  do let r ← all2 (fun x y => x == y) p.1 p.2
     pure (r, p.1, p.2)

/-- The `while end > 0 && a.bits[end-1] == 0` loop of `hash`, bitset.myr:167-169. -/
def trimEnd (a : BS) : Nat → Nat
  | 0 => 0
  | e + 1 => if a.getD e 0 = 0 then trimEnd a e else e + 1

/-- `hash`, bitset.myr:162-172: hashes the words without trailing zeroes (`H` is
the hash of a slice). -/
def bshash {α : Type} (H : List (BitVec 64) → α) (a : BS) : α := H (a.take (trimEnd a a.length))

/-- The `while i < n && bits[i/64] == 0` loop of `__iternext__`,
bitset.myr:198-200; `& ~63` on a non-negative number clears the low six bits. -/
def skip (bs : BS) (n i : Nat) : Res Nat :=
  if h : i < n then do
    let c ← rdChk bs (i / 64)
    if c = 0 then skip bs n ((i + 64) / 64 * 64) else pure i
  else .ok i
termination_by n - i
decreasing_by omega

/-- The `for` loop of `__iternext__`, bitset.myr:196-206 (`fuel` bounds the
number of rounds). -/
def nextLoop (bs : BS) (n : Nat) : Nat → Nat → Res (Option Nat)
  | 0, _ => .spin
  | fuel + 1, i =>
    if i < n then do
      let i ← skip bs n i
      if ← bshas bs i then pure (some i) else nextLoop bs n fuel (i + 1)
    else .ok none

/-- `__iternext__` from index `idx`, bitset.myr:193-209: `some e` yields `e` and
continues from `e + 1`. -/
def iternext (bs : BS) (idx : Nat) : Res (Option Nat) :=
  nextLoop bs (bsmax bs) (bsmax bs + 1) idx

/-- A `for v : bybsvalue(bs)` loop collecting the values, from index `idx`
(bitset.myr:188-190 and the language's iteration protocol); `fuel` bounds the
number of rounds. -/
def iterate (bs : BS) : Nat → Nat → Res (List Nat)
  | 0, _ => .spin
  | fuel + 1, idx => do
    match ← iternext bs idx with
    | none => pure []
    | some e => do
      let r ← iterate bs fuel (e + 1)
      pure (e :: r)

/-- `bscount`, bitset.myr:68-76. -/
def bscount (bs : BS) : Res Nat := do
  let l ← iterate bs (bsmax bs + 1) 0
  pure l.length

end Verif.StdBitset
