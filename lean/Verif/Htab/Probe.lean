import Verif.Prelude

/-!
# Open addressing shared by util/htab.c and lib/std/htab.myr

Both hash tables keep four parallel arrays `keys`, `vals`, `hashes`, `dead` of
the same power-of-two length and probe linearly.  A stored hash of 0 marks a
slot never used since the last resize.  The four arrays are modelled as one list
of slots.
-/

namespace Verif.Htab

/-- One index of the parallel arrays `keys/vals/hashes/dead`
(util/util.h:19-29; lib/std/htab.myr:9-19).  `free` is `hashes[i] == 0`. -/
inductive Slot (K V : Type) where
  | free
  | used (h : Nat) (k : K) (v : V) (dead : Bool)
  deriving DecidableEq, Repr

/-- `(h + di) & (sz - 1)`, util/htab.c:112,123,152,156; lib/std/htab.myr:87,91,100,138,146.
The 64-bit wrap-around of `h + di` is invisible after masking with
`sz - 1 < 2^63`, so `Nat` addition is used. -/
def pos (sz h d : Nat) : Nat := (h + d) &&& (sz - 1)

/-- `hash`/`xhash`: 0 is reserved, util/htab.c:52-61, lib/std/htab.myr:42-51. -/
def xhash {K : Type} (hash : K → Nat) (k : K) : Nat :=
  if hash k = 0 then 1 else hash k

/-- A linear probe loop: inspect slot `(h+di) & (sz-1)`, let `f` decide to stop,
else `di++`.  The loops of htput (util/htab.c:113-124, htab.myr:140-147) and
htidx/idx (util/htab.c:153-162, htab.myr:88-101) are instances.  After `sz`
probes without stopping the sequence repeats itself, i.e. the loop spins. -/
def scan {S β : Type} (slots : List S) (f : S → Option β) (h : Nat) :
    (fuel di : Nat) → Res (Nat × β)
  | 0, _ => .spin
  | fuel + 1, di => do
    let s ← rdUB slots (pos slots.length h di)
    match f s with
    | some b => pure (pos slots.length h di, b)
    | none => scan slots f h fuel (di + 1)

/-- The slot seen after `hashes[i] = h; keys[i] = k; vals[i] = v; dead[i] = 0`
(util/htab.c:129-132, lib/std/htab.myr:148-154): a stored hash of 0 reads as
"never used" in every later test of `hashes[i]`. -/
def mkSlot {K V : Type} (h : Nat) (k : K) (v : V) : Slot K V :=
  if h = 0 then .free else .used h k v false

end Verif.Htab
