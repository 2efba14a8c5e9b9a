import Verif.Htab.Probe

/-!
# Models of /repo/util/htab.c and /repo/lib/std/htab.myr

`cmp`/`eq` and `hash` are the client's functions.  Allocation succeeds; counters
are unbounded naturals.
-/

namespace Verif.Htab

/-- `struct Htab` (util/util.h:19-29) and `type htab` (lib/std/htab.myr:9-19)
without the client functions; `sz` is the length of the arrays. -/
structure Ht (K V : Type) where
  slots : List (Slot K V)
  nelt : Nat
  ndead : Nat
  deriving DecidableEq, Repr

/-- Freshly zeroed arrays of size `sz`: util/htab.c:81-87, lib/std/htab.myr:63-69. -/
def fresh {K V : Type} (sz : Nat) : Ht K V := ⟨List.replicate sz .free, 0, 0⟩

/-- Body of the re-insertion loop: only live slots are put (util/htab.c:91-92,
lib/std/htab.myr:71-73). -/
def reinsertStep {K V : Type} (put : Ht K V → K → V → Res (Ht K V)) (t : Ht K V) :
    Slot K V → Res (Ht K V)
  | .used _ k v false => put t k v
  | _ => .ok t

/-- Re-insertion loop of `grow` (util/htab.c:90-92) and `resize`
(lib/std/htab.myr:70-74) into an empty table. -/
def reinsert {K V : Type} (put : Ht K V → K → V → Res (Ht K V)) (old : List (Slot K V))
    (sz : Nat) : Res (Ht K V) :=
  old.foldlM (reinsertStep put) (fresh sz)

/-- The keys written by the loops of `htkeys`, util/htab.c:214-216 and
lib/std/htab.myr:202-206. -/
def liveKeys {K V : Type} : List (Slot K V) → List K
  | [] => []
  | .used _ k _ false :: s => k :: liveKeys s
  | _ :: s => liveKeys s

end Verif.Htab

namespace Verif.CHtab
open Verif.Htab

variable {K V : Type} (cmp : K → K → Bool) (hash : K → Nat)

/-- `mkht` with `Initsz` 16, util/htab.c:11,17-34. -/
def mkht : Ht K V := fresh 16

/-- Body of the probe loop of `htput`, util/htab.c:113-124: `some true` is
`goto conflicted`, `some false` is leaving the loop. -/
def putStop (h : Nat) (k : K) : Slot K V → Option Bool
  | .free => some false
  | .used h' k' _ dead =>
    if dead then some false
    else if h' = h then
      if cmp k' k then some true else none
    else none

/-- Storing half of `htput`, util/htab.c:110-132. -/
def putCore (ht : Ht K V) (k : K) (v : V) : Res (Ht K V) := do
  let h := xhash hash k
  let (i, conflicted) ← scan ht.slots (putStop cmp h k) h ht.slots.length 0
  let nelt := if conflicted then ht.nelt else ht.nelt + 1
  let s ← rdUB ht.slots i
  let ndead := match s with
    | .used _ _ _ true => ht.ndead - 1
    | _ => ht.ndead
  let slots ← wrUB ht.slots i (mkSlot h k v)
  pure ⟨slots, nelt, ndead⟩

/-- `htput`, util/htab.c:103-139.  `grow` and `htput` are mutually recursive;
`fuel` bounds the recursion depth (running out would be unbounded recursion). -/
def htputF : Nat → Ht K V → K → V → Res (Ht K V)
  | 0, _, _, _ => .spin
  | fuel + 1, ht, k, v => do
    let ht ← putCore cmp hash ht k v
    let ht ← if ht.slots.length < ht.nelt * 2 then
        reinsert (htputF fuel) ht.slots (ht.slots.length * 2) else .ok ht
    if ht.slots.length < ht.ndead * 4 then
        reinsert (htputF fuel) ht.slots ht.slots.length else .ok ht

/-- `htput` with recursion depth 2 (enough, see `Props`). -/
def htput (ht : Ht K V) (k : K) (v : V) : Res (Ht K V) := htputF cmp hash 2 ht k v

/-- Loop of `htidx`, util/htab.c:153-162: `some false` is `return -1`, `some true`
is `return i`.  Line 153 leaves the loop on a dead slot or an equal hash; line
160 then decides (the comparison function may be applied to a dead key). -/
def idxStop (h : Nat) (k : K) : Slot K V → Option Bool
  | .free => some false
  | .used h' k' _ dead =>
    if !dead && h' != h then none
    else if (h' == h && dead) || !cmp k' k then none
    else some true

/-- `htidx`, util/htab.c:143-163. -/
def htidx (ht : Ht K V) (k : K) : Res (Option Nat) := do
  let h := xhash hash k
  let (i, found) ← scan ht.slots (idxStop cmp h k) h ht.slots.length 0
  pure (if found then some i else none)

/-- `htget`, util/htab.c:170-180 (`NULL` is `none`). -/
def htget (ht : Ht K V) (k : K) : Res (Option V) := do
  match ← htidx cmp hash ht k with
  | none => pure none
  | some i =>
    match ← rdUB ht.slots i with
    | .used _ _ v _ => pure (some v)
    | .free => pure none

/-- `hthas`, util/htab.c:198-199. -/
def hthas (ht : Ht K V) (k : K) : Res Bool := do
  match ← htidx cmp hash ht k with
  | none => pure false
  | some _ => pure true

/-- `htdel`, util/htab.c:182-195; the two asserts are the `abort`s. -/
def htdel (ht : Ht K V) (k : K) : Res (Ht K V) := do
  match ← htidx cmp hash ht k with
  | none => pure ht
  | some i =>
    match ← rdUB ht.slots i with
    | .used h k' v false => do
      let slots ← wrUB ht.slots i (.used h k' v true)
      pure ⟨slots, ht.nelt - 1, ht.ndead + 1⟩
    | _ => .abort

/-- `htkeys`, util/htab.c:206-219: writes through `k[j++]` into an array of
`nelt` pointers; the returned count is `nelt`, so the tail would be
uninitialised if fewer keys were written (both are `ub`). -/
def htkeys (ht : Ht K V) : Res (List K) :=
  let ks := liveKeys ht.slots
  if ks.length = ht.nelt then .ok ks else .ub

end Verif.CHtab

namespace Verif.StdHtab
open Verif.Htab

variable {K V : Type} (eq : K → K → Bool) (hash : K → Nat)

/-- `mkht`/`htinit` with `Initsz` 32, lib/std/htab.myr:40,105-121. -/
def mkht : Ht K V := fresh 32

/-- Probe loop of `htput`, lib/std/htab.myr:140-147. -/
def putStop (h : Nat) (k : K) : Slot K V → Option Bool
  | .free => some false
  | .used h' k' _ dead =>
    if dead then some false
    else if h' = h && eq k' k then some true
    else none

/-- Storing half of `htput`, lib/std/htab.myr:131-154.  When the key is found
the stored key is kept.  `ndead` is not decremented when a tombstone is reused. -/
def putCore (ht : Ht K V) (k : K) (v : V) : Res (Ht K V) := do
  let h := xhash hash k
  let (i, found) ← scan ht.slots (putStop eq h k) h ht.slots.length 0
  let s ← rdChk ht.slots i
  let key := if found then (match s with | .used _ k' _ _ => k' | .free => k) else k
  let nelt := if found then ht.nelt else ht.nelt + 1
  let slots ← wrChk ht.slots i (mkSlot h key v)
  pure ⟨slots, nelt, ht.ndead⟩

/-- `htput`, lib/std/htab.myr:131-158, mutually recursive with `resize`
(53-79); `fuel` bounds the recursion depth. -/
def htputF : Nat → Ht K V → K → V → Res (Ht K V)
  | 0, _, _, _ => .spin
  | fuel + 1, ht, k, v => do
    let ht ← putCore eq hash ht k v
    if ht.slots.length < ht.nelt * 2 then
      reinsert (htputF fuel) ht.slots (2 * ht.slots.length) else .ok ht

/-- `htput` with recursion depth 2 (enough, see `Props`). -/
def htput (ht : Ht K V) (k : K) (v : V) : Res (Ht K V) := htputF eq hash 2 ht k v

/-- Loop of `idx`, lib/std/htab.myr:88-101. -/
def idxStop (h : Nat) (k : K) : Slot K V → Option Bool
  | .free => some false
  | .used h' k' _ dead =>
    if !dead && h' != h then none
    else if h' == h && !dead && eq k' k then some true
    else none

/-- `idx`, lib/std/htab.myr:81-103. -/
def idx (ht : Ht K V) (k : K) : Res (Option Nat) := do
  let h := xhash hash k
  let (i, found) ← scan ht.slots (idxStop eq h k) h ht.slots.length 0
  pure (if found then some i else none)

/-- `htget`, lib/std/htab.myr:175-180. -/
def htget (ht : Ht K V) (k : K) : Res (Option V) := do
  match ← idx eq hash ht k with
  | none => pure none
  | some i =>
    match ← rdChk ht.slots i with
    | .used _ _ v _ => pure (some v)
    | .free => pure none

/-- `htgetv`, lib/std/htab.myr:182-187. -/
def htgetv (ht : Ht K V) (k : K) (dflt : V) : Res V := do
  match ← idx eq hash ht k with
  | none => pure dflt
  | some i =>
    match ← rdChk ht.slots i with
    | .used _ _ v _ => pure v
    | .free => pure dflt

/-- `hthas`, lib/std/htab.myr:189-194. -/
def hthas (ht : Ht K V) (k : K) : Res Bool := do
  match ← idx eq hash ht k with
  | none => pure false
  | some _ => pure true

/-- `htdel`, lib/std/htab.myr:160-173. -/
def htdel (ht : Ht K V) (k : K) : Res (Ht K V) := do
  match ← idx eq hash ht k with
  | none => pure ht
  | some i =>
    match ← rdChk ht.slots i with
    | .used h k' v _ => do
      let slots ← wrChk ht.slots i (.used h k' v true)
      let ht' : Ht K V := ⟨slots, ht.nelt - 1, ht.ndead + 1⟩
      if ht'.slots.length < ht'.ndead * 4 then
        reinsert (htputF eq hash 2) ht'.slots ht'.slots.length
      else pure ht'
    | .free => .abort

/-- `htkeys`, lib/std/htab.myr:196-208: `keys[j++]` is bounds checked against
`nelt`; a shorter result would leave uninitialised keys. -/
def htkeys (ht : Ht K V) : Res (List K) :=
  let ks := liveKeys ht.slots
  if ht.nelt < ks.length then .abort
  else if ks.length = ht.nelt then .ok ks else .ub

/-- `htcount`, lib/std/htab.myr:210-212. -/
def htcount (ht : Ht K V) : Nat := ht.nelt

end Verif.StdHtab
