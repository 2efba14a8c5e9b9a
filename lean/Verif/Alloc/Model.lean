import Verif.Prelude

/-!
# The heap: `lib/std/bytealloc.myr`, `lib/std/alloc.myr`

Memory is a function from addresses to bytes, with the set of the addresses which are mapped; an access to memory which is not
mapped is `ub`. The headers of slabs and the links of free chunks are in that memory, so that they could be overwritten. The
buckets and the cache of large blocks are global variables and are kept apart from it.

Simplified: addresses and sizes are natural numbers (sizes are not negative, the system hands out addresses below 2^47, so nothing
wraps); the functions run under the lock `memlck` and are taken as one step; tracing (97-123) is off.
-/

namespace Verif.Alloc

/-- `bytealloc.myr:33`. -/
scoped notation "Slabsz" => (524288 : Nat)
/-- `bytealloc.myr:35`. -/
scoped notation "Bktmax" => (131072 : Nat)
/-- `bytealloc.myr:36`. -/
scoped notation "Pagesz" => (4096 : Nat)
/-- `bytealloc.myr:301`. -/
scoped notation "Magic" => (17515341148653 : Nat)

abbrev Mem := Nat → Byte

/-- The word at an address, lowest byte first. -/
def rd (m : Mem) (a : Nat) : Nat :=
  (m a).toNat + 256 * ((m (a + 1)).toNat + 256 * ((m (a + 2)).toNat + 256 * ((m (a + 3)).toNat + 256 * ((m (a + 4)).toNat +
    256 * ((m (a + 5)).toNat + 256 * ((m (a + 6)).toNat + 256 * (m (a + 7)).toNat))))))

/-- Memory after a word is written. -/
def wr (m : Mem) (a v : Nat) : Mem := fun x => if a ≤ x ∧ x < a + 8 then BitVec.ofNat 8 (v / 256 ^ (x - a)) else m x

/-- `bytealloc.myr:43-49`: what changes in a bucket. -/
structure Bkt where
  slabs : Nat
  cache : Nat
  ncache : Nat

/-- Memory, what is mapped, `buckets` (38) and `bigcache` (41) as pairs of `sz` and `p`. -/
structure St where
  mem : Mem
  mapped : Nat → Bool
  bkt : Nat → Bkt
  big : List (Nat × Nat)

/-- Eight bytes are mapped. -/
def ok8 (mp : Nat → Bool) (a : Nat) : Prop := ∀ i, i < 8 → mp (a + i) = true
instance (mp : Nat → Bool) (a : Nat) : Decidable (ok8 mp a) := by unfold ok8; infer_instance

/-- Read a word. -/
def ld (st : St) (a : Nat) : Res Nat := if ok8 st.mapped a then .ok (rd st.mem a) else .ub
/-- Write a word. -/
def sw (st : St) (a v : Nat) : Res St := if ok8 st.mapped a then .ok { st with mem := wr st.mem a v } else .ub

/-- `bytealloc.myr:444-446` align, for powers of two: there it is done with `&` and `~`. -/
def align (v a : Nat) : Nat := (v + a - 1) / a * a

/-- `bytealloc.myr:261`: the size of the chunks of bucket `i` (72). -/
def bsz (i : Nat) : Nat := align (16 * 2 ^ i) 16
/-- `bytealloc.myr:262`; a slab header has 48 bytes (51-58). -/
def nper (i : Nat) : Nat := (Slabsz - 48) / bsz i

/-- Set the slabs of a bucket. -/
def setslabs (st : St) (i s : Nat) : St := { st with bkt := fun j => if j = i then { st.bkt i with slabs := s } else st.bkt j }

/-- `lib/std/syswrap+posixy.myr:22`. -/
scoped notation "Failmem" => (18446744073709551615 : Nat)

/-- `lib/std/syswrap+posixy.myr:134-137` getmem: the system answers a size with an address or a failure. In the latter case
`sys.mmap` gives the negated error number (`lib/sys/sys+linux-x64.myr:1732-1734`), here that of ENOMEM. -/
def getmem (os : Nat → Option Nat) (st : St) (n : Nat) : Nat × St :=
  match os n with
  | none => (18446744073709551604, st)
  | some p => (p, { st with mapped := fun x => if p ≤ x ∧ x < p + n then true else st.mapped x })

/-- `lib/std/syswrap+posixy.myr:138` freemem. -/
def freemem (st : St) (p n : Nat) : St := { st with mapped := fun x => if p ≤ x ∧ x < p + n then false else st.mapped x }

/-- `bytealloc.myr:306-310`: the loop; `b` and `bnext`. -/
def chain (sz : Nat) : Nat → Nat → Nat → St → Res (Nat × St)
  | 0, b, _, st => .ok (b, st)
  | n + 1, _, bnext, st => do
    let st ← sw st bnext (bnext + sz)
    chain sz n bnext (bnext + sz) st

/-- `bytealloc.myr:295-312`: set up a slab in the memory at `p`. -/
def initslab (i p : Nat) (st : St) : Res (Nat × St) := do
  let s := align p Slabsz
  let st ← sw st s p
  let st ← sw st (s + 32) (nper i)
  let st ← sw st (s + 8) 0
  let st ← sw st (s + 16) 0
  let st ← sw st (s + 40) Magic
  let st ← sw st (s + 24) (s + 48)
  let r ← chain (bsz i) (nper i) 0 (s + 48) st
  let st ← sw r.2 r.1 0
  .ok (s, st)

/-- `bytealloc.myr:269-313` mkslab. -/
def mkslab (os : Nat → Option Nat) (st : St) (i : Nat) : Res (Nat × St) :=
  let b := st.bkt i
  if 0 < b.ncache then do
    let s := b.cache
    let nx ← ld st (s + 8)
    let st ← sw { st with bkt := fun j => if j = i then { b with cache := nx, ncache := b.ncache - 1 } else st.bkt j } (s + 8) 0
    .ok (s, st)
  else
    let r := getmem os st (Slabsz * 2)
    if r.1 = Failmem then .abort else initslab i r.1 r.2

/-- `bytealloc.myr:323-331`: the slab to allocate from. -/
def findslab (os : Nat → Option Nat) (st : St) (i : Nat) : Res (Nat × St) :=
  if (st.bkt i).slabs = 0 then do
    let r ← mkslab os st i
    if r.1 = 0 then .abort else .ok (r.1, setslabs r.2 i r.1)
  else .ok ((st.bkt i).slabs, st)

/-- Set `prev` of a slab if it is there. -/
def setprev (st : St) (s v : Nat) : Res St := if s ≠ 0 then sw st (s + 16) v else .ok st
/-- Set `next` of a slab if it is there. -/
def setnext (st : St) (s v : Nat) : Res St := if s ≠ 0 then sw st (s + 8) v else .ok st

/-- `bytealloc.myr:333-343`: take the first chunk of the slab. -/
def takechunk (st : St) (i s : Nat) : Res (Nat × St) := do
  let c ← ld st (s + 24)
  let n ← ld st c
  let st ← sw st (s + 24) n
  let k ← ld st (s + 32)
  let st ← sw st (s + 32) (k - 1)
  if n = 0 then do
    let nx ← ld st (s + 8)
    let st ← setprev (setslabs st i nx) nx 0
    .ok (c, st)
  else .ok (c, st)

/-- `bytealloc.myr:320-344` bktalloc. -/
def bktalloc (os : Nat → Option Nat) (st : St) (i : Nat) : Res (Nat × St) := do
  let r ← findslab os st i
  takechunk r.2 i r.1

/-- `bytealloc.myr:392-394`. -/
def putback (st : St) (s m : Nat) : Res St := do
  let k ← ld st (s + 32)
  let st ← sw st (s + 32) (k + 1)
  let h ← ld st (s + 24)
  let st ← sw st m h
  sw st (s + 24) m

/-- `bytealloc.myr:380-389`: keep the slab or give it back to the system. `Canunmap` is true on all systems. -/
def dropslab (st : St) (i s : Nat) : Res St :=
  let b := st.bkt i
  if b.ncache < 4 then do
    let st ← sw st (s + 8) b.cache
    let st ← sw st (s + 16) 0
    .ok { st with bkt := fun j => if j = i then { b with cache := s, ncache := b.ncache + 1 } else st.bkt j }
  else do
    let h ← ld st s
    .ok (freemem st h (Slabsz * 2))

/-- `bytealloc.myr:366-390`: a slab without live chunks. -/
def retire (st : St) (i s : Nat) : Res St := do
  let nx ← ld st (s + 8)
  let pv ← ld st (s + 16)
  let st ← setprev st nx pv
  let pv ← ld st (s + 16)
  let nx ← ld st (s + 8)
  let st ← setnext st pv nx
  let nx ← ld st (s + 8)
  let st := if (st.bkt i).slabs = s then setslabs st i nx else st
  dropslab st i s

/-- `bytealloc.myr:359-364`: a slab which was full. -/
def relink (st : St) (i s : Nat) : Res St := do
  let hd := (st.bkt i).slabs
  let st ← setprev st hd s
  let st ← sw st (s + 8) hd
  let st ← sw st (s + 16) 0
  .ok (setslabs st i s)

/-- `bytealloc.myr:352-395` bktfree; 460-462 mtrunc. -/
def bktfree (st : St) (i m : Nat) : Res St := do
  let s := m / Slabsz * Slabsz
  let mg ← ld st (s + 40)
  if mg ≠ Magic then .abort
  else do
    let nf ← ld st (s + 32)
    if nf = 0 then do
      let st ← relink st i s
      putback st s m
    else if nf = nper i - 1 then retire st i s
    else putback st s m

/-- `bytealloc.myr:180-195`: look for a block in the cache. -/
def bigtake (sz : Nat) : List (Nat × Nat) → Option (Nat × List (Nat × Nat))
  | [] => none
  | e :: es => if sz < e.1 then some (e.2, (e.1 - sz, e.2 + sz) :: es) else (bigtake sz es).map fun r => (r.1, e :: r.2)

/-- `bytealloc.myr:168-207` bigalloc. -/
def bigalloc (os : Nat → Option Nat) (st : St) (sz : Nat) : Res (Nat × St) :=
  let sz := align sz Pagesz
  match bigtake sz st.big with
  | some (p, big) => .ok (p, { st with big := big })
  | none =>
    let r := getmem os st sz
    if r.1 ≠ Failmem then .ok r else .abort

/-- `bytealloc.myr:210`: what is to be evicted. -/
structure Evict where
  idx : Option Nat
  sz : Nat
  p : Nat

/-- `bytealloc.myr:219-241`: the cache and what is to be evicted. -/
def bigscan (sz p : Nat) : List (Nat × Nat) → Nat → Evict → List (Nat × Nat) × Evict
  | [], _, ev => ([], ev)
  | e :: es, i, ev =>
    if e.2 = p + sz then ((e.1 + sz, p) :: es, { ev with idx := none, sz := 0 })
    else if e.2 + e.1 = p then ((e.1 + sz, e.2) :: es, { ev with idx := none, sz := 0 })
    else
      let r := bigscan sz p es (i + 1) (if e.1 < ev.sz then ⟨some i, e.1, e.2⟩ else ev)
      (e :: r.1, r.2)

/-- `bytealloc.myr:209-257` bigfree. -/
def bigfree (st : St) (p sz : Nat) : St :=
  let sz := align sz Pagesz
  let r := bigscan sz p st.big 0 ⟨none, sz, p⟩
  let st := { st with big := match r.2.idx with
    | none => r.1
    | some j => r.1.set j (sz, p) }
  if 0 < r.2.sz then freemem st r.2.p r.2.sz else st

/-- `bytealloc.myr:401-404`. -/
def bitpos : List Nat := [0, 9, 1, 10, 13, 21, 2, 29, 11, 14, 16, 18, 22, 25, 3, 30, 8, 12, 20, 28, 15, 17, 24, 7, 19, 27, 23, 6, 26, 5, 4, 31]

/-- `bytealloc.myr:405-417` bktnum. -/
def bktnum (sz : Nat) : Nat :=
  let v := if 0 < sz then ((sz - 1) >>> 3) % 2 ^ 32 else 0
  let v := v ||| v >>> 1
  let v := v ||| v >>> 2
  let v := v ||| v >>> 4
  let v := v ||| v >>> 8
  let v := v ||| v >>> 16
  (bitpos[((v * 0x07c4acdd) % 2 ^ 32) >>> 27]?).getD 0

/-- `bytealloc.myr:426-433`: the loop of allocsz; `n` bounds the number of rounds. -/
def allocloop (sz : Nat) : Nat → Nat → Res Nat
  | 0, _ => .spin
  | n + 1, b => if b ≤ Bktmax then (if sz ≤ b then .ok b else allocloop sz n (b * 2)) else .abort

/-- `bytealloc.myr:423-438` allocsz. -/
def allocsz (sz : Nat) : Res Nat := if sz ≤ Bktmax then allocloop sz 64 16 else .ok (align sz Pagesz)

/-- `bytealloc.myr:126-143` bytealloc. -/
def bytealloc (os : Nat → Option Nat) (st : St) (sz : Nat) : Res (Nat × St) :=
  if sz ≤ Bktmax then bktalloc os st (bktnum sz) else bigalloc os st sz

/-- `lib/std/memops.myr` memfill, of memory which must be mapped. -/
def memfill (st : St) (p : Nat) (b : Byte) (n : Nat) : Res St :=
  if ∀ i, i < n → st.mapped (p + i) = true then .ok { st with mem := fun x => if p ≤ x ∧ x < p + n then b else st.mem x } else .ub

/-- `bytealloc.myr:89-95` zbytealloc. -/
def zbytealloc (os : Nat → Option Nat) (st : St) (sz : Nat) : Res (Nat × St) := do
  let r ← bytealloc os st sz
  let st ← memfill r.2 r.1 0 sz
  .ok (r.1, st)

/-- `bytealloc.myr:146-166` bytefree. -/
def bytefree (st : St) (p sz : Nat) : Res St :=
  if p = 0 then .ok st
  else do
    let st ← memfill st p 0xa8 sz
    if sz ≤ Bktmax then bktfree st (bktnum sz) p else .ok (bigfree st p sz)

/-- `bytealloc.myr:38-41` and 70-74: the heap at the start. -/
def init (m : Mem) : St := ⟨m, fun _ => false, fun _ => ⟨0, 0, 0⟩, List.replicate 32 (0, 0)⟩

end Verif.Alloc
