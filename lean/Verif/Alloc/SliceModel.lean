import Verif.Alloc.Model

/-!
# Slices on the heap: `lib/std/alloc.myr`

The size of the elements is `es`. As in `Model.lean` sizes are natural numbers which do not wrap.
-/

namespace Verif.Alloc

/-- `alloc.myr:98`. -/
scoped notation "Headmagic" => (1002855686514536461 : Nat)
/-- `alloc.myr:101`. -/
scoped notation "Tailmagic" => (18366205594280517293 : Nat)

/-- A slice: where it is and how many elements it has. The empty slice `[][:]` is at address zero (`6/simp.c:687-690`). -/
structure Sl where
  p : Nat
  len : Nat

/-- `alloc.myr:91-104` inithdr; the header has 16 bytes (45-48). -/
def inithdr (st : St) (p sz : Nat) : Res (Nat × St) := do
  let st ← sw st p (sz - 16)
  let st ← sw st (p + 8) Headmagic
  let pdat := p + 16
  let st ← sw st (pdat + sz - 16) Tailmagic
  .ok (pdat, st)

/-- `alloc.myr:65-76` slalloc. -/
def slalloc (os : Nat → Option Nat) (st : St) (len es : Nat) : Res (Sl × St) :=
  if len = 0 then .ok (⟨0, 0⟩, st)
  else do
    let sz ← allocsz (len * es + 16)
    let r ← bytealloc os st (sz + 8)
    let r ← inithdr r.2 r.1 sz
    .ok (⟨r.1, len⟩, r.2)

/-- `alloc.myr:78-89` slzalloc. -/
def slzalloc (os : Nat → Option Nat) (st : St) (len es : Nat) : Res (Sl × St) :=
  if len = 0 then .ok (⟨0, 0⟩, st)
  else do
    let sz ← allocsz (len * es + 16)
    let r ← zbytealloc os st (sz + 8)
    let r ← inithdr r.2 r.1 sz
    .ok (⟨r.1, len⟩, r.2)

/-- `alloc.myr:181-187` slcap. -/
def slcap (st : St) (p : Nat) : Res Nat := do
  let mg ← ld st (p - 16 + 8)
  if mg = Headmagic then ld st (p - 16) else .abort

/-- `alloc.myr:106-117` checkhdr. -/
def checkhdr (st : St) (p : Nat) : Res Unit := do
  let mg ← ld st (p - 16 + 8)
  if mg ≠ Headmagic then .abort
  else do
    let cap ← ld st (p - 16)
    let e ← ld st (p + cap)
    if e = Tailmagic then .ok () else .abort

/-- `alloc.myr:120-132` slfree. -/
def slfree (st : St) (s : Sl) : Res St :=
  if s.p = 0 then .ok st
  else do
    let _ ← checkhdr st s.p
    let cap ← slcap st s.p
    bytefree st (s.p - 16) (cap + 16 + 8)

/-- `alloc.myr:152-155`, the loop: each step adds at least one, so `len - nel` steps are enough. -/
def growLoop : Nat → Nat → Nat → Nat
  | 0, nel, _ => nel
  | f + 1, nel, len => if nel < len then growLoop f (nel + (nel / 4 + 1)) len else nel

/-- `alloc.myr:152-155`: the number of elements to allocate. -/
def grow (nel len : Nat) : Nat := growLoop (len - nel) nel len

/-- `lib/std/memops-impl.myr:10-30` memblit of memory which must be mapped; copies as if all was read first (see C62). -/
def memblit (st : St) (d s n : Nat) : Res St :=
  if (∀ i, i < n → st.mapped (d + i) = true) ∧ ∀ i, i < n → st.mapped (s + i) = true then
    .ok { st with mem := fun x => if d ≤ x ∧ x < d + n then st.mem (s + (x - d)) else st.mem x }
  else .ub

/-- `alloc.myr:141-144`. -/
def capof (st : St) (s : Sl) : Res Nat := if s.p ≠ 0 then slcap st s.p else .ok 0

/-- `alloc.myr:160-162`. -/
def freeold (st : St) (s : Sl) : Res St := if 0 < s.len then slfree st s else .ok st

/-- `alloc.myr:135-165` slgrow. -/
def slgrow (os : Nat → Option Nat) (st : St) (s : Sl) (len es : Nat) : Res (Sl × St) := do
  let cap ← capof st s
  if len * es ≤ cap then .ok (⟨s.p, len⟩, st)
  else do
    let nel := grow s.len len
    let r ← slalloc os st nel es
    let st ← memblit r.2 r.1.p s.p (min len s.len * es)
    let st ← freeold st s
    .ok (⟨r.1.p, len⟩, st)

/-- `alloc.myr:168-179` slzgrow. -/
def slzgrow (os : Nat → Option Nat) (st : St) (s : Sl) (len es : Nat) : Res (Sl × St) := do
  let r ← slgrow os st s len es
  if s.len < len then do
    let st ← memfill r.2 (r.1.p + s.len * es) 0 ((len - s.len) * es)
    .ok (r.1, st)
  else .ok r

end Verif.Alloc
