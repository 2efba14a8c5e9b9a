import Verif.Prelude

/-!
# Model of type layout, /repo/6/typeinfo.c:240-391, /repo/util/util.c:77-102, and of static
data, /repo/6/blob.c:108-340

The trees below are the parts of a type which are stored in a value: what a pointer, slice
or function refers to does not matter for the layout, so these are leaves and recursive
types (recursion always passes through one of them) are finite trees.  Sizes are unbounded
naturals; `align` is also given at 64 bits.
-/

namespace Verif.Layout

mutual
/-- A type, /repo/parse/parse.h (`struct Type`), seen by the layout functions. -/
inductive Ty where
  | void | bool | int8 | int16 | int32 | int64 | char | flt32 | flt64
  | ptr | valist | code | func | slice
  | name (t : Ty)
  /-- `Tyarray` with its (folded) length; `none` if there is no length. -/
  | array (n : Option Nat) (t : Ty)
  | tuple (ts : Tys)
  | struct (ms : Membs)
  | union (us : Ucons)
/-- The `sub` array of a tuple type. -/
inductive Tys where
  | nil
  | cons (t : Ty) (ts : Tys)
/-- The `sdecls` array of a struct type: names and types. -/
inductive Membs where
  | nil
  | cons (name : Nat) (t : Ty) (ms : Membs)
/-- The `udecls` array of a union type: constructors without and with a value. -/
inductive Ucons where
  | nil
  | bare (us : Ucons)
  | cons (t : Ty) (us : Ucons)
end

/-- `align`, util.c:95-102, at `size_t`. -/
def align64 (sz a : BitVec 64) : BitVec 64 :=
  if a = 0#64 then sz else (sz + a - 1#64) &&& ~~~(a - 1#64)

/-- `align` for powers of two without overflow (see `align64_eq`). -/
def align (sz a : Nat) : Nat :=
  if a = 0 then sz else (sz + a - 1) - (sz + a - 1) % a

mutual
/-- `tyalign`, typeinfo.c:321-353, before the minimum with `Ptrsz`, and after `tybase`.  The sizes
of the leaves are put in. -/
def rawalign : Ty → Nat
  | .void => max 1 0 | .bool => max 1 1 | .int8 => max 1 1 | .int16 => max 1 2 | .int32 => max 1 4
  | .int64 => max 1 8 | .char => max 1 4 | .flt32 => max 1 4 | .flt64 => max 1 8
  | .ptr => max 1 8 | .valist => max 1 8 | .code => max 1 8 | .func => max 1 16
  | .slice => 8
  | .name t => rawalign t
  | .array _ t => min (rawalign t) 8
  | .tuple ts => tysAlign 1 ts
  | .struct ms => membsAlign 1 ms
  | .union us => uconsAlign 4 us
/-- The loop at typeinfo.c:333-334. -/
def tysAlign (a : Nat) : Tys → Nat
  | .nil => a
  | .cons t ts => tysAlign (max a (min (rawalign t) 8)) ts
/-- The loop at typeinfo.c:343-344. -/
def membsAlign (a : Nat) : Membs → Nat
  | .nil => a
  | .cons _ t ms => membsAlign (max a (min (rawalign t) 8)) ms
/-- The loop at typeinfo.c:338-340. -/
def uconsAlign (a : Nat) : Ucons → Nat
  | .nil => a
  | .bare us => uconsAlign a us
  | .cons t us => uconsAlign (max a (min (rawalign t) 8)) us
end

/-- `tyalign`, typeinfo.c:321-353. -/
def tyalign (t : Ty) : Nat := min (rawalign t) 8

/-- `alignto`, /repo/6/simp.c:87-91. -/
def alignto (sz : Nat) (t : Ty) : Nat := align sz (tyalign t)

mutual
/-- `tysize`, typeinfo.c:240-319. -/
def tysize : Ty → Nat
  | .void => 0 | .bool => 1 | .int8 => 1 | .int16 => 2 | .int32 => 4
  | .int64 => 8 | .char => 4 | .flt32 => 4 | .flt64 => 8
  | .ptr => 8 | .valist => 8 | .code => 8 | .func => 16 | .slice => 16
  | .name t => tysize t
  | .array none _ => 0
  | .array (some n) t => n * tysize t
  | .tuple ts => alignto (tysSize 0 ts) (.tuple ts)
  | .struct ms => alignto (membsSize 0 ms) (.struct ms)
  | .union us => align (uconsSize 4 us) (tyalign (.union us))
/-- The loop at typeinfo.c:291-294. -/
def tysSize (sz : Nat) : Tys → Nat
  | .nil => sz
  | .cons t ts => tysSize (alignto sz t + tysize t) ts
/-- The loop at typeinfo.c:299-302. -/
def membsSize (sz : Nat) : Membs → Nat
  | .nil => sz
  | .cons _ t ms => membsSize (alignto sz t + tysize t) ms
/-- The loop at typeinfo.c:308-310. -/
def uconsSize (sz : Nat) : Ucons → Nat
  | .nil => sz
  | .bare us => uconsSize sz us
  | .cons t us => uconsSize (max sz (tysize t + 4)) us
end

/-- The loop of `tyoffset` for a struct member, typeinfo.c:369-377. -/
def structOffset (memb : Nat) (off : Nat) : Membs → Res Nat
  | .nil => .abort
  | .cons name t ms =>
    let off := alignto off t
    if memb = name then .ok off else structOffset memb (off + tysize t) ms

/-- The loop of `tyoffset` for a tuple element, typeinfo.c:381-386: `off` is the offset of the
first type of the list. -/
def tupleOffset : Nat → Nat → Tys → Res Nat
  | 0, off, .cons _ _ => .ok off
  | _ + 1, _, .cons _ .nil => .abort
  | i + 1, off, .cons t (.cons u ts) => tupleOffset i (alignto (off + tysize t) u) (.cons u ts)
  | _, _, .nil => .abort

/-- The loop of `tupget` (simp.c:747-754), also used by `simptup` (simp.c:840-845). -/
def tupgetOffset : Nat → Nat → Tys → Res Nat
  | _, _, .nil => .ub
  | 0, off, .cons t _ => .ok (alignto off t)
  | i + 1, off, .cons t ts => tupgetOffset i (alignto off t + tysize t) ts

/-- Offset of the value of a union constructor, simp.c:887 and 909. -/
def uconOffset (t : Ty) : Nat := alignto 4 t

/-! ## Static data -/

mutual
/-- A constant initialiser.  The bytes of literals, references and slices (blob.c:116-210,
270-283) are opaque.  The members of a struct literal are listed in the order of the
declarations, `skip` for those without a value (`structmemb`, blob.c:212-221). -/
inductive Val where
  | lit (bs : List Byte)
  | tup (vs : Vals)
  | struct (ms : SVals)
  | ucon (tag : List Byte)
  | uconv (tag : List Byte) (t : Ty) (v : Val)
  | arr (vs : AVals)
/-- The arguments of a tuple literal with their types. -/
inductive Vals where
  | nil
  | cons (t : Ty) (v : Val) (vs : Vals)
/-- The members of a struct literal. -/
inductive SVals where
  | nil
  | skip (t : Ty) (ms : SVals)
  | cons (t : Ty) (v : Val) (ms : SVals)
/-- The elements of an array literal with their indices. -/
inductive AVals where
  | nil
  | cons (idx : Nat) (t : Ty) (v : Val) (vs : AVals)
end

/-- `blobpad`, blob.c:108-114: that many zero bytes.  (A negative count is a huge `size_t`.) -/
def pad (n : Int) : Res (List Byte) := if n < 0 then .ub else .ok (List.replicate n.toNat 0#8)

/-- The tag of a constructor with a value of type `t` and the padding after it, the first half of
`blobucon`, blob.c:256-263. -/
def uconHead (tag : List Byte) (t : Ty) : Res (List Byte) :=
  if tyalign t > tag.length then do
    let p ← pad ((tyalign t : Nat) - tag.length)
    pure (tag ++ p)
  else pure tag

mutual
/-- `blobrec`, blob.c:285-340, for an expression of type `ty` (after `tybase`): the bytes emitted;
their number is the result of the C function. -/
def blobrec (ty : Ty) : Val → Res (List Byte)
  | .lit bs => .ok bs
  | .tup .nil => .ok []
  | .tup (.cons t v vs) => do
    let bs ← blobtup [] (.cons t v vs)
    let p ← pad ((alignto bs.length ty : Nat) - bs.length)
    pure (bs ++ p)
  | .struct ms => do
    let bs ← blobstruct [] ms
    let p ← pad ((alignto bs.length ty : Nat) - bs.length)
    pure (bs ++ p)
  | .ucon tag => do
    let p ← pad ((tysize ty : Nat) - tag.length)
    pure (tag ++ p)
  | .uconv tag t v => do
    let bs ← uconHead tag t
    let d ← blobrec t v
    let bs := bs ++ d
    let p ← pad ((tysize ty : Nat) - bs.length)
    pure (bs ++ p)
  | .arr .nil => .ok []
  | .arr (.cons i t v vs) => do
    let bs ← blobarr [] 0 (.cons i t v vs)
    let p ← pad ((alignto bs.length ty : Nat) - bs.length)
    pure (bs ++ p)
/-- The loop at blob.c:303-307. -/
def blobtup (bs : List Byte) : Vals → Res (List Byte)
  | .nil => .ok bs
  | .cons t v vs => do
    let p ← pad ((alignto bs.length t : Nat) - bs.length)
    let d ← blobrec t v
    blobtup (bs ++ p ++ d) vs
/-- The loop at blob.c:236-244. -/
def blobstruct (bs : List Byte) : SVals → Res (List Byte)
  | .nil => .ok bs
  | .skip t ms => do
    let p ← pad ((alignto bs.length t : Nat) - bs.length)
    let d ← pad (tysize t)
    blobstruct (bs ++ p ++ d) ms
  | .cons t v ms => do
    let p ← pad ((alignto bs.length t : Nat) - bs.length)
    let d ← blobrec t v
    blobstruct (bs ++ p ++ d) ms
/-- The loop at blob.c:322-329; `last` as there. -/
def blobarr (bs : List Byte) (last : Nat) : AVals → Res (List Byte)
  | .nil => .ok bs
  | .cons idx t v vs => do
    let p ← if idx ≠ last + 1 then pad (((idx : Int) - last) * tysize t) else pure []
    let d ← blobrec t v
    blobarr (bs ++ p ++ d) (idx + 1) vs
end

end Verif.Layout
