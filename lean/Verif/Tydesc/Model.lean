import Verif.Layout.Model

/-!
# Type descriptors: written by the compiler (`6/typeinfo.c`, `6/gengas.c`), read at run time
(`lib/std/introspect.myr`)

Numbers are naturals: nothing the code does here with values below 2^64 overflows.
-/

namespace Verif.Tydesc

open Verif.Layout

/-! ## Packed integers, compiler side -/

/-- The loop `for (i = 1; i < 8; i++) if (val < 1ULL << (7*i)) break;`, gengas.c:269-271
(genp9.c:268-270); the value of `i` after it. -/
def minlen (v i : Nat) : Nat :=
  if i < 8 then if v < 1 <<< (7 * i) then i else minlen v (i + 1) else i
termination_by 8 - i

/-- The loop `while (val != 0)`, gengas.c:277-280. -/
def tailbytes (v : Nat) : List Byte :=
  if _h : v ≠ 0 then BitVec.ofNat 8 v :: tailbytes (v >>> 8) else []
termination_by v
decreasing_by rw [Nat.shiftRight_eq_div_pow]; omega

/-- The first byte, gengas.c:272-274; the 64-bit masks are truncated to 8 bits. -/
def firstbyte (v shift : Nat) : Byte :=
  (BitVec.allOnes 8 <<< (shift + 1)) ||| (BitVec.ofNat 8 v &&& ~~~(BitVec.allOnes 8 <<< shift))

/-- `encodemin`, gengas.c:258-281 (and genp9.c:257-284). -/
def encodemin (v : Nat) : List Byte :=
  if v < 128 then [BitVec.ofNat 8 v]
  else
    let i := minlen v 1
    let shift := 8 - i
    firstbyte v shift :: tailbytes (v >>> shift)

/-- The loop at typeinfo.c:40-43. -/
def szloop (v i : Nat) : Res Nat :=
  if i < 8 then if v < 1 <<< (7 * i) then .ok i else szloop v (i + 1) else .abort
termination_by 8 - i

/-- `blobsz` of a packed integer, typeinfo.c:36-44. -/
def minsz (v : Nat) : Res Nat := if v ≥ 1 <<< 56 then .abort else szloop v 1

/-! ## Packed integers, run-time side -/

/-- The loop at introspect.myr:378-382; `mask` is a byte. -/
def lenloop (b : Byte) : Nat → Byte → Nat → Res Nat
  | 0, _, _ => .spin
  | fuel + 1, mask, len =>
    if b &&& mask ≠ mask <<< 1 then lenloop b fuel ((mask >>> 1) ||| 0x80) (len + 1) else .ok len

/-- The loop at introspect.myr:386-388. -/
def valloop (p : List Byte) (len i val : Nat) : Res Nat :=
  if i < len then do
    let b ← rdChk p i
    valloop p len (i + 1) (val ||| (b.toNat <<< (i * 8 - len)))
  else .ok val
termination_by len - i

/-- `getipacked`, introspect.myr:371-390.  The first loop ends within 8 rounds or never (see
`getipacked_spins`): the fuel stands for "never". -/
def getipacked (p : List Byte) : Res (Nat × Nat) := do
  let b ← rdChk p 0
  let len ← lenloop b 9 0x80 1
  let shift := 8 - len
  let val ← valloop p len 1 (b.toNat &&& (1 <<< shift - 1))
  pure (val, len)

/-! ## Blobs -/

/-- An address, as the eight bytes the assembler and linker put in. -/
abbrev Addr := Fin 8 → Byte

mutual
/-- The blobs used in type descriptors, /repo/mi/mi.h (`struct Blob`). -/
inductive Blob where
  /-- `Bti8` -/
  | i8 (v : Byte)
  /-- `Btimin` -/
  | min (v : Nat)
  /-- `Btbytes` -/
  | bytes (bs : List Byte)
  /-- `Btref` -/
  | ref (addr : Addr)
  /-- `Btseq` -/
  | seq (bs : Blobs)
/-- A list of blobs. -/
inductive Blobs where
  | nil
  | cons (b : Blob) (bs : Blobs)
end

mutual
/-- `blobsz`, typeinfo.c:23-55. -/
def blobsz : Blob → Res Nat
  | .i8 _ => .ok 1
  | .min v => minsz v
  | .bytes bs => .ok bs.length
  | .ref _ => .ok 8
  | .seq bs => blobsszs bs
/-- The loop at typeinfo.c:47-48. -/
def blobsszs : Blobs → Res Nat
  | .nil => .ok 0
  | .cons b bs => do
    let n ← blobsz b
    let m ← blobsszs bs
    pure (n + m)
end

mutual
/-- `writeblob`, gengas.c:297-327, the bytes assembled from its output. -/
def emit : Blob → List Byte
  | .i8 v => [v]
  | .min v => encodemin v
  | .bytes bs => bs
  | .ref a => List.ofFn a
  | .seq bs => emits bs
/-- The loop at gengas.c:321-322. -/
def emits : Blobs → List Byte
  | .nil => []
  | .cons b bs => emit b ++ emits bs
end

/-- `lappend` of a list, /repo/util/alloc.c. -/
def Blobs.app : Blobs → Blobs → Blobs
  | .nil, l => l
  | .cons b bs, l => .cons b (bs.app l)

/-! ## Descriptors -/

mutual
/-- A type, as far as descriptors show it. -/
inductive Desc where
  /-- An atomic type: its number in types.def, 1 to 17. -/
  | atom (tag : Nat)
  | ptr (t : Desc)
  | func (ts : Descs)
  | slice (t : Desc)
  | array (n : Option Nat) (t : Desc)
  | tuple (ts : Descs)
  | struct (ms : DMembs)
  | union (us : DUcons)
  /-- A named type: the address of its descriptor and the layout of the type it names. -/
  | name (addr : Addr) (lay : Ty)
/-- Element, argument and result types. -/
inductive Descs where
  | nil
  | cons (t : Desc) (ts : Descs)
/-- Members of a struct: full names and types. -/
inductive DMembs where
  | nil
  | cons (name : List Byte) (t : Desc) (ms : DMembs)
/-- Constructors of a union. -/
inductive DUcons where
  | nil
  | bare (name : List Byte) (us : DUcons)
  | cons (name : List Byte) (t : Desc) (us : DUcons)
end

/-- The layout of atomic types by number (types.def, typeinfo.c:249-276). -/
def atomTy : Nat → Ty
  | 1 => .void | 2 => .bool | 3 => .char | 4 => .int8 | 5 => .int16 | 6 => .int32 | 7 => .int32 | 8 => .int64
  | 9 => .int8 | 10 => .int8 | 11 => .int16 | 12 => .int32 | 13 => .int32 | 14 => .int64 | 15 => .flt32 | 16 => .flt64
  | 17 => .valist | _ => .void

mutual
/-- The layout of a type, /repo/6/typeinfo.c:240-353 (see `Verif.Layout`). -/
def lay : Desc → Ty
  | .atom t => atomTy t
  | .ptr _ => .ptr
  | .func _ => .func
  | .slice _ => .slice
  | .array n t => .array n (lay t)
  | .tuple ts => .tuple (lays ts)
  | .struct ms => .struct (laym ms)
  | .union us => .union (layu us)
  | .name _ l => .name l
/-- The same for tuples. -/
def lays : Descs → Tys
  | .nil => .nil
  | .cons t ts => .cons (lay t) (lays ts)
/-- The same for structs; the names do not matter for sizes. -/
def laym : DMembs → Membs
  | .nil => .nil
  | .cons _ t ts => .cons 0 (lay t) (laym ts)
/-- The same for unions. -/
def layu : DUcons → Ucons
  | .nil => .nil
  | .bare _ us => .bare (layu us)
  | .cons _ t us => .cons (lay t) (layu us)
end

/-- `ty->nsub`. -/
def Descs.length : Descs → Nat
  | .nil => 0
  | .cons _ ts => ts.length + 1

/-- `ty->nmemb` of a struct. -/
def DMembs.length : DMembs → Nat
  | .nil => 0
  | .cons _ _ ts => ts.length + 1

/-- `ty->nmemb` of a union. -/
def DUcons.length : DUcons → Nat
  | .nil => 0
  | .bare _ ts => ts.length + 1
  | .cons _ _ ts => ts.length + 1

/-- `namevec`, typeinfo.c:57-74; the argument is the full name. -/
def namevec (nm : List Byte) : Blobs := .cons (.min nm.length) (.cons (.bytes nm) .nil)

/-- `encodetypeinfo`, typeinfo.c:98-103. -/
def encodetypeinfo (t : Ty) : Blobs := .cons (.min (tysize t)) (.cons (.min (tyalign t)) .nil)

/-- typeinfo.c:194-197: the size in front. -/
def sized (sub : Blobs) : Res Blob := do
  let n ← blobsz (.seq sub)
  pure (.seq (.cons (.min n) sub))

mutual
/-- The list `sub` built by `tydescsub`, typeinfo.c:115-193 (type variables excluded). -/
def tysub : Desc → Res Blobs
  | .atom t => .ok (.cons (.i8 (BitVec.ofNat 8 t)) .nil)
  | .ptr t => do
    let b ← tysub t >>= sized
    pure (.cons (.i8 18) (.cons b .nil))
  | .slice t => do
    let b ← tysub t >>= sized
    pure (.cons (.i8 20) (.cons b .nil))
  | .array n t => do
    let b ← tysub t >>= sized
    pure (.cons (.i8 21) ((encodetypeinfo (.array n (lay t))).app
      (.cons (.min (n.getD 0)) (.cons b .nil))))
  | .func ts => do
    let bs ← tydescsubs ts
    pure (.cons (.i8 19) (.cons (.min ts.length) bs))
  | .tuple ts => do
    let bs ← tydescsubs ts
    pure (.cons (.i8 22) ((encodetypeinfo (.tuple (lays ts))).app (.cons (.min ts.length) bs)))
  | .struct ms => do
    let bs ← structmembs ms
    pure (.cons (.i8 23) ((encodetypeinfo (.struct (laym ms))).app (.cons (.min ms.length) bs)))
  | .union us => do
    let bs ← unionmembs us
    pure (.cons (.i8 24) ((encodetypeinfo (.union (layu us))).app (.cons (.min us.length) bs)))
  | .name a _ => .ok (.cons (.i8 (28 ||| 0x80)) (.cons (.ref a) .nil))
/-- The loops at typeinfo.c:166-167 and 172-173. -/
def tydescsubs : Descs → Res Blobs
  | .nil => .ok .nil
  | .cons t ts => do
    let b ← tysub t >>= sized
    let bs ← tydescsubs ts
    pure (.cons b bs)
/-- `structmemb`, typeinfo.c:76-84, in the loop at 178-179. -/
def structmembs : DMembs → Res Blobs
  | .nil => .ok .nil
  | .cons nm t ms => do
    let b ← tysub t >>= sized
    let bs ← structmembs ms
    pure ((namevec nm).app (.cons b bs))
/-- `unionmemb`, typeinfo.c:86-96, in the loop at 184-185. -/
def unionmembs : DUcons → Res Blobs
  | .nil => .ok .nil
  | .bare nm us => do
    let bs ← unionmembs us
    pure ((namevec nm).app (.cons (.min 1) (.cons (.i8 0) bs)))
  | .cons nm t us => do
    let b ← tysub t >>= sized
    let bs ← unionmembs us
    pure ((namevec nm).app (.cons b bs))
end

/-- `tydescsub`, typeinfo.c:105-198 (written out in the recursive calls above). -/
def tydescsub (t : Desc) : Res Blob := tysub t >>= sized

/-- `namedesc`, typeinfo.c:200-212. -/
def namesub (nm : List Byte) (t : Desc) : Res Blobs := do
  let b ← tydescsub t
  pure (.cons (.i8 28) ((namevec nm).app (.cons b .nil)))

/-- `tydescblob` of a named type, typeinfo.c:223-229 (without the label). -/
def tydescblob (nm : List Byte) (t : Desc) : Res Blob := do
  let sub ← namesub nm t
  let n ← blobsz (.seq sub)
  pure (.seq (.cons (.min n) (.cons (.seq sub) .nil)))

/-! ## Reading at run time -/

/-- `typecursor`, introspect.myr:43-48. -/
structure Cursor where
  nelt : Nat
  rem : List Byte
  isnamed : Bool
  isiter : Bool
deriving DecidableEq

/-- `typedesc`, introspect.myr:5-41: atomic types by number (0 for `Tynone`). -/
inductive TD where
  | atom (tag : Nat)
  | ptr (e : List Byte)
  | func (c : Cursor)
  | slice (e : List Byte)
  | array (n : Nat) (e : List Byte)
  | tuple (c : Cursor)
  | struct (c : Cursor)
  | union (c : Cursor)
  | name (nm e : List Byte)
deriving DecidableEq

/-- `e[k:]`. -/
def suffix (e : List Byte) (k : Nat) : Res (List Byte) := Verif.slice e k e.length

/-- `getsub`, introspect.myr:364-369. -/
def getsub (e : List Byte) : Res (List Byte) := do
  let (n, sz) ← getipacked e
  Verif.slice e sz (sz + n)

/-- `lentypecursor`, introspect.myr:350-355. -/
def lentypecursor (e : List Byte) : Res Cursor := do
  let (n, sz) ← getipacked e
  let r ← suffix e sz
  pure { nelt := n, rem := r, isnamed := false, isiter := true }

/-- `lennamecursor`, introspect.myr:357-362. -/
def lennamecursor (e : List Byte) : Res Cursor := do
  let (n, sz) ← getipacked e
  let r ← suffix e sz
  pure { nelt := n, rem := r, isnamed := true, isiter := true }

/-- `skiptypeinfo`, introspect.myr:317-324. -/
def skiptypeinfo (e : List Byte) : Res (List Byte) := do
  let (_, sz) ← getipacked e
  let e ← suffix e sz
  let (_, sz) ← getipacked e
  suffix e sz

/-- `namedesc`, introspect.myr:338-348. -/
def namedesc (e : List Byte) : Res (List Byte × List Byte) := do
  let (n, sz) ← getipacked e
  let name ← Verif.slice e sz (n + sz)
  let e ← suffix e (n + sz)
  let (n, sz) ← getipacked e
  let enc ← Verif.slice e sz (n + sz)
  pure (name, enc)

/-- Memory holding descriptors: the bytes from the given address on (an address is given by its
eight bytes). -/
abbrev Env := List Byte → Option (List Byte)

/-- `getenc`, introspect.myr:197-203, of a pointer to an address; slicing raw pointers is unchecked. -/
def getenc (env : Env) (addr : List Byte) : Res (List Byte) :=
  match env addr with
  | none => .ub
  | some m => do
    let (val, sz) ← getipacked (m.take 8)
    if sz + val ≤ m.length then pure ((m.take (sz + val)).drop sz) else .ub

/-- The address read by casting the slice `ti[1:]` to `byte##`, introspect.myr:258, 301. -/
def address (e : List Byte) : Res (List Byte) := if 8 ≤ e.length then .ok (e.take 8) else .ub

/-- `typedesc`, introspect.myr:205-263; `fuel` bounds the following of indirections. -/
def typedesc (env : Env) : Nat → List Byte → Res TD
  | 0, _ => .spin
  | fuel + 1, ti => do
    let t ← rdChk ti 0
    let ti ← suffix ti 1
    if t.toNat ≤ 17 then pure (.atom t.toNat)
    else if t = 18 then do
      let e ← getsub ti
      pure (.ptr e)
    else if t = 19 then do
      let c ← lentypecursor ti
      pure (.func c)
    else if t = 20 then do
      let e ← getsub ti
      pure (.slice e)
    else if t = 21 then do
      let ti ← skiptypeinfo ti
      let (len, sz) ← getipacked ti
      let ti ← suffix ti sz
      let e ← getsub ti
      pure (.array len e)
    else if t = 22 then do
      let ti ← skiptypeinfo ti
      let c ← lentypecursor ti
      pure (.tuple c)
    else if t = 23 then do
      let ti ← skiptypeinfo ti
      let c ← lennamecursor ti
      pure (.struct c)
    else if t = 24 then do
      let ti ← skiptypeinfo ti
      let c ← lennamecursor ti
      pure (.union c)
    else if t = 28 then do
      let (nm, e) ← namedesc ti
      pure (.name nm e)
    else if t = 28 ||| 0x80 then do
      let p ← address ti
      let e ← getenc env p
      typedesc env fuel e
    else .abort

/-- The name in front of an element, introspect.myr:154-159 and 181-186. -/
def namepart (tc : Cursor) : Res (List Byte × List Byte) :=
  if tc.isnamed then do
    let (n, sz) ← getipacked tc.rem
    let name ← Verif.slice tc.rem sz (sz + n)
    let rem ← suffix tc.rem (sz + n)
    pure (name, rem)
  else pure ([], tc.rem)

/-- The part of `ncnext` after the cases without iteration, introspect.myr:178-193. -/
def ncstep (tc : Cursor) : Res ((List Byte × List Byte) × Cursor) := do
  let (name, rem) ← namepart tc
  let (n, sz) ← getipacked rem
  let enc ← Verif.slice rem sz (sz + n)
  let rem ← suffix rem (sz + n)
  pure ((name, enc), { tc with rem := rem, nelt := tc.nelt - 1 })

/-- `ncnext`, introspect.myr:167-194. -/
def ncnext (tc : Cursor) : Res ((List Byte × List Byte) × Cursor) :=
  if tc.rem.length = 0 ∨ tc.nelt = 0 then .ok (([], []), tc)
  else if !tc.isiter then .ok (([], tc.rem), { tc with nelt := tc.nelt - 1 })
  else ncstep tc

/-- `ncpeek`, introspect.myr:140-165: the same without moving on. -/
def ncpeek (tc : Cursor) : Res (List Byte × List Byte) :=
  if tc.rem.length = 0 ∨ tc.nelt = 0 then .ok ([], [])
  else if !tc.isiter then .ok ([], tc.rem)
  else do
    let (name, rem) ← namepart tc
    let (n, sz) ← getipacked rem
    let enc ← Verif.slice rem sz (sz + n)
    pure (name, enc)

/-- `gettypeinfo`, introspect.myr:308-315: size and alignment. -/
def gettypeinfo (e : List Byte) : Res (Nat × Nat) := do
  let (size, sz) ← getipacked e
  let e ← suffix e sz
  let (al, _) ← getipacked e
  pure (size, al)

/-- The sizes and alignments given for atomic types, introspect.myr:269-288. -/
def atominfo : Nat → Nat × Nat
  | 0 => (0, 1) | 1 => (0, 1) | 2 => (0, 1) | 3 => (4, 4) | 4 => (1, 1) | 5 => (2, 2) | 6 => (4, 4) | 7 => (4, 4)
  | 8 => (8, 8) | 9 => (1, 1) | 10 => (1, 1) | 11 => (2, 2) | 12 => (4, 4) | 13 => (4, 4) | 14 => (8, 8)
  | 15 => (4, 4) | 16 => (8, 8) | _ => (8, 8)

/-- `typeinfo`, introspect.myr:265-306 (with `getnameinfo`, 326-336). -/
def typeinfo (env : Env) : Nat → List Byte → Res (Nat × Nat)
  | 0, _ => .spin
  | fuel + 1, ti => do
    let t ← rdChk ti 0
    let ti ← suffix ti 1
    if t.toNat ≤ 17 then pure (atominfo t.toNat)
    else if t = 18 then pure (8, 8)
    else if t = 19 then pure (8, 8)
    else if t = 20 then pure (16, 8)
    else if t = 21 ∨ t = 22 ∨ t = 23 ∨ t = 24 then gettypeinfo ti
    else if t = 28 then do
      let (_, e) ← namedesc ti
      typeinfo env fuel e
    else if t = 28 ||| 0x80 then do
      let p ← address ti
      let e ← getenc env p
      typeinfo env fuel e
    else .abort

end Verif.Tydesc
