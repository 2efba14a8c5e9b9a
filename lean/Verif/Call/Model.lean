import Verif.Layout.Lemmas
import Verif.Tydesc.Model

/-!
# Model of the calling convention

/repo/6/typeinfo.c:411-595 (`countargs`, `classify`), /repo/6/isel.c:549-838 (`placearg`,
`sufficientregs`, `gencall`), 1206-1322 (`movearg`, `retrievearg`, `addarglocs`), 1357-1412
(`epilogue`), /repo/6/simp.c:168-179 (`forcelocal`), 918-960 (`vatypeinfo`), 1061-1131 (`simpcall`)
and /repo/lib/std/varargs.myr.

Types are those of `Verif.Layout`.  Not modelled: the instructions which move the values (only where
they go and come from, and how wide they are), the environment pointer of closures (always in `rax`,
isel.c:1351, not an argument here), and the plan 9 back end.  Sizes are unbounded naturals.
-/

namespace Verif.Call

open Verif.Layout

/-! ## Classification -/

/-- `PassIn`, /repo/6/asm.h:48-53. -/
inductive PassIn where
  | noPref | sse | int | memory
deriving DecidableEq, Repr

/-- `ArgType`, /repo/6/asm.h:55-67, in the order of their numbers 0 to 8. -/
inductive ArgType where
  | void | reg | aggrI | aggrF | aggrII | aggrFI | aggrIF | aggrFF | big
deriving DecidableEq, Repr

/-- `isenum`, /repo/parse/type.c:53-78. -/
def isenum : Ucons → Bool
  | .nil => true
  | .bare us => isenum us
  | .cons _ _ => false

/-- `isstacktype`, /repo/parse/type.c:44-51 with the table of /repo/parse/types.def. -/
def isstacktype (t : Ty) : Bool :=
  match base t with
  | .func | .slice | .array _ _ | .tuple _ | .struct _ => true
  | .union us => !isenum us
  | _ => false

/-- `isaggregate`, typeinfo.c:534-540. -/
def isaggregate (t : Ty) : Bool :=
  match base t with
  | .array _ _ | .tuple _ | .struct _ => true
  | .union us => !isenum us
  | _ => false

/-- `tybase(t)->type == Tyvoid`. -/
def isvoid (t : Ty) : Bool :=
  match base t with
  | .void => true
  | _ => false

/-- `join_classification`, typeinfo.c:427-436. -/
def join (cur new : PassIn) : PassIn :=
  if cur = .noPref then new
  else if cur = .int ∨ new = .int then .int
  else if cur ≠ new then .memory
  else cur

/-- The array `pi` of typeinfo.c:549. -/
structure Pi where
  p0 : PassIn
  p1 : PassIn
deriving DecidableEq, Repr

/-- `join_classification(&p[k], new)`: the array has two entries. -/
def joinAt (p : Pi) (k : Nat) (new : PassIn) : Res Pi :=
  match k with
  | 0 => .ok { p with p0 := join p.p0 new }
  | 1 => .ok { p with p1 := join p.p1 new }
  | _ => .ub

/-- The loop over the elements of an array, typeinfo.c:525-527. -/
def repeated (f : Pi → Nat → Res (Pi × Nat)) : Nat → Pi → Nat → Res (Pi × Nat)
  | 0, p, off => .ok (p, off)
  | n + 1, p, off => do
    let (p, off) ← f p off
    repeated f n p off

mutual
/-- `classify_recursive`, typeinfo.c:438-532: the array and `*total_offset`. -/
def classifyRec : Ty → Pi → Nat → Res (Pi × Nat)
  | .void, p, off =>
    if off + 0 > 16 then .ok (⟨.memory, .memory⟩, off) else .ok (p, align (off + 0) (tyalign .void))
  | .bool, p, off => leaf .bool .int p off
  | .int8, p, off => leaf .int8 .int p off
  | .int16, p, off => leaf .int16 .int p off
  | .int32, p, off => leaf .int32 .int p off
  | .int64, p, off => leaf .int64 .int p off
  | .char, p, off => leaf .char .int p off
  | .ptr, p, off => leaf .ptr .int p off
  | .flt32, p, off => leaf .flt32 .sse p off
  | .flt64, p, off => leaf .flt64 .sse p off
  | .valist, p, off => leaf .valist .memory p off
  | .code, p, off => leaf .code .memory p off
  | .func, p, off => leaf .func .memory p off
  | .slice, p, off =>
    if off + 16 > 16 then .ok (⟨.memory, .memory⟩, off)
    else .ok (⟨join p.p0 .memory, join p.p1 .memory⟩, align (off + 16) (tyalign .slice))
  | .name t, p, off =>
    if off + tysize t > 16 then .ok (⟨.memory, .memory⟩, off)
    else do
      let (p, _) ← classifyRec t p off
      pure (p, align (off + tysize t) (tyalign t))
  | .tuple ts, p, off =>
    if off + tysize (.tuple ts) > 16 then .ok (⟨.memory, .memory⟩, off)
    else do
      let p ← classifyTys ts p off
      pure (p, align (off + tysize (.tuple ts)) (tyalign (.tuple ts)))
  | .struct ms, p, off =>
    if off + tysize (.struct ms) > 16 then .ok (⟨.memory, .memory⟩, off)
    else do
      let p ← classifyMembs ms p off
      pure (p, align (off + tysize (.struct ms)) (tyalign (.struct ms)))
  | .union us, p, off => leaf (.union us) (if isenum us then .int else .memory) p off
  | .array none t, p, off =>
    if off + 0 > 16 then .ok (⟨.memory, .memory⟩, off)
    else .ok (p, align (off + 0) (tyalign (.array none t)))
  | .array (some n) t, p, off =>
    if off + n * tysize t > 16 then .ok (⟨.memory, .memory⟩, off)
    else do
      let (p, _) ← repeated (classifyRec t) n p off
      pure (p, align (off + n * tysize t) (tyalign (.array (some n) t)))
/-- The cases of `classify_recursive` with a single `join_classification(cur, …)`,
typeinfo.c:447-452, 470, 479, 494, 516-519 and 531. -/
def leaf (t : Ty) (new : PassIn) (p : Pi) (off : Nat) : Res (Pi × Nat) :=
  if off + tysize t > 16 then .ok (⟨.memory, .memory⟩, off)
  else do
    let p ← joinAt p (off / 8) new
    pure (p, align (off + tysize t) (tyalign t))
/-- The loop typeinfo.c:497-500. -/
def classifyTys : Tys → Pi → Nat → Res Pi
  | .nil, p, _ => .ok p
  | .cons t ts, p, off => do
    let (p, off) ← classifyRec t p (alignto off t)
    classifyTys ts p off
/-- The loop typeinfo.c:504-508. -/
def classifyMembs : Membs → Pi → Nat → Res Pi
  | .nil, p, _ => .ok p
  | .cons _ t ms, p, off => do
    let (p, off) ← classifyRec t p (alignto off t)
    classifyMembs ms p off
end

/-- The decision typeinfo.c:556-588; `die` is `abort`. -/
def decideArg (p : Pi) (sz : Nat) : Res ArgType :=
  if p.p0 = .memory ∨ p.p1 = .memory then .ok .big
  else match p.p0 with
    | .int =>
      if sz ≤ 8 then .ok .aggrI
      else match p.p1 with
        | .int => .ok .aggrII
        | .sse => .ok .aggrIF
        | _ => .abort
    | .sse =>
      if sz ≤ 8 then .ok .aggrF
      else match p.p1 with
        | .int => .ok .aggrFI
        | .sse => .ok .aggrFF
        | _ => .abort
    | _ => .abort

/-- `classify`, typeinfo.c:542-595. -/
def classify (t : Ty) : Res ArgType :=
  if isvoid t then .ok .void
  else if isstacktype t then
    if isaggregate t && tysize t ≤ 16 then do
      let (p, _) ← classifyRec t ⟨.noPref, .noPref⟩ 0
      decideArg p (tysize t)
    else .ok .big
  else .ok .reg

/-! ## Where arguments go -/

/-- `Mode`, /repo/6/asm.h:37-46. -/
inductive Mode where
  | none | b | w | l | q | f | d
deriving DecidableEq, Repr

/-- `tymode`, isel.c:66-88. -/
def tymode (t : Ty) : Mode :=
  match base t with
  | .flt32 => .f
  | .flt64 => .d
  | t =>
    if isstacktype t then .q
    else if tysize t = 1 then .b
    else if tysize t = 2 then .w
    else if tysize t = 4 then .l
    else if tysize t = 8 then .q
    else .none

/-- `isfloatmode`, /repo/6/locs.c:34-38. -/
def Mode.isfloat : Mode → Bool
  | .f | .d => true
  | _ => false

/-- `isintmode`, /repo/6/locs.c:28-32. -/
def Mode.isint : Mode → Bool
  | .b | .w | .l | .q => true
  | _ => false

/-- Where (a part of) an argument is while the call is made: an integer or floating point argument
register by its index in `intargregs`/`floatargregs` (isel.c:25-29), or memory, by address and
length. -/
inductive Place where
  | ireg (k : Nat)
  | freg (k : Nat)
  | mem (addr : Int) (len : Nat)
deriving DecidableEq, Repr

/-- The counters `nfloats`, `nints` and `argoff`, isel.c:740-742 and 1260-1262. -/
structure PS where
  nf : Nat
  ni : Nat
  off : Nat
deriving DecidableEq, Repr

/-- `intargregs[k]`, isel.c:29: six entries. -/
def intreg (k : Nat) : Res Place := if k < 6 then .ok (.ireg k) else .ub

/-- `floatargregs[k]`, isel.c:25-28: eight entries. -/
def fltreg (k : Nat) : Res Place := if k < 8 then .ok (.freg k) else .ub

/-- The table `needed`, isel.c:614-623: integer and floating point registers.  It ends with
`ArgAggrFF`, so that the entry of `ArgBig` does not exist; those not given are zero. -/
def needed : ArgType → Option (Nat × Nat)
  | .void => some (0, 0) | .reg => some (0, 0)
  | .aggrI => some (1, 0)
  | .aggrF => some (0, 0)
  | .aggrII => some (2, 0)
  | .aggrFI => some (1, 1)
  | .aggrIF => some (1, 1)
  | .aggrFF => some (0, 2)
  | .big => none

/-- `sufficientregs`, isel.c:611-626.  For `ArgBig` C reads past the end of the table; the model
takes any answer `junk` for it (see `junk_irrelevant`). -/
def sufficientregs (junk : Bool) (a : ArgType) (nf ni : Nat) : Bool :=
  match needed a with
  | none => junk
  | some (i, f) => f + nf ≤ 8 && i + ni ≤ 6

/-- `placearg`, isel.c:549-609, for an argument of type `t`; `sp` is the stack pointer. -/
def placearg (sp : Int) (t : Ty) (p : PassIn) (vararg : Bool) (s : PS) : Res (Place × PS) :=
  let p :=
    if p = .noPref then
      if isstacktype t then .memory
      else if !vararg && (tymode t).isfloat && s.nf < 8 then .sse
      else if !vararg && (tymode t).isint && s.ni < 6 then .int
      else .memory
    else p
  match p with
  | .memory => .ok (.mem (sp + s.off) (tysize t), { s with off := s.off + tysize t })
  | .sse => do
    let r ← fltreg s.nf
    pure (r, { s with nf := s.nf + 1 })
  | .int => do
    let r ← intreg s.ni
    pure (r, { s with ni := s.ni + 1 })
  | .noPref => .abort

/-- The offset before an argument is placed, isel.c:747-752 and 1268-1274. -/
def aligned (t : Ty) (vararg : Bool) (off : Nat) : Nat :=
  let off := alignto off t
  if vararg then off else align off 8

/-- The class of an argument, isel.c:748-760 and 1269-1282. -/
def argClass (junk : Bool) (t : Ty) (vararg : Bool) (s : PS) : Res ArgType := do
  let a ← if vararg then pure .big else classify t
  pure (if sufficientregs junk a s.nf s.ni then a else .big)

/-- Two `placearg`s for the halves of an aggregate, isel.c:777-790. -/
def placeTwo (sp : Int) (t : Ty) (p q : PassIn) (vararg : Bool) (s : PS) : Res (List Place × PS) := do
  let (x, s) ← placearg sp t p vararg s
  let (y, s) ← placearg sp t q vararg s
  pure ([x, y], s)

/-- One round of the loop over the arguments, isel.c:744-794. -/
def callArg (junk : Bool) (sp : Int) (vararg : Bool) (t : Ty) (s : PS) : Res (List Place × PS) := do
  let s := { s with off := aligned t vararg s.off }
  let a ← argClass junk t vararg s
  match a with
  | .void => pure ([], s)
  | .reg | .big => do
    let (x, s) ← placearg sp t .noPref vararg s
    pure ([x], s)
  | .aggrI => do
    let (x, s) ← placearg sp t .int vararg s
    pure ([x], s)
  | .aggrF => do
    let (x, s) ← placearg sp t .sse vararg s
    pure ([x], s)
  | .aggrII => placeTwo sp t .int .int vararg s
  | .aggrIF => placeTwo sp t .int .sse vararg s
  | .aggrFI => placeTwo sp t .sse .int vararg s
  | .aggrFF => placeTwo sp t .sse .sse vararg s

/-- The loop isel.c:744-794 from the `i`th argument on. -/
def callArgs (junk : Bool) (sp : Int) (vasplit : Nat) : Nat → List Ty → PS → Res (List (List Place) × PS)
  | _, [], s => .ok ([], s)
  | i, t :: ts, s => do
    let (x, s) ← callArg junk sp (decide (vasplit ≤ i)) t s
    let (xs, s) ← callArgs junk sp vasplit (i + 1) ts s
    pure (x :: xs, s)

/-- `movearg`, isel.c:1206-1226, for a register. -/
def movearg (p : PassIn) (s : PS) : Res (List Place × PS) :=
  match p with
  | .int => do
    let r ← intreg s.ni
    pure ([r], { s with ni := s.ni + 1 })
  | .sse => do
    let r ← fltreg s.nf
    pure ([r], { s with nf := s.nf + 1 })
  | _ => .ok ([], s)

/-- `retrievearg`, isel.c:1228-1249.  The entry of `stkoff` is `-(argoff + 16)`, the variable is then
found at `rbp + argoff + 16` (`varloc`, isel.c:158-160). -/
def retrievearg (rbp : Int) (t : Ty) (vararg : Bool) (s : PS) : Res (List Place × PS) :=
  if isstacktype t then
    .ok ([.mem (rbp - (-(s.off + 2 * 8 : Int))) (tysize t)], { s with off := s.off + tysize t })
  else if !vararg && (tymode t).isfloat && s.nf < 8 then movearg .sse s
  else if !vararg && (tymode t).isint && s.ni < 6 then movearg .int s
  else if !isvoid t then
    .ok ([.mem (rbp - (-(s.off + 2 * 8 : Int))) (tysize t)], { s with off := s.off + tysize t })
  else .ok ([], s)

/-- Two `movearg`s, isel.c:1302-1318. -/
def moveTwo (p q : PassIn) (s : PS) : Res (List Place × PS) := do
  let (x, s) ← movearg p s
  let (y, s) ← movearg q s
  pure (x ++ y, s)

/-- One round of `addarglocs`, isel.c:1265-1321. -/
def funcArg (junk : Bool) (rbp : Int) (vararg : Bool) (t : Ty) (s : PS) : Res (List Place × PS) := do
  let s := { s with off := aligned t vararg s.off }
  let a ← argClass junk t vararg s
  match a with
  | .void => pure ([], s)
  | .reg | .big => retrievearg rbp t vararg s
  | .aggrI => movearg .int s
  | .aggrF => movearg .sse s
  | .aggrII => moveTwo .int .int s
  | .aggrIF => moveTwo .int .sse s
  | .aggrFI => moveTwo .sse .int s
  | .aggrFF => moveTwo .sse .sse s

/-- The loop of `addarglocs`, isel.c:1265-1321, from the `i`th argument on. -/
def funcArgs (junk : Bool) (rbp : Int) (nargs : Nat) : Nat → List Ty → PS → Res (List (List Place) × PS)
  | _, [], s => .ok ([], s)
  | i, t :: ts, s => do
    let (x, s) ← funcArg junk rbp (decide (nargs ≤ i)) t s
    let (xs, s) ← funcArgs junk rbp nargs (i + 1) ts s
    pure (x :: xs, s)

/-! ## Calls -/

/-- The type of a function: result, parameters, whether `...` follows them, and whether the type is
reached through a name (`type f = (… -> …)`). -/
structure FnTy where
  ret : Ty
  params : List Ty
  variadic : Bool
  named : Bool

/-- `countargs`, typeinfo.c:411-425. -/
def countargs (f : FnTy) : Res Nat := do
  let a ← classify f.ret
  let n := f.params.length + (if f.variadic then 1 else 0)
  let n := if a = .big then n + 1 else n
  pure (if f.variadic then n - 1 else n)

/-- The types of the arguments `gencall` passes to a function given values of the types
`f.params ++ va`, simp.c:1093-1122 and isel.c:703-717: the address for the result if it is returned
in memory, no void values, the address of the type description before the variadic ones. -/
def callerTys (f : FnTy) (va : List Ty) : Res (List Ty) := do
  let a ← classify f.ret
  pure ((if a = .big then [.ptr] else []) ++ f.params.filter (fun t => !isvoid t) ++
    (if f.variadic then .ptr :: va.filter (fun t => !isvoid t) else []))

/-- The types of the declared arguments of the function, simp.c:1346-1351 and 1395-1438: the address
for the result first if it is returned in memory. -/
def funcTys (f : FnTy) : Res (List Ty) := do
  let a ← classify f.ret
  pure ((if a = .big then [.ptr] else []) ++ f.params ++ (if f.variadic then [.valist] else []))

/-- `align`, /repo/util/util.c:95-102, for any alignment (`Verif.Layout.align` is for powers of two). -/
def calign (sz a : Nat) : Nat := if a = 0 then sz else (sz + a - 1) - ((sz + a - 1) &&& (a - 1))

/-- One round of the loop isel.c:729-733. -/
def bump (argsz : Nat) (t : Ty) : Nat := calign (calign argsz (min (tysize t) 8) + tysize t) 8

/-- The space for arguments, isel.c:701 and 729-734. -/
def argsz (ts : List Ty) : Nat := calign (ts.foldl bump 0) 16

/-- `gencall`, isel.c:697-794: the places of the arguments, `sp` being the stack pointer after the
space was made. -/
def gencall (junk : Bool) (sp : Int) (f : FnTy) (va : List Ty) : Res (List (List Place)) := do
  let n ← countargs f
  let ts ← callerTys f va
  let (pl, _) ← callArgs junk sp n 0 ts ⟨0, 0, 0⟩
  pure pl

/-- `addarglocs`, isel.c:1251-1322: the places of the parameters; `rbp` is the frame pointer set up by
`prologue` (isel.c:1336-1338). -/
def addarglocs (junk : Bool) (rbp : Int) (f : FnTy) : Res (List (List Place)) := do
  let n ← countargs f
  let ts ← funcTys f
  let (pl, _) ← funcArgs junk rbp n 0 ts ⟨0, 0, 0⟩
  pure pl

/-- The frame pointer of a function called with the stack pointer `sp`: the call pushes the return
address, `prologue` the old frame pointer (isel.c:1336-1338). -/
def framePtr (sp : Int) : Int := sp - 8 - 8

/-! ## Variadic arguments -/

/-- The types `vatypeinfo` describes, simp.c:918-945: those of the arguments of the call from
`ft->nsub - 1` on, counting the function itself as the first.  `ft` is not passed through `tybase`,
and a named type has one `sub` (/repo/parse/type.c:253-264). -/
def vatypes (f : FnTy) (va : List Ty) : List Ty :=
  let nsub := if f.named then 1 else 1 + f.params.length + (if f.variadic then 1 else 0)
  (.func :: f.params ++ va).drop (nsub - 1)

/-- `vastart`, /repo/lib/std/varargs.myr:30-52: the address of the first variadic argument, given that
of the type description. -/
def vastart (args : Nat) : Nat := args + 8

/-- The alignment of a pointer, varargs.myr:76, 84, 107 and 124, for `align` a power of two. -/
def alignptr (p al : Nat) : Nat := (p + al - 1) - (p + al - 1) % al

/-- `vanext`, varargs.myr:117-131: `ti` is the answer of `typeinfo`, `size` is `sizeof(@a)`.  The address
read and the new `ap.args`. -/
def vanext (args : Nat) (ti : Nat × Nat) (size : Nat) : Nat × Nat :=
  let p := alignptr args ti.2
  (p, p + size)

/-- `vabytes`, varargs.myr:100-115: address and length of the bytes, and the new `ap.args`. -/
def vabytes (args : Nat) (ti : Nat × Nat) : (Nat × Nat) × Nat :=
  let p := alignptr args ti.2
  ((args, ti.1), p + ti.1)

/-- Reading values with `vanext` one after the other: type descriptions and sizes. -/
def vareads : Nat → List ((Nat × Nat) × Nat) → List Nat
  | _, [] => []
  | args, (ti, size) :: rest =>
    let (p, args) := vanext args ti size
    p :: vareads args rest

/-- Reading the bytes of values one after the other. -/
def vabytess : Nat → List (Nat × Nat) → List (Nat × Nat)
  | _, [] => []
  | args, ti :: rest =>
    let (b, args) := vabytes args ti
    b :: vabytess args rest

/-! ## Returned values -/

/-- `tymodepart`, isel.c:90-108. -/
def tymodepart (t : Ty) (isfloat : Bool) (disp : Nat) : Mode :=
  if isfloat then (if tysize t - disp = 4 then .f else .d)
  else if tysize t - disp = 1 then .b
  else if tysize t - disp = 2 then .w
  else if tysize t - disp = 4 then .l
  else .q

/-- The bytes a move of a mode writes (the mode letter of the instruction is that of its first operand,
/repo/6/insns.def:33-37 and /repo/6/gengas.c:175-177). -/
def Mode.width : Mode → Nat
  | .none => 0 | .b => 1 | .w => 2 | .l => 4 | .q => 8 | .f => 4 | .d => 8

/-- The stores of a returned aggregate into the variable for it, isel.c:664-695 and 799-837:
displacement and width. -/
def retstores (t : Ty) : Res (List (Nat × Nat)) := do
  let a ← classify t
  let fst (f : Bool) := (0, (tymodepart t f 0).width)
  let snd (f : Bool) := (8, (tymodepart t f 8).width)
  match a with
  | .aggrI => pure [fst false]
  | .aggrF => pure [fst true]
  | .aggrII => pure [fst false, snd false]
  | .aggrIF => pure [fst false, snd true]
  | .aggrFI => pure [fst true, snd false]
  | .aggrFF => pure [fst true, snd true]
  | _ => pure []

/-- `forcelocal`, simp.c:168-179: the new frame size, which is also the distance of the variable
below the frame pointer. -/
def forcelocal (stksz size : Nat) : Nat := calign (stksz + size) (min size 8)

/-- `forcelocal` for variables of these sizes in turn: the distance of each. -/
def locals : Nat → List Nat → List Nat
  | _, [] => []
  | stksz, size :: rest => forcelocal stksz size :: locals (forcelocal stksz size) rest

end Verif.Call
