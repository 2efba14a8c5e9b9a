import Verif.Prelude

/-!
# Interface files (`util/pack.c`, `parse/use.c`)

A file being written is the list of bytes written; a file being read is the list of the bytes
left.  `long` and `size_t` have 64 bits, `int` has 32.  `fread` and `fwrite` transfer all the
bytes asked for unless the file ends (short transfers are not modelled); `die` is `abort`.
-/

namespace Verif.Use

/-- `long`. -/
abbrev Long := BitVec 64

/-- A function reading from a file: the value and what is left of the file. -/
def R (α : Type) := List Byte → Res (α × List Byte)

/-- Reading one thing after another. -/
instance : Monad R where
  pure a := fun s => .ok (a, s)
  bind r f := fun s => match r s with
    | .ok (a, s') => f a s'
    | .abort => .abort
    | .ub => .ub
    | .spin => .spin

/-- A function that dies. -/
def R.fail {α : Type} (e : Res (α × List Byte)) : R α := fun _ => e

/-! ## `util/pack.c` -/

/-- `be32`, pack.c:46-53. -/
def be32 (v : Long) : List Byte :=
  [(v.sshiftRight 24).setWidth 8, (v.sshiftRight 16).setWidth 8, (v.sshiftRight 8).setWidth 8, v.setWidth 8]

/-- One line `v |= ((long)b << k);` of `host32` with `int32_t v`, pack.c:59-62. -/
def orIn (v : BitVec 32) (b : Byte) (k : Nat) : BitVec 32 :=
  (v.signExtend 64 ||| (b.setWidth 64 <<< k)).setWidth 32

/-- `host32`, pack.c:55-64. -/
def host32 (b0 b1 b2 b3 : Byte) : Long :=
  (orIn (orIn (orIn (orIn 0 b0 24) b1 16) b2 8) b3 0).signExtend 64

/-- `be64`, pack.c:17-28. -/
def be64 (v : Long) : List Byte :=
  [(v.sshiftRight 56).setWidth 8, (v.sshiftRight 48).setWidth 8, (v.sshiftRight 40).setWidth 8,
   (v.sshiftRight 32).setWidth 8, (v.sshiftRight 24).setWidth 8, (v.sshiftRight 16).setWidth 8,
   (v.sshiftRight 8).setWidth 8, v.setWidth 8]

/-- `host64`, pack.c:30-44. -/
def host64 (b0 b1 b2 b3 b4 b5 b6 b7 : Byte) : Long :=
  0 ||| (b0.setWidth 64 <<< 56) ||| (b1.setWidth 64 <<< 48) ||| (b2.setWidth 64 <<< 40) ||| (b3.setWidth 64 <<< 32) |||
    (b4.setWidth 64 <<< 24) ||| (b5.setWidth 64 <<< 16) ||| (b6.setWidth 64 <<< 8) ||| (b7.setWidth 64 <<< 0)

/-- `rdbuf`, pack.c:83-96. -/
def rdbuf (n : Nat) : R (List Byte) := fun s => if n ≤ s.length then .ok (s.take n, s.drop n) else .abort

/-- `rdbyte`, pack.c:105-113. -/
def rdbyte : R Byte := fun
  | [] => .abort
  | b :: s => .ok (b, s)

/-- `wrbyte`, pack.c:98-103. -/
def wrbyte (b : Byte) : List Byte := [b]

/-- `wrbool`, pack.c:222-226, of a flag that is 0 or 1. -/
def wrbool (b : Bool) : List Byte := wrbyte (if b then 1 else 0)

/-- `rdbool`, pack.c:228-232, used as a condition. -/
def rdbool : R Bool := do
  let b ← rdbyte
  pure (b ≠ 0)

/-- `wrint`, pack.c:115-121. -/
def wrint (v : Long) : List Byte := be32 v

/-- `rdint`, pack.c:123-129. -/
def rdint : R Long := do
  match ← rdbuf 4 with
  | [b0, b1, b2, b3] => pure (host32 b0 b1 b2 b3)
  | _ => R.fail .ub

/-- `wrstr`, pack.c:131-143; `none` is the null pointer, `some s` a string with the bytes `s`
(none of which is 0) before its terminator. -/
def wrstr : Option (List Byte) → List Byte
  | none => wrint (-1)
  | some s => wrint (BitVec.ofNat 64 s.length) ++ s

/-- `rdstr`, pack.c:145-160: the string read ends at its first zero byte. -/
def rdstr : R (Option (List Byte)) := do
  let len ← rdint
  if len = -1 then pure none
  else
    let s ← rdbuf len.toNat
    pure (some (s.takeWhile (· ≠ 0)))

/-- `wrlenstr`, pack.c:162-167. -/
def wrlenstr (s : List Byte) : List Byte := wrint (BitVec.ofNat 64 s.length) ++ s

/-- `rdlenstr`, pack.c:169-176; with length -1 the allocation has size 0 and is overrun. -/
def rdlenstr : R (List Byte) := do
  let len ← rdint
  if len = -1 then R.fail .ub
  else rdbuf len.toNat

/-- `wrflt`, pack.c:178-191, of the double with the given bits. -/
def wrflt (v : BitVec 64) : List Byte := be64 v

/-- `rdflt`, pack.c:193-205. -/
def rdflt : R (BitVec 64) := do
  match ← rdbuf 8 with
  | [b0, b1, b2, b3, b4, b5, b6, b7] => pure (host64 b0 b1 b2 b3 b4 b5 b6 b7)
  | _ => R.fail .ub

/-! ## Trees -/

/-- A type pointer in a tree: null, a builtin type (its number) or another type (its id).  What the
fix-up pass makes of the id (`fixtypemappings`, use.c:782-820) is not modelled. -/
inductive TyRef where
  | none
  | builtin (t : Nat)
  | id (n : Nat)
deriving DecidableEq, Repr

mutual
/-- The fields of syntax trees that are pickled, parse.h:229-370; `null` is the null pointer.
Node ids, `inferred`, `ispat`, declaration ids, environments and source files are not in the file. -/
inductive Node where
  | null
  | block (line : BitVec 32) (scope : Stab) (stmts : Nodes)
  | ifstmt (line : BitVec 32) (cond iftrue iffalse : Node)
  | loopstmt (line : BitVec 32) (init cond step body : Node)
  | iterstmt (line : BitVec 32) (elt seq body : Node)
  | matchstmt (line : BitVec 32) (val : Node) (matches' : Nodes)
  | mtch (line : BitVec 32) (pat block : Node)
  | use (line : BitVec 32) (islocal : Bool) (name : Option (List Byte))
  | expr (line : BitVec 32) (op : Byte) (ty param : TyRef) (isconst : Bool) (idx : Node) (args : Nodes)
  | lit (line : BitVec 32) (ty : TyRef) (nelt : Nat) (l : Lit)
  | name (line : BitVec 32) (ns name : Option (List Byte))
  | decl (line : BitVec 32) (name : Node) (ty : TyRef) (isconst isgeneric isextern isnoret ispkglocal : Bool)
    (init : Node)
  | func (line : BitVec 32) (ty : TyRef) (scope : Stab) (args : Nodes) (body : Node)
  | impl (line : BitVec 32) (traitname : Node) (uid : Nat) (ty : TyRef) (aux : List TyRef) (decls : Syms)
/-- Literals, parse.h:257-273. -/
inductive Lit where
  | chr (v : BitVec 32)
  | bool (b : Bool)
  | int (v : BitVec 64)
  | flt (v : BitVec 64)
  | str (s : List Byte)
  | func (f : Node)
  | lbl (s : Option (List Byte))
  | void
/-- A list of nodes. -/
inductive Nodes where
  | nil
  | cons (n : Node) (ns : Nodes)
/-- A symbol table as pickled: the declarations and the types in the order of `htkeys`. -/
inductive Stab where
  | mk (name : Option (List Byte)) (dcls : Syms) (tys : STys)
/-- A list of declarations. -/
inductive Syms where
  | nil
  | cons (s : Sym) (ss : Syms)
/-- A declaration as pickled by `wrsym`; `init` is written only if `isexportval`. -/
inductive Sym where
  | mk (line : BitVec 32) (name : Node) (ty : TyRef) (vis : Nat) (isconst isgeneric isextern ispkglocal isnoret
      isexportval isinit isfini : Bool) (init : Node)
/-- A list of named types. -/
inductive STys where
  | nil
  | cons (name : Node) (ty : TyRef) (ts : STys)
end

/-- `Vishidden`, parse.h:68. -/
def vishidden : Nat := 2

/-- `Builtinmask`, use.c:44. -/
def builtinmask : Long := 0x40000000

/-- The number of nodes (`nargs`, `nstmts`, `nmatches` of parse.h:229-370). -/
def Nodes.length : Nodes → Nat
  | .nil => 0
  | .cons _ ns => ns.length + 1

/-- The number of declarations (`htkeys` in use.c:79, `ndecls` of parse.h:364). -/
def Syms.length : Syms → Nat
  | .nil => 0
  | .cons _ ns => ns.length + 1

/-- The number of types (`htkeys` in use.c:86). -/
def STys.length : STys → Nat
  | .nil => 0
  | .cons _ _ ns => ns.length + 1

/-! ## Writing -/

/-- `wrint` of a `size_t` or of a nonnegative `int`. -/
def wrcnt (n : Nat) : List Byte := wrint (BitVec.ofNat 64 n)

/-- `wrtype`, use.c:315-328; it dies if the type id has bit 30 or more set, which is excluded by a
hypothesis below. -/
def wrtype : TyRef → List Byte
  | .none => wrint 0
  | .builtin t => wrint (BitVec.ofNat 64 t ||| builtinmask)
  | .id n => wrcnt n

/-- A list of type references. -/
def wrtypes (l : List TyRef) : List Byte := l.flatMap wrtype

/-- Writing a line number, an `int`. -/
def wrline (l : BitVec 32) : List Byte := wrint (l.signExtend 64)

mutual
/-- `pickle`, use.c:489-607; the node and literal type numbers are those of nodes.def and lits.def. -/
def pickle : Node → List Byte
  | .null => wrbyte 0
  | .block line scope stmts =>
    wrbyte 1 ++ wrline line ++ wrstab scope ++ wrcnt stmts.length ++ pickles stmts
  | .ifstmt line c t f => wrbyte 2 ++ wrline line ++ pickle c ++ pickle t ++ pickle f
  | .loopstmt line i c s b => wrbyte 3 ++ wrline line ++ pickle i ++ pickle c ++ pickle s ++ pickle b
  | .iterstmt line e s b => wrbyte 4 ++ wrline line ++ pickle e ++ pickle s ++ pickle b
  | .matchstmt line v ms => wrbyte 5 ++ wrline line ++ pickle v ++ wrcnt ms.length ++ pickles ms
  | .mtch line p b => wrbyte 6 ++ wrline line ++ pickle p ++ pickle b
  | .use line l n => wrbyte 7 ++ wrline line ++ wrbool l ++ wrstr n
  | .expr line op ty param isconst idx args =>
    wrbyte 8 ++ wrline line ++ wrbyte op ++ wrtype ty ++ wrbool (param ≠ .none) ++
      (if param ≠ .none then wrtype param else []) ++ wrbool isconst ++ pickle idx ++ wrcnt args.length ++ pickles args
  | .lit line ty nelt l => wrbyte 9 ++ wrline line ++ wrbyte (littype l) ++ wrtype ty ++ wrcnt nelt ++ wrlit l
  | .name line ns nm =>
    wrbyte 10 ++ wrline line ++ wrbool (ns ≠ none) ++ (if ns ≠ none then wrstr ns else []) ++ wrstr nm
  | .decl line nm ty c g e r p init =>
    wrbyte 11 ++ wrline line ++ pickle nm ++ wrtype ty ++ wrbool c ++ wrbool g ++ wrbool e ++ wrbool r ++ wrbool p ++
      pickle init
  | .func line ty scope args body =>
    wrbyte 12 ++ wrline line ++ wrtype ty ++ wrstab scope ++ wrcnt args.length ++ pickles args ++ pickle body
  | .impl line tn uid ty aux decls =>
    wrbyte 13 ++ wrline line ++ pickle tn ++ wrcnt uid ++ wrtype ty ++ wrcnt aux.length ++ wrtypes aux ++
      wrcnt decls.length ++ wrsyms decls
/-- `n->lit.littype`, lits.def. -/
def littype : Lit → Byte
  | .chr _ => 0
  | .bool _ => 1
  | .int _ => 2
  | .flt _ => 3
  | .str _ => 4
  | .func _ => 5
  | .lbl _ => 6
  | .void => 7
/-- The switch at use.c:528-537. -/
def wrlit : Lit → List Byte
  | .void => []
  | .chr v => wrint (v.setWidth 64)
  | .int v => wrint v
  | .flt v => wrflt v
  | .str s => wrlenstr s
  | .lbl s => wrstr s
  | .bool b => wrbool b
  | .func f => pickle f
/-- The loops calling `pickle`. -/
def pickles : Nodes → List Byte
  | .nil => []
  | .cons n ns => pickle n ++ pickles ns
/-- `wrstab`, use.c:70-93. -/
def wrstab : Stab → List Byte
  | .mk name dcls tys => wrstr name ++ wrcnt dcls.length ++ wrsyms dcls ++ wrcnt tys.length ++ wrstys tys
/-- The loops calling `wrsym`. -/
def wrsyms : Syms → List Byte
  | .nil => []
  | .cons s ss => wrsym s ++ wrsyms ss
/-- `wrsym`, use.c:164-184. -/
def wrsym : Sym → List Byte
  | .mk line nm ty vis c g e p r x i f init =>
    wrline line ++ pickle nm ++ wrtype ty ++ wrcnt vis ++ wrbool c ++ wrbool g ++ wrbool e ++ wrbool p ++ wrbool r ++
      wrbool x ++ wrbool i ++ wrbool f ++ (if x then pickle init else [])
/-- The loop at use.c:88-91. -/
def wrstys : STys → List Byte
  | .nil => []
  | .cons nm t ts => pickle nm ++ wrtype t ++ wrstys ts
end

/-! ## Reading -/

/-- A loop reading `n` things. -/
def rep {α : Type} (r : R α) : Nat → R (List α)
  | 0 => pure []
  | n + 1 => do
    let a ← r
    let as ← rep r n
    pure (a :: as)

/-- `if (b) x = r(fd);` where `x` is `d` before. -/
def rdopt {α : Type} (b : Bool) (r : R α) (d : α) : R α := if b then r else pure d

/-- `rdint` into a `size_t`. -/
def rdcnt : R Nat := do
  let n ← rdint
  pure n.toNat

/-- `rdint` into an `int` used as an upper bound. -/
def rdcnti : R Nat := do
  let n ← rdint
  pure (n.setWidth 32).toInt.toNat

/-- `rdint` into an `int`. -/
def rdline : R (BitVec 32) := do
  let n ← rdint
  pure (n.setWidth 32)

/-- `rdtype`, use.c:330-344. -/
def rdtype : R TyRef := do
  let tid ← rdint
  if tid = 0 then pure .none
  else if tid &&& builtinmask ≠ 0 then pure (.builtin (tid &&& ~~~ builtinmask).toNat)
  else pure (.id tid.toNat)

/-- The array filled by the loops calling `unpickle`, use.c:635-636 and others. -/
def Nodes.ofList : List Node → Nodes
  | [] => .nil
  | n :: ns => .cons n (ofList ns)

/-- The declarations read by the loops at use.c:110-111, 738-739. -/
def Syms.ofList : List Sym → Syms
  | [] => .nil
  | n :: ns => .cons n (ofList ns)

/-- The types read by the loop at use.c:115-119. -/
def STys.ofList : List (Node × TyRef) → STys
  | [] => .nil
  | (n, t) :: ns => .cons n t (ofList ns)

/-- `rdsym`, use.c:186-215, with `u` for `unpickle`; of the visibility only whether it is
`Vishidden` is kept. -/
def rdsym (u : R Node) : R Sym := do
  let line ← rdline
  let nm ← u
  let ty ← rdtype
  let v ← rdint
  let c ← rdbool
  let g ← rdbool
  let e ← rdbool
  let p ← rdbool
  let r ← rdbool
  let x ← rdbool
  let i ← rdbool
  let f ← rdbool
  let init ← rdopt x u .null
  pure (.mk line nm ty (if v = BitVec.ofNat 64 vishidden then vishidden else 0) c g e p r x i f init)

/-- The body of the loop at use.c:115-119. -/
def rdsty (u : R Node) : R (Node × TyRef) := do
  let nm ← u
  let ty ← rdtype
  pure (nm, ty)

/-- `rdstab`, use.c:97-121.  Insertion into the hash tables is not modelled: the table read is the
list of the entries read. -/
def rdstab (u : R Node) : R Stab := do
  let name ← rdstr
  let n ← rdcnti
  let dcls ← rep (rdsym u) n
  let m ← rdcnti
  let tys ← rep (rdsty u) m
  pure (.mk name (.ofList dcls) (.ofList tys))

/-- The switch at use.c:651-660. -/
def rdlit (u : R Node) (t : Byte) : R Lit :=
  if t = 7 then pure .void
  else if t = 0 then do let v ← rdint; pure (.chr (v.setWidth 32))
  else if t = 2 then do let v ← rdint; pure (.int v)
  else if t = 3 then do let v ← rdflt; pure (.flt v)
  else if t = 4 then do let s ← rdlenstr; pure (.str s)
  else if t = 6 then do let s ← rdstr; pure (.lbl s)
  else if t = 1 then do let b ← rdbool; pure (.bool b)
  else if t = 5 then do let f ← u; pure (.func f)
  else R.fail .ub

/-- `unpickle`, use.c:612-748.  `fuel` bounds the depth of the recursion.  A node or literal type
that does not exist leaves the node without contents in the code; here it is an error. -/
def unpickle : Nat → R Node
  | 0 => R.fail .spin
  | fuel + 1 => do
    let type ← rdbyte
    if type = 0 then pure .null
    else
      let line ← rdline
      if type = 8 then do
        let op ← rdbyte
        let ty ← rdtype
        let hasparam ← rdbool
        let param ← rdopt hasparam rdtype .none
        let isconst ← rdbool
        let idx ← unpickle fuel
        let n ← rdcnt
        let args ← rep (unpickle fuel) n
        pure (.expr line op ty param isconst idx (.ofList args))
      else if type = 10 then do
        let hasns ← rdbool
        let ns ← rdopt hasns rdstr none
        let nm ← rdstr
        pure (.name line ns nm)
      else if type = 7 then do
        let l ← rdbool
        let nm ← rdstr
        pure (.use line l nm)
      else if type = 9 then do
        let lt ← rdbyte
        let ty ← rdtype
        let nelt ← rdcnt
        let l ← rdlit (unpickle fuel) lt
        pure (.lit line ty nelt l)
      else if type = 3 then do
        let i ← unpickle fuel
        let c ← unpickle fuel
        let s ← unpickle fuel
        let b ← unpickle fuel
        pure (.loopstmt line i c s b)
      else if type = 4 then do
        let e ← unpickle fuel
        let s ← unpickle fuel
        let b ← unpickle fuel
        pure (.iterstmt line e s b)
      else if type = 5 then do
        let v ← unpickle fuel
        let n ← rdcnt
        let ms ← rep (unpickle fuel) n
        pure (.matchstmt line v (.ofList ms))
      else if type = 6 then do
        let p ← unpickle fuel
        let b ← unpickle fuel
        pure (.mtch line p b)
      else if type = 2 then do
        let c ← unpickle fuel
        let t ← unpickle fuel
        let f ← unpickle fuel
        pure (.ifstmt line c t f)
      else if type = 1 then do
        let scope ← rdstab (unpickle fuel)
        let n ← rdcnt
        let stmts ← rep (unpickle fuel) n
        pure (.block line scope (.ofList stmts))
      else if type = 11 then do
        let nm ← unpickle fuel
        let ty ← rdtype
        let c ← rdbool
        let g ← rdbool
        let e ← rdbool
        let r ← rdbool
        let p ← rdbool
        let init ← unpickle fuel
        pure (.decl line nm ty c g e r p init)
      else if type = 12 then do
        let ty ← rdtype
        let scope ← rdstab (unpickle fuel)
        let n ← rdcnt
        let args ← rep (unpickle fuel) n
        let body ← unpickle fuel
        pure (.func line ty scope (.ofList args) body)
      else if type = 13 then do
        let tn ← unpickle fuel
        let uid ← rdcnt
        let ty ← rdtype
        let n ← rdcnt
        let aux ← rep rdtype n
        let m ← rdcnt
        let decls ← rep (rdsym (unpickle fuel)) m
        pure (.impl line tn uid ty aux (.ofList decls))
      else R.fail .ub

/-! ## Types -/

/-- A trait in the list of the traits a parameter needs: builtin or by id. -/
inductive TrRef where
  | builtin (t : Nat)
  | id (n : Nat)
deriving DecidableEq, Repr

/-- A union constructor as pickled, `wrucon`. -/
structure Ucon where
  line : BitVec 32
  id : Nat
  synth : Bool
  name : Node
  etype : TyRef

/-- A trait constraint as pickled, use.c:232-240. -/
structure Spec where
  traits : List Node
  param : TyRef
  aux : TyRef

/-- The part of a type that depends on its kind.  The number of subtypes (`nsub`) is 1 for arrays,
slices, named and generic types and 0 for parameters, structs, unions and unresolved names, as the
constructors of type.c make it. -/
inductive TyBody where
  | unres (name : Node)
  | param (traits : List TrRef) (pname : Option (List Byte))
  | struct (decls : List Node)
  | union (ucons : List Ucon)
  | array (sub : TyRef) (asize : Node)
  | slice (sub : TyRef)
  | name (name : Node) (args : List TyRef) (sub : TyRef)
  | generic (name : Node) (params : List TyRef) (sub : TyRef)
  | other (type : Byte) (subs : List TyRef)

/-- A type as pickled. -/
structure PTy where
  vis : Byte
  spec : List Spec
  seqaux : TyRef
  body : TyBody

/-- `ty->type`, types.def. -/
def tytype : TyBody → Byte
  | .unres _ => 27
  | .param .. => 26
  | .struct _ => 23
  | .union _ => 24
  | .array .. => 21
  | .slice _ => 20
  | .name .. => 28
  | .generic .. => 29
  | .other t _ => t

/-- `ty->nsub`. -/
def nsub : TyBody → Nat
  | .unres _ => 0
  | .param .. => 0
  | .struct _ => 0
  | .union _ => 0
  | .array .. => 1
  | .slice _ => 1
  | .name .. => 1
  | .generic .. => 1
  | .other _ l => l.length

/-- `wrucon`, use.c:123-133. -/
def wrucon (u : Ucon) : List Byte :=
  wrline u.line ++ wrcnt u.id ++ wrbool u.synth ++ pickle u.name ++ wrbool (u.etype ≠ .none) ++
    (if u.etype ≠ .none then wrtype u.etype else [])

/-- The loop body at use.c:233-239. -/
def wrspec (s : Spec) : List Byte :=
  wrcnt s.traits.length ++ s.traits.flatMap pickle ++ wrtype s.param ++ wrbool (s.aux ≠ .none) ++
    (if s.aux ≠ .none then wrtype s.aux else [])

/-- The loop body at use.c:252-255. -/
def wrtrait : TrRef → List Byte
  | .builtin t => wrint (BitVec.ofNat 64 t ||| builtinmask)
  | .id n => wrcnt n

/-- The switch at use.c:243-295. -/
def wrbody : TyBody → List Byte
  | .unres nm => pickle nm
  | .param trs pname => wrcnt trs.length ++ trs.flatMap wrtrait ++ wrstr pname
  | .struct ds => wrcnt ds.length ++ ds.flatMap pickle
  | .union us => wrcnt us.length ++ us.flatMap wrucon
  | .array sub asize => wrtype sub ++ pickle asize
  | .slice sub => wrtype sub
  | .name nm args sub => pickle nm ++ wrcnt args.length ++ wrtypes args ++ wrtype sub
  | .generic nm ps sub => pickle nm ++ wrcnt ps.length ++ wrtypes ps ++ wrtype sub
  | .other _ subs => wrtypes subs

/-- `typickle`, use.c:220-296. -/
def typickle (t : PTy) : List Byte :=
  wrbyte (tytype t.body) ++ wrbyte t.vis ++ wrcnt t.spec.length ++ t.spec.flatMap wrspec ++ wrtype t.seqaux ++
    wrcnt (nsub t.body) ++ wrbody t.body

/-- `rducon`, use.c:135-158. -/
def rducon (u : R Node) : R Ucon := do
  let line ← rdline
  let id ← rdcnt
  let synth ← rdbool
  let name ← u
  let has ← rdbool
  let etype ← rdopt has rdtype .none
  pure ⟨line, id, synth, name, etype⟩

/-- The loop body at use.c:382-390. -/
def rdspec (u : R Node) : R Spec := do
  let n ← rdcnt
  let trs ← rep u n
  let p ← rdtype
  let has ← rdbool
  let aux ← rdopt has rdtype .none
  pure ⟨trs, p, aux⟩

/-- `rdtrait`, use.c:346-364. -/
def rdtrait : R TrRef := do
  let tid ← rdint
  if tid &&& builtinmask ≠ 0 then pure (.builtin (tid &&& ~~~ builtinmask).toNat)
  else pure (.id tid.toNat)

/-- The switch at use.c:396-446; `n` is `ty->nsub`: `ty->sub[0]` is a null pointer if it is 0. -/
def rdbody (u : R Node) (t : Byte) (n : Nat) : R TyBody :=
  if t = 27 then do
    let nm ← u
    pure (.unres nm)
  else if t = 26 then do
    let m ← rdcnt
    let trs ← rep rdtrait m
    let pname ← rdstr
    pure (.param trs pname)
  else if t = 23 then do
    let m ← rdcnt
    let ds ← rep u m
    pure (.struct ds)
  else if t = 24 then do
    let m ← rdcnt
    let us ← rep (rducon u) m
    pure (.union us)
  else if t = 21 then
    if n = 0 then R.fail .ub else do
    let sub ← rdtype
    let asize ← u
    pure (.array sub asize)
  else if t = 20 then
    if n = 0 then R.fail .ub else do
    let sub ← rdtype
    pure (.slice sub)
  else if t = 28 then
    if n = 0 then R.fail .ub else do
    let nm ← u
    let m ← rdcnt
    let args ← rep rdtype m
    let sub ← rdtype
    pure (.name nm args sub)
  else if t = 29 then
    if n = 0 then R.fail .ub else do
    let nm ← u
    let m ← rdcnt
    let ps ← rep rdtype m
    let sub ← rdtype
    pure (.generic nm ps sub)
  else do
    let subs ← rep rdtype n
    pure (.other t subs)

/-- `tyunpickle`, use.c:367-448; of the visibility only whether it is `Vishidden` is kept. -/
def tyunpickle (u : R Node) : R PTy := do
  let t ← rdbyte
  let v ← rdbyte
  let n ← rdcnt
  let spec ← rep (rdspec u) n
  let seqaux ← rdtype
  let k ← rdcnt
  let body ← rdbody u t k
  pure ⟨if v = BitVec.ofNat 8 vishidden then v else 0, spec, seqaux, body⟩

end Verif.Use
