import Verif.Prelude

/-!
# Match statements

Models `mi/match.c`: rows of slots made from the patterns (`addrec`), the decision graph (`compile`), the checks and the code
(`genmatchcode`, `genmatch`), together with an interpreter for that code. Patterns are those left after `fold`; the variables
and the types of the tree are numbers and small records.
-/

namespace Verif.Match

open Verif

/-- Types of atoms (`parse/parse.h` Ty): the integer types by width. -/
inductive AtomTy where
  | void | bool | char | int (bits : Nat) | flt
  deriving DecidableEq, Repr

/-- A literal: its type and its value. `liteq` (`parse/node.c:507-532`) compares kind, value and type; literals of one type
are taken to have one representation. -/
structure Atom where
  ty : AtomTy
  val : Nat
  deriving DecidableEq, Repr

/-- `mi/match.c:369-416` nconstructors of an atom type. -/
def AtomTy.ncons : AtomTy → Nat
  | .void => 1
  | .bool => 2
  | .char => 0x10ffff
  | .int b => if b = 8 then 0x100 else if b = 16 then 0x10000 else if b = 32 then 0x100000000 else 2 ^ 64 - 1
  | .flt => 2 ^ 64 - 1

/-- The kinds of aggregates. -/
inductive Agg where
  | tup | arr | strct
  deriving DecidableEq, Repr

mutual
/-- Patterns (`mi/match.c:463-556`). `ucon n t p`: constructor `t` of a union of `n`. `cst p`: a constant with initialiser `p`;
`fold` (462, `parse/fold.c:163-166`) leaves none of integer, boolean, character or floating point type.
`agg`: a tuple, array or struct; the members of a struct stand in the order of their declaration, with `gap` for those the
pattern does not name (`mi/match.c:545-549`), and are known by their place instead of their name. -/
inductive Pat where
  | gap
  | var (did : Nat)
  | cst (init : Pat)
  | lit (a : Atom)
  | str (s : List Byte)
  | addr (p : Pat)
  | ucon0 (n t : Nat)
  | ucon (n t : Nat) (p : Pat)
  | agg (k : Agg) (ps : Pats)
  | lor (a b : Pat)

/-- Lists of patterns. -/
inductive Pats where
  | nil
  | cons (p : Pat) (ps : Pats)
end

/-- What a test reads (`mi/match.c:90-156`): the value matched, the tag or data of a union, an element or member, the length
of a slice, the target of a pointer. Structural equality is `loadeq` (193-218). -/
inductive Load where
  | root
  | utag (l : Load)
  | udata (l : Load)
  | elt (k : Agg) (l : Load) (i : Nat)
  | len (l : Load)
  | deref (l : Load)
  deriving DecidableEq, Repr

/-- `mi/match.c:52-60` Slot, with the number of constructors found in `mi/match.c:812-826`. `pat = none`: a variable or gap. -/
structure Slot where
  path : List Nat
  pat : Option Atom
  load : Load
  ncons : Nat
  deriving DecidableEq, Repr

/-- `mi/match.c:74-88` Frontier. `cap`: the variables and what they capture; `final`: the number of the final node. -/
structure Row where
  arm : Nat
  slots : List Slot
  cap : List (Nat × Load)
  hasor : Bool
  final : Nat
  deriving DecidableEq, Repr

/-- Append a slot. -/
def Row.slot (r : Row) (s : Slot) : Row := { r with slots := r.slots ++ [s] }

/-- The slot of a literal of type `a.ty`. -/
def atslot (path : List Nat) (a : Atom) (l : Load) : Slot := ⟨path, some a, l, a.ty.ncons⟩

/-- `mi/match.c:507-512`: the bytes of a string. The sign extension of `s[i]` is undone where the literal is used as a byte. -/
def addbytes (fs : Row) (l : Load) (path : List Nat) : Nat → List Byte → Row
  | _, [] => fs
  | i, b :: bs => addbytes (fs.slot (atslot (path ++ [1 + i]) ⟨.int 8, b.toNat⟩ (.elt .arr l i))) l path (i + 1) bs

mutual
/-- `mi/match.c:452-557` addrec. The second component are the rows linked in behind `fs`. -/
def addrec (fs : Row) : Pat → Load → List Nat → Row × List Row
  | .lor a b, l, path =>
    let x := addrec { fs with hasor := true } a l path
    let y := addrec { fs with hasor := true } b l path
    (x.1, x.2 ++ y.1 :: y.2)
  | .gap, l, path => (fs.slot ⟨path, none, l, 0⟩, [])
  | .var d, l, path => ({ fs with cap := fs.cap ++ [(d, l)], slots := fs.slots ++ [⟨path, none, l, 0⟩] }, [])
  | .cst p, l, path => addrec fs p l (path ++ [0])
  | .lit a, l, path => (fs.slot (atslot path a l), [])
  | .str s, l, path => (addbytes (fs.slot (atslot (path ++ [0]) ⟨.int 64, s.length⟩ (.len l))) l path 0 s, [])
  | .addr p, l, path => addrec fs p (.deref l) (path ++ [0])
  | .ucon0 n t, l, path => (fs.slot ⟨path ++ [0], some ⟨.int 32, t⟩, .utag l, n⟩, [])
  | .ucon n t p, l, path => addrec (fs.slot ⟨path ++ [0], some ⟨.int 32, t⟩, .utag l, n⟩) p (.udata l) (path ++ [1])
  | .agg k ps, l, path => addlist fs k ps l path 0

/-- `mi/match.c:531-533`, 536-538, 542-551: the elements. -/
def addlist (fs : Row) (k : Agg) : Pats → Load → List Nat → Nat → Row × List Row
  | .nil, _, _, _ => (fs, [])
  | .cons p ps, l, path, i =>
    let x := addrec fs p (.elt k l i) (path ++ [i])
    let y := addlist x.1 k ps l path (i + 1)
    (y.1, y.2 ++ x.2)
end

/-- `mi/match.c:418-429`, 559-570 genfrontier: the rows of one arm. -/
def genfrontier (arm : Nat) (p : Pat) : List Row :=
  let x := addrec ⟨arm, [], [], false, 0⟩ p .root [0]
  x.1 :: x.2

/-- `mi/match.c:945-947`: the rows of all arms. -/
def genrows : Nat → List Pat → List Row
  | _, [] => []
  | i, p :: ps => genfrontier i p ++ genrows (i + 1) ps

/-- `mi/match.c:426`, 434-445: each row has its own final node. They are numbered by the place of the row instead of the time
they are made; only whether numbers are equal is ever looked at. -/
def number : Nat → List Row → List Row
  | _, [] => []
  | k, r :: rs => { r with final := k } :: number (k + 1) rs

/-! ## The decision graph -/

/-- `mi/mi.h:40-65` Dtree. `fin`: a final node, with the arm and the captures to assign. -/
inductive Node where
  | fin (arm : Nat) (cap : List (Nat × Load))
  | test (load : Load) (edges : List (Atom × Nat)) (any : Option Nat) (ncons : Nat)
  deriving DecidableEq, Repr

/-- All nodes, by number (`dtree`, `ndtree`), and the final nodes counted (`refcnt`). -/
structure Tbl where
  nodes : List Node
  hits : List Nat
  deriving DecidableEq, Repr

/-- `mi/match.c:701-710`, 679-692: the first constructor of a row. -/
def pick (r : Row) : Option Slot := r.slots.find? fun s => s.pat.isSome

/-- `mi/match.c:718-742`: the literal of a slot at the path, if it is new. -/
def conslot (path : List Nat) (cs : List Atom) (s : Slot) : List Atom :=
  match s.pat with
  | some a => if s.path = path && !cs.contains a then cs ++ [a] else cs
  | none => cs

/-- `mi/match.c:713-743`: the constructors at a path. -/
def consat (path : List Nat) (rows : List Row) : List Atom :=
  rows.foldl (fun cs r => r.slots.foldl (conslot path) cs) []

/-- `mi/match.c:589-598`: the last slot at the path. -/
def Row.at (r : Row) (path : List Nat) : Option Slot := r.slots.reverse.find? fun s => s.path = path

/-- A row without the slots at the path. -/
def Row.drop (r : Row) (path : List Nat) : Row := { r with slots := r.slots.filter fun s => s.path ≠ path }

/-- `mi/match.c:576-636` project, for a row with slots: `none` if the row has another constructor. -/
def project (a : Atom) (path : List Nat) (r : Row) : Option Row :=
  match r.at path with
  | none => some (r.drop path)
  | some s =>
    match s.pat with
    | none => some (r.drop path)
    | some b => if a = b then some (r.drop path) else none

/-- `mi/match.c:752-757`: project all rows. `abort`: `project` asserts that each row has slots (583). -/
def projrows (a : Atom) (path : List Nat) (rows : List Row) : Res (List Row) :=
  if rows.any fun r => r.slots.isEmpty then .abort else .ok (rows.filterMap (project a path))

/-- `mi/match.c:771-779`: does the row fit any value at the path? -/
def isdflt (path : List Nat) (r : Row) : Bool :=
  match r.at path with
  | none => true
  | some s => s.pat.isNone

/-- `mi/match.c:238-263` dtreusable. `ub`: one of the two `any` is null and the other is not (259). -/
def usable (n : Node) (l : Load) (edges : List (Atom × Nat)) (any : Option Nat) : Res Bool :=
  match n with
  | .fin _ _ => .ok false
  | .test l' e' any' _ =>
    if l' ≠ l then .ok false
    else if e' ≠ edges then .ok false
    else match any', any with
      | none, none => .ok true
      | some x, some y => .ok (x == y)
      | _, _ => .ub

/-- `mi/match.c:793-799`: the first node which can be used again. -/
def reuse (l : Load) (edges : List (Atom × Nat)) (any : Option Nat) : Nat → List Node → Res (Option Nat)
  | _, [] => .ok none
  | i, n :: ns => do
    let b ← usable n l edges any
    if b then .ok (some i) else reuse l edges any (i + 1) ns

/-- `mi/match.c:793-811`: find or make the node. -/
def mknode (s : Slot) (edges : List (Atom × Nat)) (any : Option Nat) (t : Tbl) : Res (Nat × Tbl) := do
  let r ← reuse s.load edges any 0 t.nodes
  match r with
  | some i => .ok (i, t)
  | none => .ok (t.nodes.length, { t with nodes := t.nodes ++ [.test s.load edges any s.ncons] })

/-- `mi/match.c:749-764`: the edges, given how to compile rows. -/
def edges (comp : List Row → Tbl → Res (Nat × Tbl)) (path : List Nat) (rows : List Row) : List Atom → Tbl → Res (List (Atom × Nat) × Tbl)
  | [], t => .ok ([], t)
  | c :: cs, t => do
    let row ← projrows c path rows
    if row.isEmpty then edges comp path rows cs t
    else do
      let x ← comp row t
      let y ← edges comp path rows cs x.2
      .ok ((c, x.1) :: y.1, y.2)

/-- `mi/match.c:766-784`: the default edge. -/
def dflt (comp : List Row → Tbl → Res (Nat × Tbl)) (path : List Nat) (rows : List Row) (t : Tbl) : Res (Option Nat × Tbl) :=
  let d := rows.filter (isdflt path)
  if d.isEmpty then .ok (none, t)
  else do
    let x ← comp d t
    .ok (some x.1, x.2)

/-- `mi/match.c:663-828` compile. `abort`: there are no rows (673). -/
def compile : Nat → List Row → Tbl → Res (Nat × Tbl)
  | 0, _, _ => .spin
  | f + 1, rows, t =>
    match rows with
    | [] => .abort
    | fs :: _ =>
      match pick fs with
      | none => .ok (fs.final, { t with hits := fs.final :: t.hits })
      | some s => do
        let e ← edges (compile f) s.path rows (consat s.path rows) t
        let d ← dflt (compile f) s.path rows e.2
        mknode s e.1 d.1 d.2

/-- `mi/match.c:830-846` verifymatch. The edges of a node lead to smaller numbers. `ub`: there is no such node. -/
def verify (nodes : List Node) : Nat → Nat → Res Bool
  | 0, _ => .spin
  | f + 1, i =>
    match nodes[i]? with
    | none => .ub
    | some (.fin _ _) => .ok true
    | some (.test _ es any nc) => do
      let b ← vedges (verify nodes f) es
      .ok ((es.length == nc || any.isSome) && b)
where
  /-- `mi/match.c:842-844`. -/
  vedges (v : Nat → Res Bool) : List (Atom × Nat) → Res Bool
    | [] => .ok true
    | e :: es => do
      let b ← v e.2
      let c ← vedges v es
      .ok (b && c)

/-- Why a match statement is rejected. -/
inductive Err where
  | captures | redundant (row : Nat) | nonexhaustive
  deriving DecidableEq, Repr

/-- `mi/match.c:953-960`: the alternatives of an arm capture the same variables in the same order. (Types are not compared.) -/
def capsok : List Row → Bool
  | r :: r' :: rs => (r.arm != r'.arm || r.cap.map Prod.fst == r'.cap.map Prod.fst) && capsok (r' :: rs)
  | _ => true

/-- `mi/match.c:974-979`: final nodes assign captures only if the arm has or-patterns. -/
def finals (rows : List Row) : List Node := rows.map fun r => .fin r.arm (if r.hasor then r.cap else [])

/-- `mi/match.c:158-178` addcapture, for arms without or-patterns: a variable captured twice fails the assertion in 172. -/
def dupcap (r : Row) : Bool := !r.hasor && !decide (r.cap.map Prod.fst).Nodup

/-- `mi/match.c:924-1014` gendtree: the graph and the node to start at. The checks in 953-979 go row by row; which comes
first does not matter. -/
def gendtree (fuel : Nat) (pats : List Pat) : Res (Except Err (Nat × List Node)) :=
  let rows := number 0 (genrows 0 pats)
  if !capsok rows then .ok (.error .captures)
  else if rows.any dupcap then .abort
  else do
    let x ← compile fuel rows ⟨finals rows, []⟩
    match rows.find? fun r => !x.2.hits.contains r.final with
    | some r => .ok (.error (.redundant r.final))
    | none => do
      let v ← verify x.2.nodes (x.1 + 1) x.1
      .ok (if v then .ok (x.1, x.2.nodes) else .error .nonexhaustive)

/-! ## Code -/

/-- Labels: of a node, of an arm, made by `genlbl` here, and the end. -/
inductive Lbl where
  | node (i : Nat) | arm (i : Nat) | gen (i : Nat) | done
  deriving DecidableEq, Repr

/-- Instructions. `cjmp l a t f`: if the value at `l` equals `a`, go to `t`, else to `f`. `block i`: the body of arm `i`. -/
inductive Ins where
  | lbl (l : Lbl)
  | cjmp (l : Load) (a : Atom) (t f : Lbl)
  | jmp (l : Lbl)
  | asn (d : Nat) (l : Load)
  | block (i : Nat)
  deriving DecidableEq, Repr

/-- The state of `genmatchcode`: nodes emitted, labels made, code. -/
structure G where
  emit : List Nat
  fresh : Nat
  out : List Ins
  deriving DecidableEq, Repr

/-- Append code. -/
def G.put (g : G) (is : List Ins) : G := { g with out := g.out ++ is }

/-- The label of a node (`mi/match.c:801`, 426). -/
def lblof (i : Nat) (n : Node) : Lbl := match n with | .fin a _ => .arm a | .test .. => .node i

/-- The captures assigned on the way to a node (`mi/match.c:1045`, 1057). -/
def capsof (n : Node) : List (Nat × Load) := match n with | .fin _ c => c | .test .. => []

/-- `mi/match.c:1045-1063`: the test for one edge. -/
def gentest (g : G) (l : Load) (a : Atom) (i : Nat) (n : Node) (fail : Lbl) : G :=
  match capsof n with
  | [] => g.put [.cjmp l a (lblof i n) fail]
  | c => G.put { g with fresh := g.fresh + 1 }
      ([Ins.cjmp l a (.gen g.fresh) fail, .lbl (.gen g.fresh)] ++ c.map (fun x => Ins.asn x.1 x.2) ++ [Ins.jmp (lblof i n)])

/-- `mi/match.c:1037-1068`: the edges of a node, given how to emit nodes. `ub`: there is no such node. -/
def genedges (rcl : Nat → G → Res G) (nodes : List Node) (l : Load) (any : Option Lbl) : List (Atom × Nat) → G → Res G
  | [], g => .ok g
  | (a, i) :: es, g =>
    match nodes[i]? with
    | none => .ub
    | some n =>
      match es, any with
      | [], some d => rcl i (gentest g l a i n d)
      | _, _ => do
        let h ← rcl i (gentest { g with fresh := g.fresh + 1 } l a i n (.gen g.fresh))
        genedges rcl nodes l any es (h.put [.lbl (.gen g.fresh)])

/-- `mi/match.c:1069-1074`: the default edge. -/
def genany (rcl : Nat → G → Res G) (any : Option (Nat × Lbl)) (g : G) : Res G :=
  match any with
  | none => .ok g
  | some (i, l) => rcl i (g.put [.jmp l])

/-- The label of the default edge. -/
def anylbl (nodes : List Node) : Option Nat → Res (Option (Nat × Lbl))
  | none => .ok none
  | some i => match nodes[i]? with
    | none => .ub
    | some n => .ok (some (i, lblof i n))

/-- `mi/match.c:1016-1075` genmatchcode. -/
def gencode (nodes : List Node) : Nat → Nat → G → Res G
  | 0, _, _ => .spin
  | f + 1, i, g =>
    if g.emit.contains i then .ok g
    else
      let g := { g with emit := i :: g.emit }
      match nodes[i]? with
      | none => .ub
      | some (.fin arm _) => .ok (g.put [.jmp (.arm arm)])
      | some (.test l es any _) => do
        let d ← anylbl nodes any
        let g ← genedges (gencode nodes f) nodes l (d.map Prod.snd) es (g.put [.lbl (.node i)])
        genany (gencode nodes f) d g

/-- `mi/match.c:1114-1121`: the arms. -/
def genarms : Nat → Nat → List Ins
  | _, 0 => [.lbl .done]
  | i, n + 1 => .lbl (.arm i) :: .block i :: .jmp .done :: genarms (i + 1) n

/-- `mi/match.c:1094-1128` genmatch. -/
def genmatch (fuel : Nat) (pats : List Pat) : Res (Except Err (List Ins)) := do
  let x ← gendtree fuel pats
  match x with
  | .error e => .ok (.error e)
  | .ok (root, nodes) => do
    let g ← gencode nodes (root + 1) root ⟨[], 0, []⟩
    .ok (.ok (g.out ++ genarms 0 pats.length))

/-! ## Running it -/

/-- Values. `ref`: a pointer, with what it points to; `bytes`: a slice of bytes. -/
inductive Val where
  | atom (a : Atom)
  | bytes (s : List Byte)
  | ref (v : Val)
  | union0 (t : Nat)
  | union (t : Nat) (v : Val)
  | agg (k : Agg) (vs : List Val)

/-- What a load yields; `none`: the value does not have such a part. -/
def Load.eval (v : Val) : Load → Option Val
  | .root => some v
  | .utag l => match l.eval v with
    | some (.union0 t) => some (.atom ⟨.int 32, t⟩)
    | some (.union t _) => some (.atom ⟨.int 32, t⟩)
    | _ => none
  | .udata l => match l.eval v with
    | some (.union _ w) => some w
    | _ => none
  | .elt k l i => match l.eval v with
    | some (.agg k' vs) => if k = k' then vs[i]? else none
    | some (.bytes s) => if k = .arr then (s[i]?).map fun b => .atom ⟨.int 8, b.toNat⟩ else none
    | _ => none
  | .len l => match l.eval v with
    | some (.bytes s) => some (.atom ⟨.int 64, s.length⟩)
    | _ => none
  | .deref l => match l.eval v with
    | some (.ref w) => some w
    | _ => none

/-- The place of a label. -/
def find (c : List Ins) (l : Lbl) : Option Nat := c.findIdx? fun i => i == .lbl l

/-- Run the code on a value, from an instruction on. The result is the arm reached and the captures assigned on the way.
`ub`: a test reads what is not there; `abort`: there is no such label; `spin`: out of fuel. -/
def exec (c : List Ins) (v : Val) : Nat → Nat → List (Nat × Val) → Res (Option Nat × List (Nat × Val))
  | 0, _, _ => .spin
  | f + 1, pc, env =>
    match c[pc]? with
    | none => .ok (none, env)
    | some (.lbl _) => exec c v f (pc + 1) env
    | some (.jmp l) => match find c l with
      | some k => exec c v f k env
      | none => .abort
    | some (.cjmp l a t e) => match l.eval v with
      | some (.atom b) => match find c (if a = b then t else e) with
        | some k => exec c v f k env
        | none => .abort
      | _ => .ub
    | some (.asn d l) => match l.eval v with
      | some w => exec c v f (pc + 1) (env ++ [(d, w)])
      | none => .ub
    | some (.block i) => .ok (some i, env)

/-- `mi/match.c:974-979`, 158-178: what the body of an arm assigns first: the captures, unless it has or-patterns. -/
def prologue (pats : List Pat) (v : Val) (i : Nat) : Option (List (Nat × Val)) :=
  match (pats[i]?).map fun p => genfrontier i p with
  | some [r] => r.cap.mapM fun c => (c.2.eval v).map fun w => (c.1, w)
  | _ => some []

/-- Run a match statement: the arm and the variables assigned when its body starts. -/
def runmatch (fuel : Nat) (pats : List Pat) (c : List Ins) (v : Val) : Res (Option Nat × List (Nat × Val)) := do
  let x ← exec c v fuel 0 []
  match x.1 with
  | none => .ok x
  | some i => match prologue pats v i with
    | some e => .ok (some i, x.2 ++ e)
    | none => .ub

end Verif.Match
