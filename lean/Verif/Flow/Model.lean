import Verif.Prelude
import Mathlib.Data.Finset.Lattice.Basic
import Mathlib.Data.Finset.SDiff
import Mathlib.Data.Finset.Card

/-!
# Control flow graphs, reaching definitions and the checks built on them

Models `mi/cfg.c`, `mi/reaching.c` and `mi/dfcheck.c`. The input is the list of statements `simp` produces for a function
(`6/simp.c:1373` drops declarations, so all nodes are expressions). Types, names and the operators which the three files
treat alike are left out. Bit sets are lists where only membership matters, and finite sets where they are compared.
A node's id is its position in the list; the jumps `mkcfg` inserts are not assignments, so their ids are never used.
-/

namespace Verif.Flow

open Verif

/-- Expressions (`parse/parse.h` Node, Nexpr). `var d tr`: the variable with declaration id `d`; `tr` tells that it is
neither constant nor of struct, union, array, tuple or void type (`mi/dfcheck.c:28-34`). `addr`: `Oaddr` (`Oslice` does
not occur after `simp`). `call noret f args`: `Ocall`; `noret` is the attribute of the called declaration
(`mi/cfg.c:47-56`). `op`: every other operator and literals. -/
inductive Ex where
  | var (d : Nat) (tr : Bool)
  | addr (a : Ex)
  | call (noret : Bool) (f : Ex) (args : List Ex)
  | op (args : List Ex)

/-- Statements, the root nodes of the list. `set`: `Oset`, `Oasn`; `upd`: the fused operators (`mi/reaching.c:25-30`);
`defn`: `Odef`; `undef`: `Oundef`, put before a declaration without initialiser (`parse/gram.y` addinit); labels are
`Olit` nodes with a label literal (`mi/cfg.c:82-96`). -/
inductive Stmt where
  | label (l : Nat)
  | jmp (l : Nat)
  | cjmp (c : Ex) (l1 l2 : Nat)
  | ret
  | dead
  | undef (d : Nat)
  | defn (a : Ex)
  | set (l r : Ex)
  | upd (l r : Ex)
  | blit (dst src n : Ex)
  | clear (dst n : Ex)
  | ex (e : Ex)

/-- `mi/cfg.c:47-56` isnonretcall on a root node, as asked in 69-71 and 161-162. -/
def Stmt.noret : Stmt → Bool
  | .ex (.call nr _ _) => nr
  | _ => false

/-- `mi/cfg.c:58-80` addnode: does the node end its block? -/
def Stmt.ends : Stmt → Bool
  | .jmp _ | .cjmp _ _ _ | .ret | .dead => true
  | s => s.noret

/-- `mi/cfg.c:103`: a jump. -/
def Stmt.isjmp : Stmt → Bool
  | .jmp _ | .cjmp _ _ _ => true
  | _ => false

/-- A node: its id and the statement. -/
abbrev Nd := Nat × Stmt

/-- The state of the loop in `mi/cfg.c:212-228`: the blocks before the current one, the current block, the label table
(latest first) and the last node seen. -/
structure B where
  done : List (List Nd)
  cur : List Nd
  lbl : List (Nat × Nat)
  prev : Option Stmt

/-- `mi/cfg.c:212-213`: block 0 is the entry. -/
def B.init : B := ⟨[[]], [], [], none⟩

/-- `mi/cfg.c:58-80`, 219-220: add a node; start a new block if it ends the current one. -/
def B.addnode (s : B) (n : Nd) : B :=
  if n.2.ends then { s with done := s.done ++ [s.cur ++ [n]], cur := [] } else { s with cur := s.cur ++ [n] }

/-- `mi/cfg.c:102-105`: does the block before a label fall through? -/
def B.falls (s : B) : Bool :=
  match s.prev with
  | none => false
  | some p => !p.isjmp

/-- `mi/cfg.c:98-110` addlabel. -/
def B.addlabel (s : B) (l fresh : Nat) : B :=
  let cur := if s.falls then s.cur ++ [(fresh, .jmp l)] else s.cur
  let s := if cur.isEmpty then { s with cur := cur } else { s with done := s.done ++ [cur], cur := [] }
  { s with lbl := (l, s.done.length) :: s.lbl }

/-- `mi/cfg.c:214-228`: one node of the list. -/
def B.step (fresh : Nat) (s : B) (n : Nd) : B :=
  let s' := match n.2 with
    | .label l => s.addlabel l fresh
    | _ => s.addnode n
  { s' with prev := some n.2 }

/-- The nodes of the list with their ids. -/
def number (P : List Stmt) : List Nd := P.zipIdx.map fun p => (p.2, p.1)

/-- `mi/cfg.c:214-228`: the whole loop. -/
def blocks (P : List Stmt) : B := (number P).foldl (B.step P.length) B.init

/-- A control flow graph (`mi/mi.h` Cfg, Bb). `live b`: `cfg->bb[b]` is not NULL. -/
structure G where
  n : Nat
  live : Nat → Bool
  nodes : Nat → List Nd
  pred : Nat → List Nat
  succ : Nat → List Nat

/-- `mi/cfg.c:240-273`: the labels a jump names. -/
def Stmt.labels : Stmt → List Nat
  | .jmp l => [l]
  | .cjmp _ a b => [a, b]
  | _ => []

/-- Looking up a label (`htget`). -/
def find (t : List (Nat × Nat)) (l : Nat) : Option Nat := (t.find? fun p => p.1 = l).map Prod.snd

/-- `mi/cfg.c:240-273`: the blocks a node leads to; `e` is the exit block. -/
def tgts (t : List (Nat × Nat)) (e : Nat) (s : Stmt) : List Nat :=
  match s with
  | .ret => [e]
  | s => s.labels.filterMap (find t)

/-- `mi/cfg.c:235-273`: the successors of block `b` among `n`. -/
def succs (t : List (Nat × Nat)) (n : Nat) (nodes : Nat → List Nd) (b : Nat) : List Nat :=
  (if b = 0 then [1] else []) ++ (if b = n - 2 then [n - 1] else []) ++ (nodes b).flatMap fun p => tgts t (n - 1) p.2

/-- `mi/cfg.c:198-273` mkcfg before trimming. `abort`: a label is missing (261-262, 268-269). -/
def rawcfg (P : List Stmt) : Res G :=
  let s := blocks P
  let bbs := s.done ++ [s.cur]
  let n := bbs.length + 1
  let nodes b := (bbs[b]?).getD []
  if bbs.all (fun b => b.all fun p => p.2.labels.all fun l => (find s.lbl l).isSome) then
    let succ := fun b => if b < n then succs s.lbl n nodes b else []
    .ok { n := n, live := fun b => decide (b < n), nodes := nodes,
          pred := fun b => (List.range n).filter fun a => decide (b ∈ succ a), succ := succ }
  else .abort

/-- Function update. -/
def upd {α : Type} (f : Nat → α) (i : Nat) (x : α) : Nat → α := fun j => if j = i then x else f j

/-- `mi/cfg.c:132-139` noexit. The loop visits each successor once. -/
def noexit (g : G) (i : Nat) : Res G :=
  if (g.succ i).all g.live then
    .ok { g with pred := fun b => if b ∈ g.succ i then (g.pred b).filter (· ≠ i) else g.pred b, succ := upd g.succ i [] }
  else .ub

/-- `mi/cfg.c:157-167`: a node which ends its block without going anywhere. -/
def Stmt.stops : Stmt → Bool
  | .jmp _ | .cjmp _ _ _ | .ret => false
  | _ => true

/-- `mi/cfg.c:148-172`: the position of the node which ends a block, and whether control stops there. -/
def ending : List Nd → Option (Nat × Bool)
  | [] => none
  | n :: t => if n.2.ends then some (1, n.2.stops)
    else (ending t).map fun p => (p.1 + 1, p.2)

/-- `mi/cfg.c:157-165`: `noexit` if control stops. -/
def noexitif (stop : Bool) (g : G) (i : Nat) : Res G := if stop then noexit g i else .ok g

/-- `mi/cfg.c:141-173` trimdead. -/
def trimdead (g : G) (i : Nat) : Res G :=
  if g.live i then
    match ending (g.nodes i) with
    | none => .ok g
    | some (k, stop) => do
      let g ← noexitif stop g i
      .ok { g with nodes := upd g.nodes i ((g.nodes i).take k) }
  else .ok g

/-- `mi/cfg.c:112-130` delete. The label table is not used afterwards. -/
def delete (g : G) (i : Nat) : Res G :=
  if i = 0 ∨ i = g.n - 1 then .ok g
  else if !(g.pred i).all g.live then .ub
  else
    let succ := fun p => if p ∈ g.pred i then (g.succ p ++ g.succ i).filter (· ≠ i) else g.succ p
    if !(succ i).all g.live then .ub
    else
      let pred := fun s => if s ∈ succ i then (g.pred s ++ g.pred i).filter (· ≠ i) else g.pred s
      .ok { g with succ := succ, pred := pred, live := upd g.live i false }

/-- `mi/cfg.c:185-194`: one block; the flag tells whether a block was deleted. -/
def trimone (g : G) (i : Nat) : Res (G × Bool) :=
  if i = 0 ∨ i = g.n - 1 then .ok (g, false)
  else do
    let g ← trimdead g i
    if g.live i && (g.pred i).isEmpty then do
      let g ← delete g i
      .ok (g, true)
    else .ok (g, false)

/-- `mi/cfg.c:185-194`: one round over the blocks given. -/
def trimround : List Nat → G → Res (G × Bool)
  | [], g => .ok (g, false)
  | i :: is, g => do
    let p ← trimone g i
    let q ← trimround is p.1
    .ok (q.1, p.2 || q.2)

/-- `mi/cfg.c:175-196` trim. -/
def trim : Nat → G → Res G
  | 0, _ => .spin
  | f + 1, g => do
    let p ← trimround (List.range g.n) g
    if p.2 then trim f p.1 else .ok p.1

/-- `mi/cfg.c:198-278` mkcfg. -/
def mkcfg (fuel : Nat) (P : List Stmt) : Res G := do
  let g ← rawcfg P
  trim fuel g

/-! ## Reaching definitions -/

/-- `mi/reaching.c:17-46` assignee. -/
def assignee : Stmt → Option Ex
  | .undef d => some (.var d true)
  | .defn a => some a
  | .set l _ => some l
  | .upd l _ => some l
  | .blit (.addr (.var d t)) _ _ => some (.var d t)
  | .clear (.addr (.var d t)) _ => some (.var d t)
  | _ => none

/-- `expr.did`: 0 for everything but variables (`zalloc` in `mknode`). -/
def Ex.did : Ex → Nat
  | .var d _ => d
  | _ => 0

/-- The variable assigned, as `mi/reaching.c:60-62` sees it. -/
def defvar (s : Stmt) : Option Nat :=
  match assignee s with
  | some (.var d _) => some d
  | _ => none

/-- The nodes of the live blocks in order. -/
def G.all (g : G) : List Nd := ((List.range g.n).filter g.live).flatMap g.nodes

/-- `mi/reaching.c:48-69` collectdefs: `defs[d]`. -/
def collectdefs (g : G) (d : Nat) : List Nat :=
  g.all.filterMap fun p => if defvar p.2 = some d then some p.1 else none

/-- `mi/reaching.c:71-89` genkill, one node. -/
def gk (defs : Nat → List Nat) (s : Finset Nat × Finset Nat) (n : Nd) : Finset Nat × Finset Nat :=
  match assignee n.2 with
  | none => s
  | some a => (insert n.1 (s.1 \ (defs a.did).toFinset), (s.2 ∪ (defs a.did).toFinset).erase n.1)

/-- `mi/reaching.c:71-89` genkill: (gen, kill). -/
def genkill (defs : Nat → List Nat) (ns : List Nd) : Finset Nat × Finset Nat := ns.foldl (gk defs) (∅, ∅)

/-- The sets of `mi/reaching.c:112-115`: (in, out) per block. -/
abbrev IO := Nat → Finset Nat × Finset Nat

/-- The union of a family over a list (`bsunion` in a loop). -/
def unions (f : Nat → Finset Nat) : List Nat → Finset Nat
  | [] => ∅
  | a :: l => f a ∪ unions f l

/-- `mi/reaching.c:134-139`: the new sets of block `i`. -/
def reachval (g : G) (x : IO) (i : Nat) : Finset Nat × Finset Nat :=
  let gkl := genkill (collectdefs g) (g.nodes i)
  let bin := unions (fun j => (x j).2) (g.pred i)
  (bin, (bin \ gkl.2) ∪ gkl.1)

/-- `mi/reaching.c:131-151`: one round. -/
def reachround (g : G) : List Nat → IO → IO × Bool
  | [], x => (x, false)
  | i :: is, x =>
    if g.live i then
      let v := reachval g x i
      if (x i).2 ≠ v.2 ∨ (x i).1 ≠ v.1 then ((reachround g is (upd x i v)).1, true)
      else reachround g is x
    else reachround g is x

/-- `mi/reaching.c:129-152`: the loop. -/
def reachloop (g : G) : Nat → IO → Res IO
  | 0, _ => .spin
  | f + 1, x => let p := reachround g (List.range g.n) x
    if p.2 then reachloop g f p.1 else .ok p.1

/-- `mi/reaching.c:100-169` reaching. -/
def reaching (fuel : Nat) (g : G) : Res IO := reachloop g fuel fun _ => (∅, ∅)

/-! ## The checks -/

/-- The node with a given id is `Oundef` (`mi/dfcheck.c:39-40`). -/
def isundef (g : G) (m : Nat) : Bool := g.all.any fun p => p.1 == m && match p.2 with | .undef _ => true | _ => false

/-- `mi/dfcheck.c:26-42`: is a tracked variable reported? -/
def varbad (g : G) (reach kill : Finset Nat) (d : Nat) : Bool :=
  (collectdefs g d).any fun m => !decide (m ∈ kill) && decide (m ∈ reach) && isundef g m

mutual
/-- `mi/dfcheck.c:17-67` checkundef on expressions: the tracked variables it looks at. -/
def looks : Ex → List Nat
  | .var d tr => if tr then [d] else []
  | .addr _ => []
  | .call _ _ args => looksargs args
  | .op args => looksall args
/-- 56-60: the arguments of a call which are not `Oaddr`. -/
def looksargs : List Ex → List Nat
  | [] => []
  | .addr _ :: t => looksargs t
  | a :: t => looks a ++ looksargs t
/-- 61-64. -/
def looksall : List Ex → List Nat
  | [] => []
  | a :: t => looks a ++ looksall t
end

/-- `mi/dfcheck.c:17-67` checkundef on statements. -/
def slooks : Stmt → List Nat
  | .cjmp c _ _ => looks c
  | .defn a => looks a
  | .set _ r => looks r
  | .upd l r => looks l ++ looks r
  | .blit _ s _ => looks s
  | .clear a n => looks a ++ looks n
  | .ex e => looks e
  | _ => []

/-- `mi/dfcheck.c:85-96`: the nodes of a block; `true`: a variable is reported. -/
def checkblk (g : G) : List Nd → Finset Nat → Finset Nat → Bool
  | [], _, _ => false
  | n :: t, reach, kill =>
    match n.2 with
    | .undef _ => checkblk g t (insert n.1 reach) kill
    | s =>
      let kill := match assignee s with
        | none => kill
        | some m => kill ∪ (collectdefs g m.did).toFinset
      (slooks s).any (varbad g reach kill) || checkblk g t reach kill

/-- `mi/dfcheck.c:69-101` checkreach; `true`: the function is rejected. -/
def checkreach (fuel : Nat) (g : G) : Res Bool := do
  let r ← reaching fuel g
  .ok (((List.range g.n).filter g.live).any fun i => checkblk g (g.nodes i) (r i).1 ∅)

/-- `Oret` or `Odead` (`mi/dfcheck.c:115-116`). -/
def Stmt.fin : Stmt → Bool
  | .ret | .dead => true
  | _ => false

/-- `mi/dfcheck.c:110-120`: the loop over the predecessors; `up` is the recursive call. -/
def predloop (g : G) (up : Nat → Res Bool) : List Nat → Res Bool
  | [] => .ok false
  | p :: ps =>
    if !g.live p then .ub
    else match (g.nodes p).getLast? with
      | none => do
        let r ← up p
        if r then .ok true else predloop g up ps
      | some n => if n.2.fin then predloop g up ps else .ok true

/-- `mi/dfcheck.c:103-121` checkpredret; `true`: rejected. -/
def checkpredret (g : G) : Nat → Nat → Res Bool
  | 0, _ => .spin
  | f + 1, b => predloop g (checkpredret g f) (g.pred b)

/-- `mi/dfcheck.c:123-134` checkret. -/
def checkret (fuel : Nat) (void : Bool) (g : G) : Res Bool := if void then .ok false else checkpredret g fuel (g.n - 1)

/-- `mi/dfcheck.c:136-141` check, on the statements of a function (`6/simp.c:1520-1521`): is the function
accepted? `void`: its return type is `void`. -/
def accepted (fuel : Nat) (void : Bool) (P : List Stmt) : Res Bool := do
  let g ← mkcfg fuel P
  let a ← checkret fuel void g
  let b ← checkreach fuel g
  .ok (!a && !b)

end Verif.Flow
