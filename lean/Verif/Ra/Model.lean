import Verif.Prelude
import Mathlib.Data.Finset.Lattice.Basic
import Mathlib.Data.Finset.SDiff
import Mathlib.Data.Finset.Card

/-!
# The register allocator

Models `6/ra.c`: liveness, the interference graph, coalescing, freezing, spill selection and painting. Register ids below
`Nreg` are the machine registers in the order of `6/regs.def`; all larger ids are virtual. Rewriting the code after a spill
(`6/ra.c:1114-1370`) and the debug output are left out. Work lists are kept with the last element first.
-/

namespace Verif.Ra

open Verif

/-- `6/asm.h:20-25`: the number of machine registers in `6/regs.def`. -/
def Nreg : Nat := 102

/-- `6/regs.def:70,71,117`: `%rsp`, `%rbp` and `%rip`. -/
def fixed (r : Nat) : Bool := r == 59 || r == 60 || r == 101

/-- `6/ra.c:53-86` regmap: registers which overlap, one column per mode (`6/asm.h:37-46`). -/
def regmap : List (List Nat) :=
  [[0, 1, 21, 37, 53, 0, 0],
   [0, 2, 22, 38, 54, 0, 0],
   [0, 3, 23, 39, 55, 0, 0],
   [0, 4, 24, 40, 56, 0, 0],
   [0, 5, 25, 41, 57, 0, 0],
   [0, 6, 26, 42, 58, 0, 0],
   [0, 9, 29, 45, 61, 0, 0],
   [0, 10, 30, 46, 62, 0, 0],
   [0, 11, 31, 47, 63, 0, 0],
   [0, 12, 32, 48, 64, 0, 0],
   [0, 13, 33, 49, 65, 0, 0],
   [0, 14, 34, 50, 66, 0, 0],
   [0, 15, 35, 51, 67, 0, 0],
   [0, 16, 36, 52, 68, 0, 0],
   [0, 0, 0, 0, 0, 69, 85],
   [0, 0, 0, 0, 0, 70, 86],
   [0, 0, 0, 0, 0, 71, 87],
   [0, 0, 0, 0, 0, 72, 88],
   [0, 0, 0, 0, 0, 73, 89],
   [0, 0, 0, 0, 0, 74, 90],
   [0, 0, 0, 0, 0, 75, 91],
   [0, 0, 0, 0, 0, 76, 92],
   [0, 0, 0, 0, 0, 77, 93],
   [0, 0, 0, 0, 0, 78, 94],
   [0, 0, 0, 0, 0, 79, 95],
   [0, 0, 0, 0, 0, 80, 96],
   [0, 0, 0, 0, 0, 81, 97],
   [0, 0, 0, 0, 0, 82, 98],
   [0, 0, 0, 0, 0, 83, 99],
   [0, 0, 0, 0, 0, 84, 100]]
/-- `6/ra.c:89-124` colourmap: the row of a register; 0 where the initialiser lists none. -/
def colourmap : List Nat :=
  [0, 0, 1, 2, 3, 4, 5, 0, 0, 6, 7, 8, 9, 10, 11, 12, 13, 0, 0, 0, 0, 0, 1, 2, 3, 4, 5, 0, 0, 6, 7, 8, 9, 10,
   11, 12, 13, 0, 1, 2, 3, 4, 5, 0, 0, 6, 7, 8, 9, 10, 11, 12, 13, 0, 1, 2, 3, 4, 5, 14, 15, 6, 7, 8, 9, 10,
   11, 12, 13, 14, 15, 16, 17, 18, 19, 20, 21, 22, 23, 24, 25, 26, 27, 28, 29, 14, 15, 16, 17, 18, 19, 20, 21,
   22, 23, 24, 25, 26, 27, 28, 29, 0]

/-- `6/regs.def`: the modes of the machine registers (1 byte, 2 word, 3 long, 4 quad, 5 float, 6 double). -/
def physmode : List Nat :=
  [1, 1, 1, 1, 1, 1, 1, 1, 1, 1, 1, 1, 1, 1, 1, 1, 1, 1, 1, 1, 1, 2, 2, 2, 2, 2, 2, 2, 2, 2, 2, 2, 2, 2, 2, 2,
   2, 3, 3, 3, 3, 3, 3, 3, 3, 3, 3, 3, 3, 3, 3, 3, 3, 4, 4, 4, 4, 4, 4, 4, 4, 4, 4, 4, 4, 4, 4, 4, 4, 5, 5, 5,
   5, 5, 5, 5, 5, 5, 5, 5, 5, 5, 5, 5, 5, 6, 6, 6, 6, 6, 6, 6, 6, 6, 6, 6, 6, 6, 6, 6, 6, 4]

/-- `regmap[i][mode]`. All indices used are in range. -/
def rm (i m : Nat) : Nat := ((regmap[i]?).getD [])[m]?.getD 0

/-- `colourmap[r]`. -/
def cm (r : Nat) : Nat := colourmap[r]?.getD 0

/-- `6/ra.c:142-157` rclass of a mode: 1 integer, 2 floating point, 0 bad. -/
def mclass (m : Nat) : Nat := if m = 0 then 0 else if m ≤ 4 then 1 else if m ≤ 6 then 2 else 0

/-- `6/ra.c:136-140` _K. -/
def K (c : Nat) : Int := if c = 1 then 14 else if c = 2 then 16 else 0

/-! ## Liveness -/

/-- A register operand: its id, and whether its colour is `%esp` or `%ebp` (`6/ra.c:185-193` isfixreg). -/
structure RegOp where
  id : Nat
  fix : Bool
  deriving DecidableEq

/-- An operand (`6/asm.h` Loc): a register, an address with base and index, or anything without registers. -/
inductive Opnd where
  | reg (r : RegOp)
  | mem (base idx : Option RegOp)
  | other

/-- An instruction: the operands and the entries of `usetab` and `deftab` for its opcode (`6/ra.c:27-46`); `mov`: the opcode
is `Imov` or `Imovs`. Operand numbers count from 1. -/
structure Insn where
  args : List Opnd
  usel : List Nat
  user : List Nat
  defl : List Nat
  defr : List Nat
  mov : Bool

/-- `6/ra.c:206-214`, 249-256: the registers among the listed operands. `ub`: the operand does not exist. -/
def opregs (args : List Opnd) : List Nat → Res (List Nat)
  | [] => .ok []
  | k :: ks => do
    let t ← opregs args ks
    match args[k - 1]? with
    | none => .ub
    | some (.reg r) => .ok (if r.fix then t else r.id :: t)
    | some _ => .ok t

/-- `6/ra.c:225-235`: the registers of addresses. `ub`: an index without a base makes `isfixreg` read a null pointer; the
test in 233 looks at the base. -/
def memregs : List Opnd → Res (List Nat)
  | [] => .ok []
  | .mem base idx :: as => do
    let t ← memregs as
    match base, idx with
    | none, none => .ok t
    | none, some _ => .ub
    | some b, none => .ok (if b.fix then t else b.id :: t)
    | some b, some i => .ok (if b.fix then t else b.id :: i.id :: t)
  | _ :: as => memregs as

/-- `6/ra.c:195-237` uses. -/
def uses (i : Insn) : Res (List Nat) := do
  let a ← opregs i.args i.usel
  let b ← memregs i.args
  .ok (a ++ i.user ++ b)

/-- `6/ra.c:239-266` defs. -/
def defs (i : Insn) : Res (List Nat) := do
  let a ← opregs i.args i.defl
  .ok (a ++ i.defr)

/-- `6/ra.c:268-287` udcalc: one instruction, on (use, def). -/
def udstep (p : Finset Nat × Finset Nat) (i : Insn) : Res (Finset Nat × Finset Nat) := do
  let u ← uses i
  let d ← defs i
  .ok (p.1 ∪ (u.toFinset \ p.2), p.2 ∪ d.toFinset)

/-- `6/ra.c:268-287` udcalc. -/
def udcalc : List Insn → Finset Nat × Finset Nat → Res (Finset Nat × Finset Nat)
  | [], p => .ok p
  | i :: is, p => do
    let p ← udstep p i
    udcalc is p

/-- A function as the allocator sees it (`6/asm.h` Asmbb): blocks, `none` for those `trim` removed, with their successors. -/
structure Blk where
  il : List Insn
  succ : List Nat

/-- The code of a function. -/
abbrev Code := List (Option Blk)

/-- Use and def sets per block. -/
abbrev UD := Nat → Finset Nat × Finset Nat

/-- Function update. -/
def upd {α : Type} (f : Nat → α) (i : Nat) (x : α) : Nat → α := fun j => if j = i then x else f j

/-- `6/ra.c:307-313`: the sets of all blocks; those of missing blocks stay empty. -/
def udall : Code → Nat → Res UD
  | [], _ => .ok fun _ => (∅, ∅)
  | none :: bs, k => udall bs (k + 1)
  | some b :: bs, k => do
    let t ← udall bs (k + 1)
    let p ← udcalc b.il (∅, ∅)
    .ok (upd t k p)

/-- Live-in and live-out sets. -/
abbrev Live := Nat → Finset Nat × Finset Nat

/-- `6/ra.c:324-325`: the union of the live-in sets of the successors. `ub`: a successor is missing. -/
def succin (c : Code) (x : Live) : List Nat → Res (Finset Nat)
  | [] => .ok ∅
  | j :: js => do
    let t ← succin c x js
    match c[j]? with
    | some (some _) => .ok ((x j).1 ∪ t)
    | _ => .ub

/-- `6/ra.c:320-333`: one block. The flag tells whether live-out changed. -/
def liveone (c : Code) (ud : UD) (x : Live) (i : Nat) : Res (Live × Bool) :=
  match c[i]? with
  | some (some b) => do
    let t ← succin c x b.succ
    let out := (x i).2 ∪ t
    .ok (upd x i ((out \ (ud i).2) ∪ (ud i).1, out), !decide (out = (x i).2))
  | _ => .ok (x, false)

/-- `6/ra.c:319-334`: the blocks of one round, the last one first. -/
def liveround (c : Code) (ud : UD) : Nat → Live → Res (Live × Bool)
  | 0, x => .ok (x, false)
  | i + 1, x => do
    let p ← liveone c ud x i
    let q ← liveround c ud i p.1
    .ok (q.1, p.2 || q.2)

/-- `6/ra.c:315-335`: rounds until nothing changes. -/
def liveloop (c : Code) (ud : UD) : Nat → Live → Res Live
  | 0, _ => .spin
  | f + 1, x => do
    let p ← liveround c ud c.length x
    if p.2 then liveloop c ud f p.1 else .ok p.1

/-- `6/ra.c:295-336` liveness. -/
def liveness (fuel : Nat) (c : Code) : Res Live := do
  let ud ← udall c 0
  liveloop c ud fuel fun _ => (∅, ∅)

/-! ## The interference graph -/

/-- The sparse set of `6/ra.c:541-563`: `livesparse`, `livedense` and `nlive`. -/
structure Sp where
  sparse : Nat → Nat
  dense : Nat → Nat
  n : Nat

/-- The test in `6/ra.c:543` and 553. -/
def Sp.has (s : Sp) (r : Nat) : Bool := decide (s.sparse r < s.n) && s.dense (s.sparse r) == r

/-- `6/ra.c:541-548` PUT. -/
def Sp.put (s : Sp) (r : Nat) : Sp :=
  if s.has r then s else { sparse := upd s.sparse r s.n, dense := upd s.dense s.n r, n := s.n + 1 }

/-- `6/ra.c:550-559` DEL. -/
def Sp.del (s : Sp) (r : Nat) : Sp :=
  if s.has r then
    let t := s.dense (s.n - 1)
    { dense := upd s.dense (s.sparse r) t, sparse := upd s.sparse t (s.sparse r), n := s.n - 1 }
  else s

/-- The elements in the order of the loop in `6/ra.c:616`. -/
def Sp.elems (s : Sp) : List Nat := (List.range s.n).map s.dense

/-- `6/ra.c:591-601`: what is removed for a register a move reads. -/
def movdel (s : Sp) (u : Nat) : Sp :=
  if u < Nreg then (List.range 7).foldl (fun s a => s.del (rm (cm u) a)) s else s.del u

/-- `6/ra.c:338-345` ismove: source and destination. -/
def ismove (i : Insn) : Option (Nat × Nat) :=
  if i.mov then
    match i.args with
    | .reg a :: .reg b :: _ => some (a.id, b.id)
    | _ => none
  else none

/-- What `build` hands on: the calls of `addedge`, the moves and the registers seen, in order. -/
structure Bld where
  edges : List (Nat × Nat)
  moves : List (Nat × Nat)
  seen : List Nat

/-- `6/ra.c:587-601`: a move removes what it reads. -/
def movset (i : Insn) (u : List Nat) (s : Sp) : Sp :=
  match ismove i with
  | some _ => u.foldl movdel s
  | none => s

/-- `6/ra.c:603-608`: moves are recorded. -/
def movrec (i : Insn) (l : List (Nat × Nat)) : List (Nat × Nat) :=
  match ismove i with
  | some m => l ++ [m]
  | none => l

/-- `6/ra.c:571-627`: one instruction, walking backwards. -/
def scan1 (i : Insn) (s : Sp) (b : Bld) : Res (Sp × Bld) := do
  let u ← uses i
  let d ← defs i
  let s := d.foldl Sp.put (movset i u s)
  let b := { edges := b.edges ++ d.flatMap fun x => s.elems.map fun y => (x, y), moves := movrec i b.moves,
             seen := b.seen ++ (u ++ d).filter fun r => decide (Nreg ≤ r) }
  let s := d.foldl Sp.del s
  .ok (u.foldl Sp.put s, b)

/-- `6/ra.c:570-628`: the instructions of a block, the last one first. -/
def scanblk : List Insn → Sp → Bld → Res (Sp × Bld)
  | [], s, b => .ok (s, b)
  | i :: is, s, b => do
    let p ← scanblk is s b
    scan1 i p.1 p.2

/-- `6/ra.c:564-569`: the blocks. The arrays are kept from block to block, only `nlive` is reset. -/
def scanall (x : Nat → List Nat) : Code → Nat → Sp → Bld → Res Bld
  | [], _, _, b => .ok b
  | none :: bs, k, s, b => scanall x bs (k + 1) s b
  | some c :: bs, k, s, b => do
    let p ← scanblk c.il ((x k).foldl Sp.put { s with n := 0 }) b
    scanall x bs (k + 1) p.1 p.2

/-- `6/ra.c:521-634` build. `out`: the live-out set of each block in increasing order (`bsiter`). -/
def build (out : Nat → List Nat) (c : Code) : Res Bld :=
  scanall out c 0 { sparse := fun _ => 0, dense := fun _ => 0, n := 0 } { edges := [], moves := [], seen := [] }

/-! ## Colouring -/

/-- The list a register is on (`6/asm.h` Loc, field `list`). -/
inductive Tag where
  | none | simp | freeze | spill | stk | coal
  deriving DecidableEq

/-- What does not change during a round. `vmode`: the modes of virtual registers; `moves`: the moves by number;
`should`, `never`: `shouldspill`, `neverspill`; `fuel` bounds alias chains. -/
structure Env where
  vmode : Nat → Nat
  moves : List (Nat × Nat)
  should : Nat → Bool
  never : Nat → Bool
  fuel : Nat

/-- The mode of a register. -/
def Env.mode (e : Env) (r : Nat) : Nat := if r < Nreg then physmode[r]?.getD 0 else e.vmode r

/-- `6/ra.c:142-157` rclass. -/
def Env.cls (e : Env) (r : Nat) : Nat := mclass (e.mode r)

/-- `6/ra.c:1416-1420`: the prepainted registers. -/
abbrev prep (r : Nat) : Prop := r < Nreg

/-- The state of a round (`6/asm.h` Isel). The coalesced registers are those with an alias; the lists of moves and their
bit sets are one. -/
structure S where
  gb : Nat → Nat → Bool
  gadj : Nat → List Nat
  degree : Nat → Int
  al : Nat → Option Nat
  tag : Nat → Tag
  wsimp : List Nat
  wfreeze : List Nat
  wspill : List Nat
  stk : List Nat
  wlmove : List Nat
  mactive : List Nat
  rmoves : Nat → List Nat

/-- `6/ra.c:387-410` degreechange. -/
def degreechange (gb : Nat → Nat → Bool) (u v : Nat) : Int :=
  let test (phys virt : Nat) : Int :=
    if (List.range 7).any fun i => rm (cm phys) i != phys && gb virt (rm (cm phys) i) then 0 else 1
  if u < Nreg then test u v else if v < Nreg then test v u else 1

/-- `6/ra.c:355-365` gbputedge. -/
def gbput (gb : Nat → Nat → Bool) (u v : Nat) : Nat → Nat → Bool :=
  fun a b => gb a b || (a == u && b == v) || (a == v && b == u)

/-- `6/ra.c:461-464`: the adjacency list and the degree of one end. -/
def addhalf (s : S) (u v : Nat) : S :=
  if u < Nreg then s
  else { s with gadj := upd s.gadj u (s.gadj u ++ [v]), degree := upd s.degree u (s.degree u + degreechange s.gb v u) }

/-- `6/ra.c:445-469` addedge. -/
def addedge (e : Env) (s : S) (u v : Nat) : S :=
  if u = v ∨ s.gb u v = true then s
  else if fixed u || fixed v then s
  else if e.cls u ≠ e.cls v then s
  else if u < Nreg ∧ v < Nreg then s
  else addhalf (addhalf { s with gb := gbput s.gb u v } u v) v u

/-- `6/ra.c:289-293` istrivial. -/
def istrivial (e : Env) (s : S) (r : Nat) : Bool := decide (s.degree r < K (e.cls r))

/-- `6/ra.c:636-644` adjavail. -/
def adjavail (s : S) (r : Nat) : Bool := s.tag r != .stk && (s.al r).isNone

/-- The move is active or on the work list (`6/ra.c:657`, 671-674). -/
def on (s : S) (m : Nat) : Bool := s.mactive.contains m || s.wlmove.contains m

/-- `6/ra.c:646-662` nodemoves. -/
def nodemoves (s : S) (n : Nat) : List Nat := (s.rmoves n).filter (on s)

/-- `6/ra.c:665-677` moverelated. -/
def moverelated (s : S) (n : Nat) : Bool := (s.rmoves n).any (on s)

/-- `6/ra.c:423-428` wlput. -/
def putsimp (s : S) (l : Nat) : S := { s with wsimp := l :: s.wsimp, tag := upd s.tag l .simp }
/-- `6/ra.c:423-428` wlput. -/
def putfreeze (s : S) (l : Nat) : S := { s with wfreeze := l :: s.wfreeze, tag := upd s.tag l .freeze }
/-- `6/ra.c:423-428` wlput. -/
def putspill (s : S) (l : Nat) : S := { s with wspill := l :: s.wspill, tag := upd s.tag l .spill }
/-- `6/ra.c:430-435` wldel. -/
def delfreeze (s : S) (l : Nat) : S := { s with wfreeze := s.wfreeze.erase l, tag := upd s.tag l .none }
/-- `6/ra.c:430-435` wldel. -/
def delspill (s : S) (l : Nat) : S := { s with wspill := s.wspill.erase l, tag := upd s.tag l .none }

/-- `6/ra.c:679-696` mkworklist: one register. -/
def mkwork1 (e : Env) (s : S) (i : Nat) : S :=
  if i < Nreg then s
  else if !istrivial e s i then putspill s i
  else if moverelated s i then putfreeze s i
  else putsimp s i

/-- `6/ra.c:706-717`: one move. -/
def enable1 (s : S) (m : Nat) : S :=
  if s.mactive.contains m then { s with mactive := s.mactive.erase m, wlmove := m :: s.wlmove } else s

/-- `6/ra.c:698-719` enablemove. -/
def enablemove (s : S) (n : Nat) : S := (nodemoves s n).foldl enable1 s

/-- `6/ra.c:737-739`: one neighbour. -/
def enableadj (s : S) (n : Nat) : S := if adjavail s n then enablemove s n else s

/-- `6/ra.c:753-768`: put `m` on the list it belongs to. `abort`: an assertion fails. -/
def relist (s : S) (m : Nat) : Res S :=
  if s.wspill.contains m then
    .ok (if moverelated (delspill s m) m then putfreeze (delspill s m) m else putsimp (delspill s m) m)
  else if moverelated s m then (if s.wfreeze.contains m then .ok s else .abort)
  else (if s.wsimp.contains m then .ok s else .abort)

/-- `6/ra.c:721-770` decdegree. -/
def decdegree (e : Env) (s : S) (m : Nat) : Res S :=
  let s1 := { s with degree := upd s.degree m (s.degree m - 1) }
  if istrivial e s m = istrivial e s1 m then .ok s1
  else relist ((s1.gadj m).foldl enableadj (enablemove s1 m)) m

/-- `6/ra.c:781-785`: the neighbours of a register taken off the graph. -/
def declist (e : Env) : List Nat → S → Res S
  | [], s => .ok s
  | m :: ms, s =>
    if adjavail s m then do
      let s ← decdegree e s m
      declist e ms s
    else declist e ms s

/-- `6/ra.c:772-786` simp. -/
def simpl (e : Env) (s : S) : Res S :=
  match s.wsimp with
  | [] => .ok s
  | l :: w => declist e (s.gadj l) { s with wsimp := w, stk := l :: s.stk, tag := upd s.tag l .stk }

/-- `6/ra.c:788-808` getalias. -/
def getalias (al : Nat → Option Nat) : Nat → Nat → Res Nat
  | 0, _ => .spin
  | f + 1, r => match al r with
    | none => .ok r
    | some a => getalias al f a

/-- `6/ra.c:822-825`: the end of wladd. -/
def wlmovesimp (s : S) (u : Nat) : Res S :=
  if s.tag u = .freeze ∨ s.tag u = .simp then
    .ok (putsimp (if s.wfreeze.contains u then delfreeze s u else s) u)
  else .abort

/-- `6/ra.c:810-826` wladd. -/
def wladd (e : Env) (s : S) (u : Nat) : Res S :=
  if u < Nreg then .ok s
  else if moverelated s u then .ok s
  else if !istrivial e s u then .ok s
  else wlmovesimp s u

/-- `6/ra.c:828-847` conservative. -/
def conservative (e : Env) (s : S) (u v : Nat) : Bool :=
  decide ((((s.gadj u ++ s.gadj v).filter fun n => adjavail s n && !istrivial e s n).length : Int) < K (e.cls u))

/-- `6/ra.c:849-854` ok. -/
def okreg (e : Env) (s : S) (t r : Nat) : Bool := istrivial e s t || decide (t < Nreg) || s.gb t r

/-- `6/ra.c:856-878` combinable. -/
def combinable (e : Env) (s : S) (u v : Nat) : Bool :=
  e.mode u == e.mode v &&
    ((!decide (u < Nreg) && conservative e s u v) || (s.gadj v).all fun t => !(adjavail s t && !okreg e s t u))

/-- `6/ra.c:890-894`: take `v` off its list. -/
def unlist (s : S) (v : Nat) : S :=
  if s.wfreeze.contains v then delfreeze s v else if s.wspill.contains v then delspill s v else s

/-- `6/ra.c:899-910`: the moves of both. -/
def mergemoves (a b : List Nat) : List Nat := a ++ b.filter fun m => !a.contains m

/-- `6/ra.c:895-910`: make `u` the alias of `v`. The order of the merged moves of `u` keeps duplicates of `v`. -/
def setalias (s : S) (u v : Nat) : S :=
  { s with tag := upd s.tag v .coal, al := upd s.al v (some u),
           rmoves := upd s.rmoves u (mergemoves (s.rmoves u) (s.rmoves v)) }

/-- `6/ra.c:912-920`: the neighbours of `v` become those of `u`. -/
def joinadj (e : Env) (u : Nat) : List Nat → S → Res S
  | [], s => .ok s
  | t :: ts, s =>
    if adjavail s t then do
      let s ← decdegree e (addedge e s t u) t
      joinadj e u ts s
    else joinadj e u ts s

/-- `6/ra.c:921-924`. -/
def respill (e : Env) (s : S) (u : Nat) : S :=
  if !istrivial e s u && s.wfreeze.contains u then putspill (delfreeze s u) u else s

/-- `6/ra.c:880-925` combine. -/
def combine (e : Env) (s : S) (u v : Nat) : Res S := do
  let s := setalias (unlist s v) u v
  let s ← joinadj e u (s.gadj v) s
  .ok (respill e s u)

/-- `6/ra.c:927-939` constrained. -/
def constrained (s : S) (u v : Nat) : Bool :=
  decide (v < Nreg) ||
    (decide (u < Nreg) && (List.range 7).any fun i => rm (cm u) i != 0 && s.gb (rm (cm u) i) v) || s.gb u v

/-- `6/ra.c:958-973`: what becomes of a move between the registers `u` and `v`. -/
def coalesce2 (e : Env) (s : S) (m u v : Nat) : Res S :=
  if u = v ∨ constrained s u v = true then do
    let s ← wladd e s u
    wladd e s v
  else if combinable e s u v then do
    let s ← combine e s u v
    wladd e s u
  else .ok { s with mactive := m :: s.mactive }

/-- `6/ra.c:952-956`: the machine register comes first. -/
def coalesce1 (e : Env) (s : S) (m u v : Nat) : Res S := if v < Nreg then coalesce2 e s m v u else coalesce2 e s m u v

/-- The ends of a move. `ub`: there is no such move. -/
def ends (e : Env) (m : Nat) : Res (Nat × Nat) := match e.moves[m]? with | some p => .ok p | none => .ub

/-- `6/ra.c:941-974` coalesce. -/
def coalesce (e : Env) (s : S) : Res S :=
  match s.wlmove with
  | [] => .ok s
  | m :: ms => do
    let p ← ends e m
    let u ← getalias s.al e.fuel p.1
    let v ← getalias s.al e.fuel p.2
    coalesce1 e { s with wlmove := ms } m u v

/-- `6/ra.c:1010-1011`, 976-990: drop a move. -/
def dropmove (s : S) (m : Nat) : S :=
  if s.mactive.contains m then { s with mactive := s.mactive.erase m } else { s with wlmove := s.wlmove.erase m }

/-- `6/ra.c:1014-1019`: the other end of a frozen move. `abort`: `die`. -/
def unfreeze (e : Env) (s : S) (v : Nat) : Res S :=
  if !moverelated s v && istrivial e s v then
    (if s.wfreeze.contains v then .ok (putsimp (delfreeze s v) v) else .abort)
  else .ok s

/-- `6/ra.c:1003-1021`: the loop of freezemoves. -/
def freezeloop (e : Env) (u : Nat) : List Nat → S → Res S
  | [], s => .ok s
  | m :: ms, s => do
    let p ← ends e m
    let a ← getalias s.al e.fuel p.1
    let b ← getalias s.al e.fuel p.2
    let w ← getalias s.al e.fuel u
    let s ← unfreeze e (dropmove s m) (if a = w then b else a)
    freezeloop e u ms s

/-- `6/ra.c:992-1023` freezemoves. -/
def freezemoves (e : Env) (s : S) (u : Nat) : Res S := freezeloop e u (nodemoves s u) s

/-- `6/ra.c:1025-1033` freeze. -/
def freezeone (e : Env) (s : S) : Res S :=
  match s.wfreeze with
  | [] => .ok s
  | l :: w => freezemoves e (putsimp { s with wfreeze := w } l) l

/-- `6/ra.c:1042-1060`: the register to spill. -/
def spillcand (e : Env) (s : S) : Option Nat :=
  match s.wspill.reverse.find? e.should with
  | some m => some m
  | none => s.wspill.reverse.find? fun m => !e.never m

/-- `6/ra.c:1035-1064` selspill. -/
def selspill (e : Env) (s : S) : Res S :=
  match spillcand e s with
  | none => .abort
  | some m => freezemoves e (putsimp (delspill s m) m) m

/-- `6/ra.c:1435-1447`: the loop over the work lists. -/
def loop (e : Env) : Nat → S → Res S
  | 0, _ => .spin
  | f + 1, s =>
    if !s.wsimp.isEmpty then do let s ← simpl e s; loop e f s
    else if !s.wlmove.isEmpty then do let s ← coalesce e s; loop e f s
    else if !s.wfreeze.isEmpty then do let s ← freezeone e s; loop e f s
    else if !s.wspill.isEmpty then do let s ← selspill e s; loop e f s
    else .ok s

/-- `6/ra.c:483-519` setup: the empty graph; the moves `build` records (603-608). -/
def S.init (moves : List (Nat × Nat)) : S where
  gb := fun _ _ => false
  gadj := fun _ => []
  degree := fun r => if r < Nreg then 65536 else 0
  al := fun _ => none
  tag := fun _ => .none
  wsimp := []
  wfreeze := []
  wspill := []
  stk := []
  wlmove := (List.range moves.length).reverse
  mactive := []
  rmoves := fun r => (List.range moves.length).flatMap fun m =>
    match moves[m]? with
    | some p => (if p.1 = r then [m] else []) ++ (if p.2 = r then [m] else [])
    | none => []

/-- `6/ra.c:615-619`: all the edges. -/
def graph (e : Env) (edges : List (Nat × Nat)) : S := edges.foldl (fun s p => addedge e s p.1 p.2) (S.init e.moves)

/-- `6/ra.c:1085-1092`: is row `i` taken by one of the registers `ws`? -/
def taken (col : Nat → Nat) (ws : List Nat) (i : Nat) : Bool := ws.any fun w => col w != 0 && cm (col w) == i

/-- `6/ra.c:1095-1101`: the first free register of a mode. -/
def pick (m : Nat) (tk : Nat → Bool) : Option Nat :=
  ((List.range 30).find? fun i => rm i m != 0 && !tk i).map fun i => rm i m

/-- The aliases of a list of registers. -/
def aliases (al : Nat → Option Nat) (f : Nat) : List Nat → Res (List Nat)
  | [] => .ok []
  | r :: rs => do
    let a ← getalias al f r
    let t ← aliases al f rs
    .ok (a :: t)

/-- The colours and the spilled registers. -/
structure Paint where
  col : Nat → Nat
  spilled : List Nat

/-- `6/ra.c:1081-1106`: paint the registers on the stack. -/
def paintloop (e : Env) (s : S) : List Nat → Paint → Res Paint
  | [], p => .ok p
  | n :: ns, p => do
    let ws ← aliases s.al e.fuel (s.gadj n)
    match pick (e.mode n) (taken p.col ws) with
    | some c => paintloop e s ns { p with col := upd p.col n c }
    | none => paintloop e s ns { p with spilled := n :: p.spilled }

/-- The colours before painting: machine registers have their own (`6/locs.c` locphysreg), the others none
(`6/ra.c:694`). -/
def col0 (r : Nat) : Nat := if r < Nreg then r else 0

/-- A round of the allocator up to `paint` (`6/ra.c:1432-1448`), with the final state. `seen`: the registers in
`s->initial` in increasing order. -/
def colour (e : Env) (edges : List (Nat × Nat)) (seen : List Nat) (fuel : Nat) : Res (S × Paint) := do
  let s ← loop e fuel (seen.foldl (mkwork1 e) (graph e edges))
  let p ← paintloop e s s.stk ⟨col0, []⟩
  .ok (s, p)

/-- `6/ra.c:1107-1110`: the colour a register has in the end. -/
def finalcol (e : Env) (s : S) (p : Paint) (r : Nat) : Res Nat := do
  let w ← getalias s.al e.fuel r
  .ok (p.col w)

end Verif.Ra
