import Verif.Flatten.Spec

/-!
# Model of the flattening of expressions and statements, /repo/mi/flatten.c

Simplified: types, void values, declarations, `auto`, tuples, matches and iteration over collections are left out (so
`exitscope` never has anything to dispose of and always returns 1); all places have addresses in one memory (a variable
`x`, which the code keeps as `Ovar`, is a load from a fixed address); functions have two arguments; one counter gives
the names of both labels and temporaries.  Temporaries are in no memory.
-/

namespace Verif.Flatten

open Spec (St Sem Expr Stmt)

/-- Trees left after flattening: operators without effects, on temporaries and memory. -/
inductive Tree where
  | lit (v : Int)
  | tmp (n : Nat)
  | load (t : Tree)
  | bin (o : Nat) (a b : Tree)
  | lnot (t : Tree)
  | inc (up : Bool) (t : Tree)
deriving DecidableEq, Repr

/-- The statements left after flattening: labels, `Ojmp`, `Ocjmp`, `Oasn` to a temporary, `Oasn` to memory, `Oasn` of a
call to a temporary, an expression alone, `Oret`. -/
inductive I where
  | lbl (n : Nat)
  | jmp (n : Nat)
  | cjmp (t : Tree) (lt lf : Nat)
  | set (n : Nat) (t : Tree)
  | store (a t : Tree)
  | call (n f : Nat) (a b : Tree)
  | eval (t : Tree)
  | ret
deriving DecidableEq, Repr

/-- What `rval` leaves: the statements appended, the expression returned, what is put in the queue of increments
(addresses), and the next name. -/
structure R where
  code : List I
  tree : Tree
  q : List (Tree × Bool)
  nxt : Nat

/-- What `flattencond` leaves. -/
structure C where
  code : List I
  q : List (Tree × Bool)
  nxt : Nat

/-- The default of `flattencond`, flatten.c:271-274. -/
def deflt (r : Nat → R) (k lt lf : Nat) : C := ⟨(r k).code ++ [.cjmp (r k).tree lt lf], (r k).q, (r k).nxt⟩

/-- The conditions of `Oland` (`and`, flatten.c:256-261) and `Olor` (262-267) in `flattencond`. -/
def lazyCond (and : Bool) (ca cb : Nat → Nat → Nat → C) (k lt lf : Nat) : C :=
  let A := if and then ca (k + 1) k lf else ca (k + 1) lt k
  let B := cb A.nxt lt lf
  ⟨A.code ++ .lbl k :: B.code, A.q ++ B.q, B.nxt⟩

/-- `flattenlazy`, flatten.c:314-349. -/
def lazyVal (c : Nat → Nat → Nat → C) (k : Nat) : R :=
  let D := c (k + 4) (k + 1) (k + 2)
  ⟨D.code ++ [.lbl (k + 1), .set k (.lit 1), .jmp (k + 3), .lbl (k + 2), .set k (.lit 0), .jmp (k + 3), .lbl (k + 3)],
    .tmp k, D.q, D.nxt⟩

/-- `flattentern`, flatten.c:278-303. -/
def ternVal (c : Nat → Nat → Nat → C) (a b : Nat → R) (k : Nat) : R :=
  let D := c (k + 4) (k + 1) (k + 2)
  let A := a D.nxt
  let B := b A.nxt
  ⟨D.code ++ .lbl (k + 1) :: A.code ++ [.set k A.tree, .eval (.tmp k), .jmp (k + 3), .lbl (k + 2)] ++ B.code ++
      [.set k B.tree, .eval (.tmp k), .lbl (k + 3)], .tmp k, D.q ++ A.q ++ B.q, B.nxt⟩

/-- `rval` (flatten.c:505-679, with `lval`, 681-704, `assign`, 447-464, and `visit`, 184-205) and `flattencond`
(248-276) of an expression. -/
def flat : Expr → (Nat → R) × (Nat → Nat → Nat → C)
  | .lit v => let r := fun k => ⟨[], .lit v, [], k⟩; (r, deflt r)
  | .load a =>
    let r := fun k => let A := (flat a).1 k; ⟨A.code, .load A.tree, A.q, A.nxt⟩
    (r, deflt r)
  | .bin o a b =>
    let r := fun k =>
      let A := (flat a).1 k; let B := (flat b).1 A.nxt
      ⟨A.code ++ B.code, .bin o A.tree B.tree, A.q ++ B.q, B.nxt⟩
    (r, deflt r)
  | .lnot a => (fun k => let A := (flat a).1 k; ⟨A.code, .lnot A.tree, A.q, A.nxt⟩, fun k lt lf => (flat a).2 k lf lt)
  | .call f a b =>
    let r := fun k =>
      let A := (flat a).1 k; let B := (flat b).1 A.nxt
      ⟨A.code ++ B.code ++ [.call B.nxt f A.tree B.tree], .tmp B.nxt, A.q ++ B.q, B.nxt + 1⟩
    (r, deflt r)
  | .asn a e =>
    let r := fun k =>
      let A := (flat a).1 k; let E := (flat e).1 A.nxt
      ⟨A.code ++ E.code ++ [.store A.tree E.tree], .load A.tree, A.q ++ E.q, E.nxt⟩
    (r, deflt r)
  | .preinc up a =>
    let r := fun k =>
      let A := (flat a).1 k
      ⟨A.code ++ [.store A.tree (.inc up (.load A.tree))], .load A.tree, A.q, A.nxt⟩
    (r, deflt r)
  | .postinc up a =>
    let r := fun k => let A := (flat a).1 k; ⟨A.code, .load A.tree, A.q ++ [(A.tree, up)], A.nxt⟩
    (r, deflt r)
  | .land a b =>
    let c := lazyCond true (flat a).2 (flat b).2
    (lazyVal c, c)
  | .lor a b =>
    let c := lazyCond false (flat a).2 (flat b).2
    (lazyVal c, c)
  | .tern c a b =>
    let r := ternVal (flat c).2 (flat a).1 (flat b).1
    (r, deflt r)

/-- `draininc`, flatten.c:470-478. -/
def drain (q : List (Tree × Bool)) : List I := q.map (fun x => .store x.1 (.inc x.2 (.load x.1)))

/-- `flattenexpr`, flatten.c:1037-1050. -/
def flatExpr (e : Expr) (k : Nat) : List I × Nat :=
  let E := (flat e).1 k
  (E.code ++ .eval E.tree :: drain E.q, E.nxt)

/-- A part of a loop that may be missing, flatten.c:1057-1058. -/
def flatOpt : Option Expr → Nat → List I × Nat
  | none, k => ([], k)
  | some e, k => flatExpr e k

/-- `flattencond` of an expression already flattened, as at flatten.c:807. -/
def condTree : Tree → Nat → Nat → I
  | .lnot t, lt, lf => condTree t lf lt
  | t, lt, lf => .cjmp t lt lf

/-- The condition of `flattenif`, flatten.c:797-807. -/
def flatIfCond (c : Expr) (k l1 l2 : Nat) : List I × Nat :=
  let E := (flat c).1 k
  if E.q ≠ [] then
    (E.code ++ [.set E.nxt E.tree, .eval (.tmp E.nxt)] ++ drain E.q ++ [condTree (.tmp E.nxt) l1 l2], E.nxt + 1)
  else (E.code ++ [condTree E.tree l1 l2], E.nxt)

/-- The name of `s->tret`, flatten.c:40. -/
def tret : Nat := 0

/-- The jump to the end of an `if` after its other branch, unless that is an `if` itself, flatten.c:818-823. -/
def toEnd : Stmt → Nat → List I
  | .ite _ _ _, _ => []
  | _, L => [.jmp L]

/-- `flatten` of a statement (flatten.c:1052-1085) with the labels for `break` and `continue`: `flattenif` (784-827;
the branch of an `elif` has its own last label, as `exit` is null in all calls), `flattenloop` (737-780; the second
`draininc` has nothing to do), `Oret` (628-636), `Obreak` and `Ocontinue` (643-656), and the assignments `Oasn` (640)
and with an operator (571-579). -/
def flatS : Stmt → Nat → Nat → Nat → List I × Nat
  | .skip, _, _, k => ([], k)
  | .expr e, _, _, k => flatExpr e k
  | .assign o a e, _, _, k =>
    let A := (flat a).1 k; let E := (flat e).1 A.nxt
    match o with
    | none => (A.code ++ E.code ++ [.store A.tree E.tree, .eval (.load A.tree)] ++ drain (A.q ++ E.q), E.nxt)
    | some o => (A.code ++ E.code ++ [.store A.tree (.bin o (.load A.tree) E.tree)] ++ drain (A.q ++ E.q), E.nxt)
  | .seq s t, lb, lc, k =>
    let S := flatS s lb lc k; let T := flatS t lb lc S.2
    (S.1 ++ T.1, T.2)
  | .ite c s t, lb, lc, k =>
    let D := flatIfCond c (k + 3) k (k + 1)
    let S := flatS s lb lc D.2
    let T := flatS t lb lc S.2
    (D.1 ++ .lbl k :: S.1 ++ [.jmp (k + 2), .lbl (k + 1)] ++ T.1 ++ toEnd t (k + 2) ++ [.lbl (k + 2)], T.2)
  | .loop i c st b, _, _, k =>
    let Ii := flatOpt i (k + 5)
    let B := flatS b (k + 4) (k + 3) Ii.2
    let S := flatOpt st B.2
    let D := (flat c).2 S.2 (k + 1) (k + 4)
    (Ii.1 ++ [.jmp (k + 2), .lbl k] ++ B.1 ++ [.lbl (k + 3)] ++ S.1 ++ [.lbl (k + 2)] ++ D.code ++ [.lbl (k + 1)] ++
      drain D.q ++ [.jmp k, .lbl (k + 4)], D.nxt)
  | .brk, lb, _, k => ([.jmp lb], k)
  | .cnt, _, lc, k => ([.jmp lc], k)
  | .ret e, _, _, k =>
    let E := (flat e).1 k
    (E.code ++ [.set tret E.tree, .eval (.tmp tret)] ++ drain E.q ++ [.ret], E.nxt)

/-! ## What the flattened code does -/

/-- The value of a tree. -/
def tev (M : Sem) : Tree → St → (Nat → Int) → Int
  | .lit v, _, _ => v
  | .tmp n, _, τ => τ n
  | .load t, σ, τ => σ (tev M t σ τ)
  | .bin o a b, σ, τ => M.op o (tev M a σ τ) (tev M b σ τ)
  | .lnot t, σ, τ => Spec.truth (tev M t σ τ = 0)
  | .inc up t, σ, τ => M.inc up (tev M t σ τ)

/-- The code after a label. -/
def find (L : Nat) : List I → Option (List I)
  | [] => none
  | .lbl n :: is => if n = L then some is else find L is
  | _ :: is => find L is

/-- The code left to run, memory, temporaries. -/
structure Cfg where
  code : List I
  σ : St
  τ : Nat → Int

/-- A temporary is assigned. -/
def setT (τ : Nat → Int) (n : Nat) (v : Int) : Nat → Int := fun i => if i = n then v else τ i

/-- One step; none at the end, at a return, and for a label that is nowhere. -/
def step (M : Sem) (prog : List I) (c : Cfg) : Option Cfg :=
  match c.code with
  | [] => none
  | .lbl _ :: is => some ⟨is, c.σ, c.τ⟩
  | .jmp L :: _ => (find L prog).map (fun is => ⟨is, c.σ, c.τ⟩)
  | .cjmp t lt lf :: _ => (find (if tev M t c.σ c.τ ≠ 0 then lt else lf) prog).map (fun is => ⟨is, c.σ, c.τ⟩)
  | .set n t :: is => some ⟨is, c.σ, setT c.τ n (tev M t c.σ c.τ)⟩
  | .store a t :: is => some ⟨is, Spec.set c.σ (tev M a c.σ c.τ) (tev M t c.σ c.τ), c.τ⟩
  | .call n f a b :: is =>
    let r := M.fn f (tev M a c.σ c.τ) (tev M b c.σ c.τ) c.σ
    some ⟨is, r.2, setT c.τ n r.1⟩
  | .eval _ :: is => some ⟨is, c.σ, c.τ⟩
  | .ret :: _ => none

/-- `n` steps. -/
inductive Steps (M : Sem) (prog : List I) : Nat → Cfg → Cfg → Prop where
  | refl (c : Cfg) : Steps M prog 0 c c
  | step {n : Nat} {a b c : Cfg} (h : step M prog a = some b) (t : Steps M prog n b c) : Steps M prog (n + 1) a c

/-- The code of a function body, `flattenfn` (flatten.c:1087-1129): no labels of loops around it (0 is no label). -/
def body (s : Stmt) : List I := (flatS s 0 0 1).1

/-- The code started with memory `σ` and temporaries `τ` comes to an end, at a return of `v` (`s->tret`,
flatten.c:628-636) or after its last statement, with memory `σ'`. -/
def Finishes (M : Sem) (prog : List I) (σ : St) (τ : Nat → Int) (v : Option Int) (σ' : St) : Prop :=
  match v with
  | none => ∃ n τ', Steps M prog n ⟨prog, σ, τ⟩ ⟨[], σ', τ'⟩
  | some v => ∃ n τ' is, Steps M prog n ⟨prog, σ, τ⟩ ⟨.ret :: is, σ', τ'⟩ ∧ τ' tret = v

end Verif.Flatten
