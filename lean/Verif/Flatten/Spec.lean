/-!
# Specification: what expressions and statements do

After doc/lang.txt: 5.2 (lines 1140-1146: left before right, but right before left for assignments), 5.2.5
(assignments), 5.2.6 and 5.2.7 (`||` and `&&` evaluate their right side only if needed), 5.2.17 (post-increments happen
after the whole expression is evaluated), 6.4 (loops).
-/

namespace Verif.Flatten.Spec

/-- Memory. -/
abbrev St := Int → Int

/-- The meaning of operators, of increments (upwards or downwards) and of functions, which may change all memory. -/
structure Sem where
  op : Nat → Int → Int → Int
  inc : Bool → Int → Int
  fn : Nat → Int → Int → St → Int × St

/-- Expressions.  What can be assigned to is given by its address: a variable `x` is `load (lit x)`. -/
inductive Expr where
  | lit (v : Int)
  | load (a : Expr)
  | bin (o : Nat) (a b : Expr)
  | lnot (a : Expr)
  | call (f : Nat) (a b : Expr)
  | asn (a e : Expr)
  | preinc (up : Bool) (a : Expr)
  | postinc (up : Bool) (a : Expr)
  | land (a b : Expr)
  | lor (a b : Expr)
  | tern (c a b : Expr)
deriving DecidableEq, Repr

/-- Statements; those of loops are evaluated before, before each round, and after each round. -/
inductive Stmt where
  | skip
  | expr (e : Expr)
  | assign (o : Option Nat) (a e : Expr)
  | seq (s t : Stmt)
  | ite (c : Expr) (s t : Stmt)
  | loop (init : Option Expr) (cond : Expr) (step : Option Expr) (body : Stmt)
  | brk
  | cnt
  | ret (e : Expr)
deriving DecidableEq, Repr

/-- A store. -/
def set (σ : St) (a v : Int) : St := fun x => if x = a then v else σ x

/-- A truth value. -/
def truth (p : Prop) [Decidable p] : Int := if p then 1 else 0

/-- The value, the memory afterwards, and the increments still to be done. -/
structure Ev where
  v : Int
  σ : St
  p : List (Int × Bool)

/-- Evaluation. -/
def ev (M : Sem) : Expr → St → Ev
  | .lit v, σ => ⟨v, σ, []⟩
  | .load a, σ => let A := ev M a σ; ⟨A.σ A.v, A.σ, A.p⟩
  | .bin o a b, σ => let A := ev M a σ; let B := ev M b A.σ; ⟨M.op o A.v B.v, B.σ, A.p ++ B.p⟩
  | .lnot a, σ => let A := ev M a σ; ⟨truth (A.v = 0), A.σ, A.p⟩
  | .call f a b, σ =>
    let A := ev M a σ; let B := ev M b A.σ
    ⟨(M.fn f A.v B.v B.σ).1, (M.fn f A.v B.v B.σ).2, A.p ++ B.p⟩
  | .asn a e, σ => let E := ev M e σ; let A := ev M a E.σ; ⟨E.v, set A.σ A.v E.v, E.p ++ A.p⟩
  | .preinc up a, σ => let A := ev M a σ; ⟨M.inc up (A.σ A.v), set A.σ A.v (M.inc up (A.σ A.v)), A.p⟩
  | .postinc up a, σ => let A := ev M a σ; ⟨A.σ A.v, A.σ, A.p ++ [(A.v, up)]⟩
  | .land a b, σ =>
    let A := ev M a σ
    if A.v ≠ 0 then let B := ev M b A.σ; ⟨truth (B.v ≠ 0), B.σ, A.p ++ B.p⟩ else ⟨0, A.σ, A.p⟩
  | .lor a b, σ =>
    let A := ev M a σ
    if A.v ≠ 0 then ⟨1, A.σ, A.p⟩ else let B := ev M b A.σ; ⟨truth (B.v ≠ 0), B.σ, A.p ++ B.p⟩
  | .tern c a b, σ =>
    let C := ev M c σ
    let A := if C.v ≠ 0 then ev M a C.σ else ev M b C.σ
    ⟨A.v, A.σ, C.p ++ A.p⟩

/-- The increments. -/
def incs (M : Sem) : List (Int × Bool) → St → St
  | [], σ => σ
  | (a, up) :: ps, σ => incs M ps (set σ a (M.inc up (σ a)))

/-- A whole expression: the value, and the memory after the increments. -/
def whole (M : Sem) (e : Expr) (σ : St) : Int × St := ((ev M e σ).v, incs M (ev M e σ).p (ev M e σ).σ)

/-- A part of a loop that may be missing. -/
def wholeOpt (M : Sem) : Option Expr → St → St
  | none, σ => σ
  | some e, σ => (whole M e σ).2

/-- How a statement ends. -/
inductive Out where
  | norm (σ : St)
  | brk (σ : St)
  | cnt (σ : St)
  | ret (v : Int) (σ : St)

/-- The rounds of a loop, at most `n`. -/
def rounds (M : Sem) (cond : Expr) (step : Option Expr) (body : St → Option Out) : Nat → St → Option Out
  | 0, _ => none
  | n + 1, σ =>
    let c := whole M cond σ
    if c.1 ≠ 0 then
      match body c.2 with
      | none => none
      | some (.norm σ') => rounds M cond step body n (wholeOpt M step σ')
      | some (.cnt σ') => rounds M cond step body n (wholeOpt M step σ')
      | some (.brk σ') => some (.norm σ')
      | some (.ret v σ') => some (.ret v σ')
    else some (.norm c.2)

/-- The value assigned: with an operator, that of what is there and the right side. -/
def assigned (M : Sem) (o : Option Nat) (old v : Int) : Int :=
  match o with
  | none => v
  | some o => M.op o old v

/-- Statements; no loop makes `n` rounds, else the answer is `none`. -/
def exec (M : Sem) (n : Nat) : Stmt → St → Option Out
  | .skip, σ => some (.norm σ)
  | .expr e, σ => some (.norm (whole M e σ).2)
  | .assign o a e, σ =>
    let E := ev M e σ; let A := ev M a E.σ
    some (.norm (incs M (E.p ++ A.p) (set A.σ A.v (assigned M o (A.σ A.v) E.v))))
  | .seq s t, σ =>
    match exec M n s σ with
    | some (.norm σ') => exec M n t σ'
    | r => r
  | .ite c s t, σ => if (whole M c σ).1 ≠ 0 then exec M n s (whole M c σ).2 else exec M n t (whole M c σ).2
  | .loop i c st b, σ => rounds M c st (exec M n b) n (wholeOpt M i σ)
  | .brk, σ => some (.brk σ)
  | .cnt, σ => some (.cnt σ)
  | .ret e, σ => some (.ret (whole M e σ).1 (whole M e σ).2)

/-- Every `break` and `continue` is in a loop. -/
def closed : Stmt → Prop
  | .seq s t => closed s ∧ closed t
  | .ite _ s t => closed s ∧ closed t
  | .brk => False
  | .cnt => False
  | _ => True

/-- A function body with memory `σ` ends, by a return of `v` or without a return, with memory `σ'`. -/
def Ends (M : Sem) (s : Stmt) (σ : St) (v : Option Int) (σ' : St) : Prop :=
  ∃ n, exec M n s σ = some (match v with
    | none => .norm σ'
    | some v => .ret v σ')

/-! ## Expressions the order of evaluation of which does not matter too much -/

/-- What an assignment to the place with address `a` changes: just a variable, or anything. -/
def place : Expr → Int → Prop
  | .lit v, x => x = v
  | _, _ => True

/-- The memory the value of an expression depends on after it was evaluated, if one reads variables late. -/
def rd : Expr → Int → Prop
  | .lit _, _ => False
  | .load a, x => place a x
  | .bin _ a b, x => rd a x ∨ rd b x
  | .lnot a, x => rd a x
  | .asn a _, x => place a x
  | .preinc _ a, x => place a x
  | .postinc _ a, x => place a x
  | .call _ _ _, _ => False
  | .land _ _, _ => False
  | .lor _ _, _ => False
  | .tern _ _ _, _ => False

/-- The memory an expression may change, but for the increments at the end. -/
def wr : Expr → Int → Prop
  | .lit _, _ => False
  | .load a, x => wr a x
  | .bin _ a b, x => wr a x ∨ wr b x
  | .lnot a, x => wr a x
  | .asn a e, x => place a x ∨ wr a x ∨ wr e x
  | .preinc _ a, x => place a x ∨ wr a x
  | .postinc _ a, x => wr a x
  | .call _ _ _, _ => True
  | .land a b, x => wr a x ∨ wr b x
  | .lor a b, x => wr a x ∨ wr b x
  | .tern c a b, x => wr c x ∨ wr a x ∨ wr b x

/-- Without effects and choices. -/
def plain : Expr → Prop
  | .lit _ => True
  | .load a => plain a
  | .bin _ a b => plain a ∧ plain b
  | .lnot a => plain a
  | _ => False

/-- Without increments afterwards. -/
def nopost : Expr → Prop
  | .lit _ => True
  | .load a => nopost a
  | .bin _ a b => nopost a ∧ nopost b
  | .lnot a => nopost a
  | .asn a e => nopost a ∧ nopost e
  | .preinc _ a => nopost a
  | .postinc _ _ => False
  | .call _ a b => nopost a ∧ nopost b
  | .land a b => nopost a ∧ nopost b
  | .lor a b => nopost a ∧ nopost b
  | .tern c a b => nopost c ∧ nopost a ∧ nopost b

/-- One side of an assignment is plain, and the right one does not depend on what the left one changes. -/
def SafeAsn (a e : Expr) : Prop := plain a ∨ plain e ∧ ∀ x, rd e x → ¬wr a x

/-- No left operand is changed by a right one, increments afterwards are in no part that may be left out, and are of
places with a fixed address, as are assignments and other increments within expressions. -/
def Safe : Expr → Prop
  | .lit _ => True
  | .load a => Safe a
  | .bin _ a b => Safe a ∧ Safe b ∧ ∀ x, rd a x → ¬wr b x
  | .lnot a => Safe a
  | .call _ a b => Safe a ∧ Safe b ∧ ∀ x, rd a x → ¬wr b x
  | .asn a e => Safe a ∧ Safe e ∧ SafeAsn a e ∧ ∀ x, ¬rd a x
  | .preinc _ a => Safe a ∧ ∀ x, ¬rd a x
  | .postinc _ a => Safe a ∧ ∀ x, ¬rd a x
  | .land a b => Safe a ∧ Safe b ∧ nopost b
  | .lor a b => Safe a ∧ Safe b ∧ nopost b
  | .tern c a b => Safe c ∧ Safe a ∧ Safe b ∧ nopost a ∧ nopost b

/-- A part of a loop that may be missing. -/
def SafeOpt : Option Expr → Prop
  | none => True
  | some e => Safe e

/-- The same for statements; the conditions of loops have no increments afterwards. -/
def SafeS : Stmt → Prop
  | .expr e => Safe e
  | .assign _ a e => Safe a ∧ Safe e ∧ SafeAsn a e ∧ (nopost a ∧ nopost e ∨ ∀ x, ¬rd a x)
  | .seq s t => SafeS s ∧ SafeS t
  | .ite c s t => Safe c ∧ SafeS s ∧ SafeS t
  | .loop i c st b => SafeOpt i ∧ Safe c ∧ nopost c ∧ SafeOpt st ∧ SafeS b
  | .ret e => Safe e
  | _ => True

end Verif.Flatten.Spec
