import Verif.Prelude

/-!
# Constant folding

parse/fold.c. Integer expressions; the other nodes which `fold` knows (`Outag`, `Oudata`, `Omemb`, `Osize`) and floats
are left out. A node which `fold` does not look into is a `call` of one operand.
-/

namespace Verif.Fold

/-- The integer types: their width in bits (8, 16, 32 or 64) and whether they are signed. -/
structure Ty where
  w : Nat
  sgn : Bool
  deriving DecidableEq, Repr

/-- The operators that are folded. -/
inductive Op where
  | add | sub | mul | div | mod | bsl | bsr | bor | band | bxor
  deriving DecidableEq, Repr

/-- An expression with the types of its nodes. Nodes are shared by pointers: `src = some k` says that the node is the
initialiser of declaration `k` itself. -/
inductive Expr where
  /-- `Olit` of `Lint`, or of `Lchr` (`v < 2 ^ 32`, read by zero extension) -/
  | lit (v : BitVec 64) (t : Ty) (src : Option Nat)
  | var (did : Nat) (t : Ty)
  | bin (op : Op) (a b : Expr) (t : Ty)
  | neg (a : Expr) (t : Ty)
  | cast (a : Expr) (t : Ty)
  | call (f : Nat) (a : Expr) (t : Ty)
  deriving DecidableEq, Repr

/-- `exprtype`. -/
def Expr.ty : Expr → Ty
  | .lit _ t _ | .var _ t | .bin _ _ _ t | .neg _ t | .cast _ t | .call _ _ t => t

/-- A declaration: `isconst` and its initialiser. -/
structure Decl where
  const : Bool
  init : Option Expr
  deriving DecidableEq, Repr

abbrev Decls := Nat → Decl

/-- fold.c:18-34 `getintlit`. -/
def getintlit : Expr → Option (BitVec 64)
  | .lit v _ _ => some v
  | _ => none

/-- fold.c:36-44 `isintval`. -/
def isintval (e : Expr) (v : BitVec 64) : Bool := getintlit e == some v

/-- fold.c:46-56 `val`: a new node. -/
def val (v : BitVec 64) (t : Ty) : Expr := .lit v t none

/-- Is the exact result of signed 64-bit arithmetic in range? Otherwise it is undefined in C. -/
def inS64 (x : Int) : Prop := -2 ^ 63 ≤ x ∧ x < 2 ^ 63

instance (x : Int) : Decidable (inS64 x) := by unfold inS64; infer_instance

/-- The arithmetic of fold.c on two literals: 174, 181, 195, 208, 218, 226, 230, 234, 238, 242. Signed overflow, the
division of the least number by -1 and shifts by less than 0 or more than 63 are undefined. -/
def arith (op : Op) (a b : BitVec 64) : Res (BitVec 64) :=
  match op with
  | .add => if inS64 (a.toInt + b.toInt) then .ok (a + b) else .ub
  | .sub => .ok (a - b)
  | .mul => if inS64 (a.toInt * b.toInt) then .ok (a * b) else .ub
  | .div => if inS64 (a.toInt.tdiv b.toInt) then .ok (BitVec.ofInt 64 (a.toInt.tdiv b.toInt)) else .ub
  | .mod => if inS64 (a.toInt.tdiv b.toInt) then .ok (BitVec.ofInt 64 (a.toInt.tmod b.toInt)) else .ub
  | .bsl => if 0 ≤ b.toInt ∧ b.toInt < 64 then .ok (a <<< b.toNat) else .ub
  | .bsr => if 0 ≤ b.toInt ∧ b.toInt < 64 then .ok (a.sshiftRight b.toNat) else .ub
  | .bor => .ok (a ||| b)
  | .band => .ok (a &&& b)
  | .bxor => .ok (a ^^^ b)

/-- The rules for one literal operand: fold.c:168-172, 177-179, 184-193, 198-206, 211-216 (the last that applies).
`fatal` is `abort`: the compiler reports an error and stops. -/
def simp1 (op : Op) (a b : Expr) (t : Ty) : Res (Option Expr) :=
  match op with
  | .add => .ok (if isintval b 0 then some a else if isintval a 0 then some b else none)
  | .sub => .ok (if isintval b 0 then some a else none)
  | .mul => .ok (if isintval b 0 then some b else if isintval a 0 then some a
      else if isintval b 1 then some a else if isintval a 1 then some b else none)
  | .div => if isintval b 0 then .abort else .ok (if isintval b 1 then some a else none)
  | .mod => if isintval b 0 then .abort else .ok (if isintval b 1 then some (val 0 t) else none)
  | _ => .ok none

/-- One binary node with folded operands. -/
def foldbin (op : Op) (a b : Expr) (t : Ty) : Res Expr := do
  let r ← simp1 op a b t
  match getintlit a, getintlit b with
  | some x, some y => do let v ← arith op x y; pure (val v t)
  | _, _ => pure (r.getD (.bin op a b t))

/-- Store the type of the initialiser of declaration `k`. -/
def Decls.retype (D : Decls) (k : Nat) (t : Ty) : Decls := fun j =>
  if j = k then match D j with
    | ⟨c, some (.lit v _ s)⟩ => ⟨c, some (.lit v t s)⟩
    | d => d
  else D j

/-- fold.c:73-108 `foldcast`, between integer types. The node is changed in place. -/
def foldcast (D : Decls) (a : Expr) (t : Ty) : Decls × Expr :=
  match a with
  | .lit v _ s => (match s with | some k => D.retype k t | none => D, .lit v t s)
  | .var d t' => (D, if t' = t then .var d t else .cast a t)
  | .bin op x y t' => (D, if t' = t then .bin op x y t else .cast a t)
  | .neg x t' => (D, if t' = t then .neg x t else .cast a t)
  | .cast x t' => (D, if t' = t then .cast x t else .cast a t)
  | .call f x t' => (D, if t' = t then .call f x t else .cast a t)

/-- fold.c:131-277 `fold`. `fv`: `foldvar`. All types here are small, so `issmallconst` (58-71) asks for a constant with
an initialiser. The rounds are used up by chains of constants. Simplified: what is folded inside of the initialiser of
a constant (not the root) is not stored there. -/
def fold (fv : Bool) : Nat → Decls → Expr → Res (Decls × Expr)
  | 0, _, _ => .spin
  | _ + 1, D, .lit v t s => .ok (D, .lit v t s)
  | fuel + 1, D, .var d t =>
    match fv, D d with
    | true, ⟨true, some e⟩ => fold fv fuel D e
    | _, _ => .ok (D, .var d t)
  | fuel + 1, D, .bin op a b t => do
    let (D, a) ← fold fv fuel D a
    let (D, b) ← fold fv fuel D b
    let r ← foldbin op a b t
    pure (D, r)
  | fuel + 1, D, .neg a t => do
    let (D, a) ← fold fv fuel D a
    match getintlit a with
    | some x => if inS64 (-x.toInt) then pure (D, val (-x) t) else .ub
    | none => pure (D, .neg a t)
  | fuel + 1, D, .cast a t => do
    let (D, a) ← fold fv fuel D a
    pure (foldcast D a t)
  | fuel + 1, D, .call f a t => do
    let (D, a) ← fold fv fuel D a
    pure (D, .call f a t)

/-! ## Array initialisers -/

/-- The elements of an array initialiser (fold.c:149-150) with their indices; line 271 stores the index of the element
in the folded node, which may be the initialiser of a constant. -/
def foldelems (fv : Bool) (fuel : Nat) : Decls → List (Int × Expr) → Res (Decls × List (Int × Expr))
  | D, [] => .ok (D, [])
  | D, (i, e) :: es => do
    let (D, e) ← fold fv fuel D e
    let (D, es) ← foldelems fv fuel D es
    pure (D, (i, e) :: es)

def Expr.src : Expr → Option Nat
  | .lit _ _ s => s
  | _ => none

/-- The index read back from a node: the one stored last in it. -/
def lastidx (k : Nat) : List (Int × Expr) → Option Int
  | [] => none
  | (i, e) :: es => match lastidx k es with
    | some j => some j
    | none => if e.src = some k then some i else none

def readback (all : List (Int × Expr)) (p : Int × Expr) : Int × Expr :=
  match p.2.src with
  | none => p
  | some k => ((lastidx k all).getD p.1, p.2)

/-- `idxcmp`, fold.c:110-129, and `qsort`: by index. -/
def insert (p : Int × Expr) : List (Int × Expr) → List (Int × Expr)
  | [] => [p]
  | q :: qs => if p.1 < q.1 then p :: q :: qs else q :: insert p qs

/-- fold.c:149-150, 255-258, 270-271 for `Oarr`: the elements in the order of the indices which are then read from
them. -/
def foldarr (fv : Bool) (fuel : Nat) (D : Decls) (es : List (Int × Expr)) : Res (Decls × List (Int × Expr)) := do
  let (D, es) ← foldelems fv fuel D es
  pure (D, ((es.map (readback es)).foldr insert []))

end Verif.Fold
