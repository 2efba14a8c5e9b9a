import Verif.Fold.Model

/-!
# What expressions mean at run time

The machine computes in the width of the type. A value of type `t` is an integer in its range.
-/

namespace Verif.Fold

/-- Is `x` a value of type `t`? -/
def Ty.has (t : Ty) (x : Int) : Prop :=
  if t.sgn then -2 ^ (t.w - 1) ≤ x ∧ x < 2 ^ (t.w - 1) else 0 ≤ x ∧ x < 2 ^ t.w

instance (t : Ty) (x : Int) : Decidable (t.has x) := by unfold Ty.has; infer_instance

/-- The low `t.w` bits of `x` as a value of type `t`. -/
def Ty.norm (t : Ty) (x : Int) : Int := if t.sgn then x.bmod (2 ^ t.w) else x % 2 ^ t.w

/-- The hardware masks the amount of a shift to 5 bits, or 6 for 64-bit operands. -/
def Ty.mask (t : Ty) (y : Int) : Nat := (y % (if t.w = 64 then 64 else 32)).toNat

/-- An operation on two values of type `t`; `none`: the processor traps (division by zero, or of the least number by
-1). -/
def Ty.opr (t : Ty) : Op → Int → Int → Option Int
  | .add, x, y => some (t.norm (x + y))
  | .sub, x, y => some (t.norm (x - y))
  | .mul, x, y => some (t.norm (x * y))
  | .div, x, y => if y = 0 ∨ ¬ t.has (x.tdiv y) then none else some (x.tdiv y)
  | .mod, x, y => if y = 0 ∨ ¬ t.has (x.tdiv y) then none else some (x.tmod y)
  | .bsl, x, y => some (t.norm (x * 2 ^ t.mask y))
  | .bsr, x, y => some (t.norm (x / 2 ^ t.mask y))
  | .bor, x, y => some (t.norm (BitVec.ofInt 64 x ||| BitVec.ofInt 64 y).toInt)
  | .band, x, y => some (t.norm (BitVec.ofInt 64 x &&& BitVec.ofInt 64 y).toInt)
  | .bxor, x, y => some (t.norm (BitVec.ofInt 64 x ^^^ BitVec.ofInt 64 y).toInt)

/-- The values of the variables, and of the calls: they depend on the argument and on the calls made before. -/
structure World where
  vars : Nat → Int
  calls : Nat → Int → List (Nat × Int) → Int

/-- The value of an expression and the calls made, operands from left to right; `none`: a trap. -/
def eval (W : World) : Expr → List (Nat × Int) → Option (Int × List (Nat × Int))
  | .lit v t _, h => some (t.norm v.toInt, h)
  | .var d t, h => some (t.norm (W.vars d), h)
  | .bin op a b t, h =>
    match eval W a h with
    | none => none
    | some (x, h) => match eval W b h with
      | none => none
      | some (y, h) => match t.opr op x y with
        | none => none
        | some z => some (z, h)
  | .neg a t, h =>
    match eval W a h with
    | none => none
    | some (x, h) => some (t.norm (-x), h)
  | .cast a t, h =>
    match eval W a h with
    | none => none
    | some (x, h) => some (t.norm x, h)
  | .call f a t, h =>
    match eval W a h with
    | none => none
    | some (x, h) => some (t.norm (W.calls f x h), h ++ [(f, x)])

/-- The types allowed. -/
def Ty.Ok (t : Ty) : Prop := t.w = 8 ∨ t.w = 16 ∨ t.w = 32 ∨ t.w = 64

/-- What type checking ensures: the operands of an operation have its type. -/
def WT : Expr → Prop
  | .lit _ t _ => t.Ok
  | .var _ t => t.Ok
  | .bin _ a b t => WT a ∧ WT b ∧ a.ty = t ∧ b.ty = t ∧ t.Ok
  | .neg a t => WT a ∧ a.ty = t ∧ t.Ok
  | .cast a t => WT a ∧ t.Ok
  | .call _ a t => WT a ∧ t.Ok

/-- The value of a constant expression in signed 64-bit arithmetic without regard to types. -/
def exactop : Op → Int → Int → Int
  | .add, x, y => x + y
  | .sub, x, y => (x - y).bmod (2 ^ 64)
  | .mul, x, y => x * y
  | .div, x, y => x.tdiv y
  | .mod, x, y => x.tmod y
  | .bsl, x, y => (x * 2 ^ y.toNat).bmod (2 ^ 64)
  | .bsr, x, y => x / 2 ^ y.toNat
  | .bor, x, y => (BitVec.ofInt 64 x ||| BitVec.ofInt 64 y).toInt
  | .band, x, y => (BitVec.ofInt 64 x &&& BitVec.ofInt 64 y).toInt
  | .bxor, x, y => (BitVec.ofInt 64 x ^^^ BitVec.ofInt 64 y).toInt

/-- The value of a constant expression; a product with 0 and a remainder modulo 1 are constant too. -/
def exact : Expr → Option Int
  | .lit v _ _ => some v.toInt
  | .var _ _ => none
  | .bin op a b _ =>
    match exact a, exact b with
    | some x, some y => some (exactop op x y)
    | some x, none => if op = .mul ∧ x = 0 then some 0 else none
    | none, some y => if (op = .mul ∧ y = 0) ∨ (op = .mod ∧ y = 1) then some 0 else none
    | none, none => none
  | .neg a _ => (exact a).map fun x => -x
  | .cast a _ => exact a
  | .call _ _ _ => none

/-- The expression makes no calls and does not trap. -/
def Pure (e : Expr) : Prop := ∀ W h, ∃ x, eval W e h = some (x, h)

/-- Two constant operands for which 64-bit and typed arithmetic agree: the compiler's arithmetic does not overflow; the
operands of divisions and of right shifts are in the range of their type; shift amounts are less than the width. -/
def FitOp (t : Ty) : Op → Int → Int → Prop
  | .add, x, y => inS64 (x + y)
  | .mul, x, y => inS64 (x * y)
  | .div, x, y | .mod, x, y => y ≠ 0 ∧ t.has x ∧ t.has y ∧ t.has (x.tdiv y) ∧ inS64 (x.tdiv y)
  | .bsl, _, y => 0 ≤ y ∧ y < t.w
  | .bsr, x, y => 0 ≤ y ∧ y < t.w ∧ t.has x
  | _, _, _ => True

/-- What the positive result asks of each node with constant operands: see `FitOp`; the operands of casts are in the
range of their types; nothing is divided by the constant 0; operands that are dropped make no calls. -/
def Fits : Expr → Prop
  | .lit _ _ _ | .var _ _ => True
  | .bin op a b t => Fits a ∧ Fits b ∧ (∀ x y, exact a = some x → exact b = some y → FitOp t op x y) ∧
    (op = .div ∨ op = .mod → exact b ≠ some 0) ∧
    (op = .mul → exact a = some 0 → Pure b) ∧ (op = .mul → exact b = some 0 → Pure a) ∧ (op = .mod → exact b = some 1 → Pure a)
  | .neg a _ => Fits a ∧ ∀ x, exact a = some x → inS64 (-x)
  | .cast a _ => Fits a ∧ ∀ x, exact a = some x → a.ty.has x
  | .call _ a _ => Fits a

/-- The literals are written in this expression. -/
def Own : Expr → Prop
  | .lit _ _ s => s = none
  | .var _ _ => True
  | .bin _ a b _ => Own a ∧ Own b
  | .neg a _ | .cast a _ | .call _ a _ => Own a

def depth : Expr → Nat
  | .lit _ _ _ | .var _ _ => 1
  | .bin _ a b _ => max (depth a) (depth b) + 1
  | .neg a _ | .cast a _ | .call _ a _ => depth a + 1

/-- No casts between integer types. -/
def NoCast : Expr → Prop
  | .lit _ _ _ | .var _ _ => True
  | .bin _ a b _ => NoCast a ∧ NoCast b
  | .neg a _ | .call _ a _ => NoCast a
  | .cast _ _ => False

/-- The expression with the initialisers of constants in the places of the constants; `none`: their types differ or
there is a cycle. -/
def inl : Nat → Decls → Expr → Option Expr
  | 0, _, _ => none
  | _ + 1, _, .lit v t s => some (.lit v t s)
  | n + 1, D, .var d t => match D d with
    | ⟨true, some e⟩ => if e.ty = t then inl n D e else none
    | _ => some (.var d t)
  | n + 1, D, .bin op a b t => match inl n D a, inl n D b with
    | some a, some b => some (.bin op a b t)
    | _, _ => none
  | n + 1, D, .neg a t => (inl n D a).map (.neg · t)
  | n + 1, D, .cast a t => (inl n D a).map (.cast · t)
  | n + 1, D, .call f a t => (inl n D a).map (.call f · t)

/-- Constants have the values of their initialisers. -/
def Consts (D : Decls) (W : World) : Prop := ∀ d e, D d = ⟨true, some e⟩ → ∀ h, eval W e h = some (e.ty.norm (W.vars d), h)

/-- **C36**: folding an expression in a function does not change its value or its calls. -/
def FullClaim36 : Prop := ∀ (e : Expr) (D : Decls) (fuel : Nat) (D' : Decls) (e' : Expr), WT e → fold false fuel D e = .ok (D', e') →
  ∀ W h, eval W e' h = eval W e h

/-- **C36**: the compiler has no undefined behaviour while folding. -/
def FullClaim36b : Prop := ∀ (e : Expr) (D : Decls) (fuel : Nat), WT e → fold false fuel D e ≠ .ub

/-- **C36**: folding an initialiser does not change any other declaration. -/
def FullClaim36c : Prop := ∀ (e : Expr) (D : Decls) (fuel : Nat) (D' : Decls) (e' : Expr), WT e →
  (∀ k e, (D k).init = some e → WT e) → fold true fuel D e = .ok (D', e') → D' = D

/-- **C36**: folding an array initialiser with strictly increasing indices keeps every element at its index. -/
def FullClaim36d : Prop := ∀ (es : List (Int × Expr)) (D : Decls) (fuel : Nat) (D' : Decls) (es' : List (Int × Expr)),
  (es.map Prod.fst).Pairwise (· < ·) → foldarr true fuel D es = .ok (D', es') → es'.map Prod.fst = es.map Prod.fst

end Verif.Fold
