import Verif.Match.Model

/-!
# What match statements mean

From `doc/lang.txt` 6.3: when a pattern matches a value and what it binds, and the types of patterns and values. Nothing here
refers to rows, slots or the decision graph.
-/

namespace Verif.Match

mutual
/-- The variables a pattern binds when it matches the value; `none` if it does not match. Of two alternatives the first one
which matches counts. -/
def Pat.bind : Pat → Val → Option (List (Nat × Val))
  | .gap, _ => some []
  | .var d, v => some [(d, v)]
  | .cst p, v => p.bind v
  | .lit a, v => match v with | .atom b => if a = b then some [] else none | _ => none
  | .str s, v => match v with | .bytes s' => if s = s' then some [] else none | _ => none
  | .addr p, v => match v with | .ref w => p.bind w | _ => none
  | .ucon0 _ t, v => match v with | .union0 t' => if t = t' then some [] else none | _ => none
  | .ucon _ t p, v => match v with | .union t' w => if t = t' then p.bind w else none | _ => none
  | .agg k ps, v => match v with | .agg k' vs => if k = k' then ps.bind vs else none | _ => none
  | .lor a b, v => (a.bind v).or (b.bind v)

/-- The same for the elements of an aggregate. -/
def Pats.bind : Pats → List Val → Option (List (Nat × Val))
  | .nil, [] => some []
  | .cons p ps, v :: vs => match p.bind v, ps.bind vs with
    | some a, some b => some (a ++ b)
    | _, _ => none
  | _, _ => none
end

/-- The first arm whose pattern matches, counting from `i`, and what it binds. -/
def first : Nat → List Pat → Val → Option (Nat × List (Nat × Val))
  | _, [], _ => none
  | i, p :: ps, v => match p.bind v with
    | some b => some (i, b)
    | none => first (i + 1) ps v

/-- Types. `name`: a named type, which may be recursive. `union`: the types of the constructors, `none` if there is no body.
`agg`: the types of all elements. `str`: slices of bytes. -/
inductive Ty where
  | atom (a : AtomTy)
  | str
  | ptr (t : Ty)
  | union (cs : List (Option Ty))
  | agg (k : Agg) (ts : List Ty)
  | name (n : Nat)

/-- Definitions of named types. -/
abbrev Defs := Nat → Ty

/-- The structure behind a name. -/
def Ty.base (Γ : Defs) : Ty → Ty
  | .name n => Γ n
  | t => t

/-- The values of atom types. -/
def Atom.InRange (a : Atom) : Prop :=
  match a.ty with
  | .void => a.val = 0
  | .bool => a.val < 2
  | .char => a.val < 2 ^ 32
  | .int b => (b = 8 ∨ b = 16 ∨ b = 32 ∨ b = 64) ∧ a.val < 2 ^ b
  | .flt => a.val < 2 ^ 64

mutual
/-- Patterns of a type. Constants of atom types have been replaced by their literal (`parse/fold.c:163-166`). -/
def Pat.HasTy (Γ : Defs) : Pat → Ty → Prop
  | .gap, _ => True
  | .var _, _ => True
  | .cst p, t => p.HasTy Γ t ∧ ∀ a, t.base Γ ≠ .atom a
  | .lit a, t => t.base Γ = .atom a.ty ∧ a.InRange
  | .str _, t => t.base Γ = .str
  | .addr p, t => ∃ u, t.base Γ = .ptr u ∧ p.HasTy Γ u
  | .ucon0 n i, t => ∃ cs, t.base Γ = .union cs ∧ n = cs.length ∧ cs[i]? = some none
  | .ucon n i p, t => ∃ cs u, t.base Γ = .union cs ∧ n = cs.length ∧ cs[i]? = some (some u) ∧ p.HasTy Γ u
  | .agg k ps, t => ∃ ts, t.base Γ = .agg k ts ∧ ps.HasTys Γ ts
  | .lor a b, t => a.HasTy Γ t ∧ b.HasTy Γ t

/-- Lists of patterns of given types. -/
def Pats.HasTys (Γ : Defs) : Pats → List Ty → Prop
  | .nil, [] => True
  | .cons p ps, t :: ts => p.HasTy Γ t ∧ ps.HasTys Γ ts
  | _, _ => False
end

mutual
/-- Values of a type. -/
inductive HasVal (Γ : Defs) : Val → Ty → Prop
  | atom {a : Atom} {t : Ty} : t.base Γ = .atom a.ty → a.InRange → HasVal Γ (.atom a) t
  | bytes {s : List Byte} {t : Ty} : t.base Γ = .str → HasVal Γ (.bytes s) t
  | ref {v : Val} {t u : Ty} : t.base Γ = .ptr u → HasVal Γ v u → HasVal Γ (.ref v) t
  | union0 {i : Nat} {t : Ty} {cs : List (Option Ty)} : t.base Γ = .union cs → cs[i]? = some none → HasVal Γ (.union0 i) t
  | union {i : Nat} {v : Val} {t u : Ty} {cs : List (Option Ty)} : t.base Γ = .union cs → cs[i]? = some (some u) → HasVal Γ v u →
      HasVal Γ (.union i v) t
  | agg {k : Agg} {vs : List Val} {t : Ty} {ts : List Ty} : t.base Γ = .agg k ts → HasVals Γ vs ts → HasVal Γ (.agg k vs) t

/-- Lists of values of given types. -/
inductive HasVals (Γ : Defs) : List Val → List Ty → Prop
  | nil : HasVals Γ [] []
  | cons {v : Val} {vs : List Val} {t : Ty} {ts : List Ty} : HasVal Γ v t → HasVals Γ vs ts → HasVals Γ (v :: vs) (t :: ts)
end

/-! ## Kinds of patterns -/

mutual
/-- The pattern has no alternatives. -/
def Pat.orfree : Pat → Bool
  | .cst p => p.orfree
  | .addr p => p.orfree
  | .ucon _ _ p => p.orfree
  | .agg _ ps => ps.orfree
  | .lor _ _ => false
  | _ => true

/-- No pattern in the list has alternatives. -/
def Pats.orfree : Pats → Bool
  | .nil => true
  | .cons p ps => p.orfree && ps.orfree
end

/-- All are gaps. -/
def Pats.gaps : Pats → Bool
  | .nil => true
  | .cons .gap ps => ps.gaps
  | _ => false

/-- The initialiser of a constant which is no tuple, array, struct or pointer. -/
def Pat.scalar : Pat → Bool
  | .lit _ => true
  | .str _ => true
  | .ucon0 _ _ => true
  | .ucon _ _ _ => true
  | .cst p => p.scalar
  | _ => false

mutual
/-- Patterns in which only gaps follow an element with alternatives, and whose constants are literals, strings or unions. -/
def Pat.tame : Pat → Bool
  | .cst p => p.scalar && p.tame
  | .addr p => p.tame
  | .ucon _ _ p => p.tame
  | .agg _ ps => ps.tame
  | .lor a b => a.tame && b.tame
  | _ => true

/-- Lists of such patterns. -/
def Pats.tame : Pats → Bool
  | .nil => true
  | .cons p ps => p.tame && (if p.orfree then ps.tame else ps.gaps)
end

mutual
/-- Patterns without alternatives and without constants other than literals. -/
def Pat.plain : Pat → Bool
  | .cst _ => false
  | .lor _ _ => false
  | .addr p => p.plain
  | .ucon _ _ p => p.plain
  | .agg _ ps => ps.plain
  | _ => true

/-- Lists of such patterns. -/
def Pats.plain : Pats → Bool
  | .nil => true
  | .cons p ps => p.plain && ps.plain
end

mutual
/-- The variables of a pattern. -/
def Pat.vars : Pat → List Nat
  | .var d => [d]
  | .cst p => p.vars
  | .addr p => p.vars
  | .ucon _ _ p => p.vars
  | .agg _ ps => ps.vars
  | .lor a b => a.vars ++ b.vars
  | _ => []

/-- The variables of the elements. -/
def Pats.vars : Pats → List Nat
  | .nil => []
  | .cons p ps => p.vars ++ ps.vars
end

/-- Patterns which look at one thing after another: no tuples, arrays, structs, strings or constants other than literals. -/
def Pat.linear : Pat → Bool
  | .cst _ => false
  | .str _ => false
  | .agg _ _ => false
  | .addr p => p.linear
  | .ucon _ _ p => p.linear
  | .lor a b => a.linear && b.linear
  | _ => true

/-- The number of alternatives of such a pattern. -/
def Pat.alts : Pat → Nat
  | .addr p => p.alts
  | .ucon _ _ p => p.alts
  | .lor a b => a.alts + b.alts
  | _ => 1

/-- The pattern matches anything. -/
def Pat.wild : Pat → Bool
  | .gap => true
  | .var _ => true
  | _ => false

end Verif.Match
