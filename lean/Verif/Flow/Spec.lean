import Verif.Flow.Model

/-!
# How a list of statements runs

Control starts at statement 0. A conditional jump may go either way. Nothing here refers to blocks or sets.
-/

namespace Verif.Flow

/-- Control goes on to the next statement. -/
def Stmt.goesOn : Stmt → Prop
  | .jmp _ | .cjmp _ _ _ | .ret | .dead => False
  | .ex (.call true _ _) => False
  | _ => True

/-- Control may go from statement `i` to statement `j`; a jump goes on behind its label. -/
inductive Step (P : List Stmt) : Nat → Nat → Prop where
  | jmp {i j l} : P[i]? = some (.jmp l) → P[j]? = some (.label l) → Step P i (j + 1)
  | cjmp {i j c a b l} : P[i]? = some (.cjmp c a b) → (l = a ∨ l = b) → P[j]? = some (.label l) → Step P i (j + 1)
  | next {i s} : P[i]? = some s → s.goesOn → Step P i (i + 1)

/-- Control may go from `i` to `j` in any number of steps. -/
inductive Runs (P : List Stmt) : Nat → Nat → Prop where
  | refl {i} : Runs P i i
  | tail {i j k} : Runs P i j → Step P j k → Runs P i k

/-- No label is set twice. -/
def Unique (P : List Stmt) : Prop := ∀ i j l : Nat, P[i]? = some (Stmt.label l) → P[j]? = some (Stmt.label l) → i = j

/-- The statement gives variable `d` a value. -/
def Stmt.assigns (d : Nat) : Stmt → Prop
  | .defn (.var e _) | .set (.var e _) _ | .upd (.var e _) _ => e = d
  | .blit (.addr (.var e _)) _ _ | .clear (.addr (.var e _)) _ => e = d
  | _ => False

mutual
/-- The scalar variables whose value an expression needs. The address of a variable does not need its value. -/
def Ex.reads : Ex → List Nat
  | .var d tr => if tr then [d] else []
  | .addr (.var _ _) => []
  | .addr a => a.reads
  | .call _ f args => f.reads ++ readsAll args
  | .op args => readsAll args
/-- Those of a list. -/
def readsAll : List Ex → List Nat
  | [] => []
  | a :: t => a.reads ++ readsAll t
end

/-- The scalar variables needed by the target of an assignment: all but the variable assigned itself. -/
def Ex.lreads : Ex → List Nat
  | .var _ _ => []
  | e => e.reads

/-- The scalar variables whose value a statement needs. -/
def Stmt.reads : Stmt → List Nat
  | .cjmp c _ _ => c.reads
  | .defn a => a.lreads
  | .set l r => l.lreads ++ r.reads
  | .upd l r => l.reads ++ r.reads
  | .blit d s n => d.reads ++ s.reads ++ n.reads
  | .clear d n => d.reads ++ n.reads
  | .ex e => e.reads
  | _ => []

/-- Control may go from `i` to `j` without giving `d` a value. -/
inductive Without (P : List Stmt) (d : Nat) : Nat → Nat → Prop where
  | refl {i} : Without P d i i
  | tail {i j k s} : Without P d i j → P[j]? = some s → ¬ s.assigns d → Step P j k → Without P d i k

/-- Control may come to statement `m` when `d` has been declared without a value and given none since. -/
def Undefined (P : List Stmt) (d m : Nat) : Prop :=
  ∃ u, Runs P 0 u ∧ P[u]? = some (.undef d) ∧ Without P d (u + 1) m

/-- The statement gives variable `d` a value or makes it undefined. -/
def Stmt.sets (d : Nat) (s : Stmt) : Prop := s.assigns d ∨ s = .undef d

/-- Along some path of the graph, statement `u`, which sets `d`, is the last to do so before node `k` of block `b`. -/
inductive Flows (g : G) (u d : Nat) : Nat → Nat → Prop where
  | gen {b k s} : g.live b = true → (g.nodes b)[k]? = some (u, s) → Flows g u d b (k + 1)
  | pass {b k n} : Flows g u d b k → (g.nodes b)[k]? = some n → ¬ n.2.sets d → Flows g u d b (k + 1)
  | edge {b c} : Flows g u d b (g.nodes b).length → c ∈ g.succ b → Flows g u d c 0

mutual
/-- Addresses are taken of variables only, and the functions called need no variables. -/
def Ex.Plain : Ex → Prop
  | .var _ _ => True
  | .addr (.var _ _) => True
  | .addr _ => False
  | .call _ f args => f.reads = [] ∧ allPlain args
  | .op args => allPlain args
/-- The same for lists. -/
def allPlain : List Ex → Prop
  | [] => True
  | a :: t => a.Plain ∧ allPlain t
end

/-- The expressions a statement evaluates, but for the target of assignments and the size of copies. -/
def Stmt.values : Stmt → List Ex
  | .cjmp c _ _ => [c]
  | .set _ r => [r]
  | .upd l r => [l, r]
  | .blit _ s _ => [s]
  | .clear d n => [d, n]
  | .ex e => [e]
  | _ => []

/-- Every label jumped to is set. -/
def Labelled (P : List Stmt) : Prop :=
  (∀ l, .jmp l ∈ P → .label l ∈ P) ∧ ∀ c a b, .cjmp c a b ∈ P → .label a ∈ P ∧ .label b ∈ P

/-- The declaration of `d` comes before all assignments to it. -/
def DeclFirst (P : List Stmt) (d : Nat) : Prop :=
  ∀ (i j : Nat) (t : Stmt), P[j]? = some (.undef d) → i < j → P[i]? = some t → ¬ t.assigns d

end Verif.Flow
