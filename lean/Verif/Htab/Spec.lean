/-!
# Specification of a finite map under puts and deletes

Independent of the models: a map is a function `K → Option V`; keys are
identified by the client's equivalence `same`.
-/

namespace Verif.Htab

/-- Mutating client calls. -/
inductive Op (K V : Type) where
  | put (k : K) (v : V)
  | del (k : K)

/-- Effect of one call on the map. -/
def specStep {K V : Type} (same : K → K → Bool) (m : K → Option V) : Op K V → K → Option V
  | .put k v => fun x => if same k x then some v else m x
  | .del k => fun x => if same k x then none else m x

/-- Effect of a history on the map. -/
def specRun {K V : Type} (same : K → K → Bool) (m : K → Option V) : List (Op K V) → K → Option V
  | [] => m
  | o :: os => specRun same (specStep same m o) os

/-- Histories in which, once something has been deleted, only absent keys are
put. -/
def Safe {K V : Type} (same : K → K → Bool) (m : K → Option V) (deleted : Bool) :
    List (Op K V) → Prop
  | [] => True
  | .put k v :: os => (deleted = false ∨ m k = none) ∧ Safe same (specStep same m (.put k v)) deleted os
  | .del k :: os => Safe same (specStep same m (.del k)) true os

/-- `ks` lists the domain of `m`, each equivalence class once. -/
def ListsDomain {K V : Type} (same : K → K → Bool) (m : K → Option V) (ks : List K) : Prop :=
  ks.Pairwise (fun a b => same a b = false) ∧ ∀ k, (m k).isSome ↔ ∃ k' ∈ ks, same k' k = true

end Verif.Htab
