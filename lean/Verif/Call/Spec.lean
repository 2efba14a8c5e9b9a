import Verif.Call.Lemmas

/-!
# What a call is to do
-/

namespace Verif.Call

open Verif.Layout

/-- Two places have nothing in common. -/
def Place.Apart : Place → Place → Prop
  | .ireg a, .ireg b => a ≠ b
  | .freg a, .freg b => a ≠ b
  | .mem a n, .mem b m => a + n ≤ b ∨ b + m ≤ a
  | _, _ => True

/-- The places hold a value of the type: all of it is in memory, aligned, or it is in as many
registers as it needs; there are six integer and eight floating point registers. -/
def Holds (sp : Int) (t : Ty) (pl : List Place) : Prop :=
  (∃ off : Nat, pl = [.mem (sp + off) (tysize t)] ∧ tyalign t ∣ off) ∨
  ((∀ p ∈ pl, (∃ k, k < 6 ∧ p = .ireg k) ∨ (∃ k, k < 8 ∧ p = .freg k)) ∧ tysize t ≤ 8 * pl.length ∧ pl ≠ [])

/-- A place in memory lies within the `n` bytes from `sp` on. -/
def Place.Within (sp : Int) (n : Nat) : Place → Prop
  | .mem a len => sp ≤ a ∧ a + len ≤ sp + n
  | _ => True

/-- A call of a function of type `f` with variadic arguments of the types `va` hands over its
arguments: the compiler finds places for them and for the parameters; the parameters which are not
void are, in order, where the first arguments are put; the arguments have places of their own, big
enough, in existing registers or in the space made for them.  (`ts` and `us` are the types of what the
caller passes and the function takes, with the hidden arguments.) -/
def HandsOver (sp : Int) (f : FnTy) (va : List Ty) (pl ql : Res (List (List Place))) : Prop :=
  ∃ ts us xs ys rest, callerTys f va = .ok ts ∧ funcTys f = .ok us ∧ pl = .ok xs ∧ ql = .ok ys ∧
    us.length = ys.length ∧
    xs = ((us.zip ys).filter (fun u => !isvoid u.1)).map Prod.snd ++ rest ∧
    List.Forall₂ (Holds sp) ts xs ∧
    xs.flatten.Pairwise Place.Apart ∧
    ∀ p ∈ xs.flatten, p.Within sp (argsz ts)

end Verif.Call
