import Mathlib.Tactic.Common
import Mathlib.Order.Nat

/-!
# Outcomes

Every modelled function that can misbehave returns a `Res`.

* `ok a`   – the function returns `a`;
* `abort`  – the program is stopped in a defined way (Myrddin slice bounds
  check, `std.die`, C `assert`, `die`, `fatal`, `abort`);
* `ub`     – undefined behaviour in C / unchecked access in Myrddin: nothing is
  known about what happens next;
* `spin`   – the code loops forever.
-/

namespace Verif

/-- Outcome of running a piece of modelled code (a modelling device, no
counterpart in /repo). -/
inductive Res (α : Type u) where
  | ok (a : α)
  | abort
  | ub
  | spin
  deriving DecidableEq, Repr

namespace Res

/-- Sequencing: the first failure decides the outcome (modelling device). -/
def bind {α : Type u} {β : Type v} : Res α → (α → Res β) → Res β
  | ok a, f => f a
  | abort, _ => abort
  | ub, _ => ub
  | spin, _ => spin

/-- Post-processing of a successful outcome (modelling device). -/
def map {α : Type u} {β : Type v} (f : α → β) : Res α → Res β
  | ok a => ok (f a)
  | abort => abort
  | ub => ub
  | spin => spin

instance : Monad Res where
  pure := Res.ok
  bind := Res.bind

@[simp] theorem pure_eq {α : Type u} (a : α) : (pure a : Res α) = ok a := rfl
@[simp] theorem bind_ok {α β : Type u} (a : α) (f : α → Res β) : (ok a >>= f) = f a := rfl
@[simp] theorem bind_abort {α β : Type u} (f : α → Res β) : ((abort : Res α) >>= f) = abort := rfl
@[simp] theorem bind_ub {α β : Type u} (f : α → Res β) : ((ub : Res α) >>= f) = ub := rfl
@[simp] theorem bind_spin {α β : Type u} (f : α → Res β) : ((spin : Res α) >>= f) = spin := rfl
@[simp] theorem map_ok {α : Type u} {β : Type v} (f : α → β) (a : α) : (ok a).map f = ok (f a) := rfl
@[simp] theorem map_abort {α : Type u} {β : Type v} (f : α → β) : (abort : Res α).map f = abort := rfl
@[simp] theorem map_ub {α : Type u} {β : Type v} (f : α → β) : (ub : Res α).map f = ub := rfl
@[simp] theorem map_spin {α : Type u} {β : Type v} (f : α → β) : (spin : Res α).map f = spin := rfl

instance : LawfulMonad Res := LawfulMonad.mk' Res
  (id_map := by intro _ x; cases x <;> rfl)
  (pure_bind := by intros; rfl)
  (bind_assoc := by intro _ _ _ x _ _; cases x <;> rfl)

theorem bind_eq_ok {α β : Type u} {x : Res α} {f : α → Res β} {b : β} :
    (x >>= f) = ok b ↔ ∃ a, x = ok a ∧ f a = ok b := by
  cases x <;> simp

end Res

/-- Raw C array read `a[i]`: undefined behaviour out of range (modelling device). -/
def rdUB {α : Type u} (l : List α) (i : Nat) : Res α :=
  match l[i]? with
  | some x => .ok x
  | none => .ub

/-- Raw C array write `a[i] = v`: undefined behaviour out of range (modelling device). -/
def wrUB {α : Type u} (l : List α) (i : Nat) (v : α) : Res (List α) :=
  if i < l.length then .ok (l.set i v) else .ub

/-- Bounds checked Myrddin read `a[i]`: aborts out of range (modelling device). -/
def rdChk {α : Type u} (l : List α) (i : Nat) : Res α :=
  match l[i]? with
  | some x => .ok x
  | none => .abort

/-- Bounds checked Myrddin write `a[i] = v`: aborts out of range (modelling device). -/
def wrChk {α : Type u} (l : List α) (i : Nat) (v : α) : Res (List α) :=
  if i < l.length then .ok (l.set i v) else .abort

/-- A byte of a string (modelling device). -/
abbrev Byte := BitVec 8

/-- Myrddin slicing `a[lo:hi]`: the generated code (6/simp.c:675-716, `simpslice`)
compares only the upper end with the length; a start beyond the end makes a
slice of negative length, which we treat as undefined. -/
def slice {α : Type u} (l : List α) (lo hi : Nat) : Res (List α) :=
  if l.length < hi then .abort else if hi < lo then .ub else .ok ((l.take hi).drop lo)

theorem slice_ok {α : Type u} {l : List α} {lo hi : Nat} (h1 : lo ≤ hi) (h2 : hi ≤ l.length) :
    slice l lo hi = .ok ((l.take hi).drop lo) := by
  unfold slice
  rw [if_neg (by omega), if_neg (by omega)]

theorem slice_suffix {α : Type u} {l : List α} {lo : Nat} (h1 : lo ≤ l.length) :
    slice l lo l.length = .ok (l.drop lo) := by
  rw [slice_ok h1 (Nat.le_refl _), List.take_length]

theorem slice_prefix {α : Type u} {l : List α} {hi : Nat} (h1 : hi ≤ l.length) :
    slice l 0 hi = .ok (l.take hi) := by
  rw [slice_ok (Nat.zero_le _) h1, List.drop_zero]

theorem rdUB_ok {α : Type u} {l : List α} {i : Nat} (h : i < l.length) :
    rdUB l i = .ok l[i] := by simp [rdUB, h]

theorem wrUB_ok {α : Type u} {l : List α} {i : Nat} (v : α) (h : i < l.length) :
    wrUB l i v = .ok (l.set i v) := by simp [wrUB, h]

theorem rdChk_ok {α : Type u} {l : List α} {i : Nat} (h : i < l.length) :
    rdChk l i = .ok l[i] := by simp [rdChk, h]

theorem wrChk_ok {α : Type u} {l : List α} {i : Nat} (v : α) (h : i < l.length) :
    wrChk l i v = .ok (l.set i v) := by simp [wrChk, h]

end Verif
