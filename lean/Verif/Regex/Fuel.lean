import Verif.Regex.Total

/-! # More rounds do not change what the parser returns -/

namespace Verif.Regex
open Verif.Utf

/-- `y` is `x`, unless `x` ran out of rounds. -/
def Le {α : Type} (x y : Res α) : Prop := x = .spin ∨ x = y

theorem Le.rfl {α : Type} {x : Res α} : Le x x := .inr (Eq.refl _)

theorem Le.bind {α β : Type} {x y : Res α} {f g : α → Res β} (h : Le x y) (hf : ∀ a, Le (f a) (g a)) : Le (x >>= f) (y >>= g) := by
  rcases h with rfl | rfl
  · exact .inl (Eq.refl _)
  · cases x with
    | ok a => exact hf a
    | _ => exact .inr (Eq.refl _)

theorem Le.ite {α : Type} {c : Prop} [Decidable c] {a b a' b' : Res α} (h1 : Le a a') (h2 : Le b b') :
    Le (if c then a else b) (if c then a' else b') := by
  split <;> assumption

theorem classloop_le (pat : List Byte) (fuel : Nat) : ∀ st rl, Le (classloop pat fuel st rl) (classloop pat (fuel + 1) st rl) := by
  induction fuel with
  | zero => intro st rl; exact .inl (Eq.refl _)
  | succ fuel ih =>
    intro st rl
    rw [classloop, classloop]
    exact Le.bind .rfl fun c => Le.ite (Le.bind .rfl fun ⟨r, st'⟩ => ih _ _) .rfl

theorem uniloop_le (pat : List Byte) (fuel : Nat) : ∀ st v, Le (uniloop pat fuel st v) (uniloop pat (fuel + 1) st v) := by
  induction fuel with
  | zero => intro st rl; exact .inl (Eq.refl _)
  | succ fuel ih =>
    intro st v
    rw [uniloop, uniloop]
    refine Le.bind .rfl fun ⟨c, st'⟩ => ?_
    dsimp only
    cases hexdig c with
    | some d => exact ih _ _
    | none => exact .rfl

theorem nameloop_le (pat : List Byte) (fuel : Nat) : ∀ st n, Le (nameloop pat fuel st n) (nameloop pat (fuel + 1) st n) := by
  induction fuel with
  | zero => intro st rl; exact .inl (Eq.refl _)
  | succ fuel ih =>
    intro st v
    rw [nameloop, nameloop]
    exact Le.ite (Le.bind .rfl fun ⟨c, st'⟩ => Le.ite .rfl (ih _ _)) .rfl

theorem chrclass_le (pat : List Byte) (fuel : Nat) (st : St) : Le (chrclass pat fuel st) (chrclass pat (fuel + 1) st) :=
  Le.bind .rfl fun ⟨_, _⟩ => Le.bind .rfl fun ⟨_, _⟩ => Le.bind .rfl fun ⟨_, _⟩ => Le.bind (classloop_le _ _ _ _) fun ⟨_, _⟩ => .rfl

theorem unichar_le (pat : List Byte) (fuel : Nat) (st : St) : Le (unichar pat fuel st) (unichar pat (fuel + 1) st) :=
  Le.bind .rfl fun ⟨_, _⟩ => Le.ite .rfl (Le.bind (uniloop_le _ _ _ _) fun ⟨_, _⟩ => .rfl)

theorem unicodeclass_le (tabs : List Byte → Option (List Rng)) (pat : List Byte) (fuel : Nat) (st : St) (neg : Bool) :
    Le (unicodeclass tabs pat fuel st neg) (unicodeclass tabs pat (fuel + 1) st neg) :=
  Le.ite .rfl (Le.bind .rfl fun _ => Le.bind .rfl fun ⟨_, _⟩ => Le.ite (Le.bind .rfl fun _ => Le.bind (nameloop_le _ _ _ _) fun ⟨_, _⟩ => .rfl) .rfl)

theorem escaped_le (tabs : List Byte → Option (List Rng)) (pat : List Byte) (fuel : Nat) (st : St) :
    Le (escaped tabs pat fuel st) (escaped tabs pat (fuel + 1) st) :=
  Le.bind .rfl fun ⟨_, _⟩ => Le.ite (unicodeclass_le _ _ _ _ _) (Le.ite (unicodeclass_le _ _ _ _ _) (Le.ite (unichar_le _ _ _) .rfl))

theorem expr_le (tabs : List Byte → Option (List Rng)) (pat : List Byte) (fuel : Nat) :
    (∀ st, Le (altexpr tabs pat fuel st) (altexpr tabs pat (fuel + 1) st)) ∧
    (∀ st, Le (catexpr tabs pat fuel st) (catexpr tabs pat (fuel + 1) st)) ∧
    (∀ st, Le (repexpr tabs pat fuel st) (repexpr tabs pat (fuel + 1) st)) ∧
    (∀ st, Le (baseexpr tabs pat fuel st) (baseexpr tabs pat (fuel + 1) st)) := by
  induction fuel with
  | zero => exact ⟨fun _ => .inl (Eq.refl _), fun _ => .inl (Eq.refl _), fun _ => .inl (Eq.refl _), fun _ => .inl (Eq.refl _)⟩
  | succ fuel ih =>
    obtain ⟨i1, i2, i3, i4⟩ := ih
    refine ⟨fun st => ?_, fun st => ?_, fun st => ?_, fun st => ?_⟩
    · rw [altexpr, altexpr]
      refine Le.bind (i2 st) fun ⟨r, st⟩ => ?_
      cases r with
      | some t => exact Le.bind .rfl fun ⟨b, st⟩ => Le.ite (Le.bind (i1 st) fun _ => .rfl) .rfl
      | _ => exact .rfl
    · rw [catexpr, catexpr]
      refine Le.bind (i3 st) fun ⟨r, st⟩ => ?_
      cases r with
      | some t => exact Le.bind (i2 st) fun _ => .rfl
      | _ => exact .rfl
    · rw [repexpr, repexpr]
      exact Le.bind (i4 st) fun _ => .rfl
    · rw [baseexpr, baseexpr]
      refine Le.ite .rfl (Le.bind .rfl fun c => Le.ite .rfl (Le.ite .rfl (Le.ite .rfl (Le.ite .rfl (Le.ite .rfl (Le.ite (chrclass_le _ _ _)
        (Le.ite .rfl (Le.ite .rfl (Le.ite .rfl (Le.ite (Le.bind .rfl fun ⟨g, st⟩ => ?_) (Le.ite (Le.bind .rfl fun ⟨_, st⟩ =>
          Le.ite .rfl (escaped_le _ _ _ _)) .rfl)))))))))))
      cases g with
      | none => exact .rfl
      | some g => exact Le.bind (i1 st) fun _ => .rfl

theorem regexparse_le (tabs : List Byte → Option (List Rng)) (pat : List Byte) (fuel : Nat) :
    Le (regexparse tabs pat fuel) (regexparse tabs pat (fuel + 1)) :=
  Le.bind ((expr_le tabs pat fuel).1 _) fun _ => .rfl

/-- The parser's result does not depend on the number of rounds. -/
theorem regexparse_const (tabs : List Byte → Option (List Rng)) (pat : List Byte) (k : Nat) :
    regexparse tabs pat (4 * pat.length + 8 + k) = regexparse tabs pat (4 * pat.length + 8) := by
  induction k with
  | zero => rfl
  | succ k ih =>
    rw [← ih]
    rcases regexparse_le tabs pat (4 * pat.length + 8 + k) with h | h
    · exact absurd h (regexparse_ends tabs pat _ (by omega))
    · exact h.symm

/-- Compiling ends, for every pattern. -/
theorem compile_ends (tabs : List Byte → Option (List Rng)) (pat : List Byte) : ∃ N, ∀ fuel, N ≤ fuel → compile tabs fuel pat ≠ .spin := by
  have key : ∀ fuel, 4 * pat.length + 8 ≤ fuel → regexparse tabs pat fuel = regexparse tabs pat (4 * pat.length + 8) := by
    intro fuel hf
    have := regexparse_const tabs pat (fuel - (4 * pat.length + 8))
    rwa [Nat.add_sub_cancel' hf] at this
  have he := regexparse_ends tabs pat (4 * pat.length + 8) (Nat.le_refl _)
  cases hr : regexparse tabs pat (4 * pat.length + 8) with
  | spin => exact absurd hr he
  | abort => exact ⟨_, fun fuel hf => by unfold compile; rw [key fuel hf, hr]; intro h; cases h⟩
  | ub => exact ⟨_, fun fuel hf => by unfold compile; rw [key fuel hf, hr]; intro h; cases h⟩
  | ok r =>
    cases r with
    | error e => exact ⟨_, fun fuel hf => by unfold compile; rw [key fuel hf, hr]; intro h; cases h⟩
    | ok r =>
      obtain ⟨t, n⟩ := r
      obtain ⟨N, hN⟩ := gen_ends t
      refine ⟨max N (4 * pat.length + 8), fun fuel hf => ?_⟩
      unfold compile
      rw [key fuel (by omega), hr]
      have : Ends (genall fuel t) := (hN fuel (by omega) _).bind fun _ _ => Ends.ok _
      exact this.bind fun _ _ => Ends.ok _

end Verif.Regex
