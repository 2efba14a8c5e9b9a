import Verif.Fold.Lemmas

/-! # C36: constant folding -/

namespace Verif.Fold

abbrev i8 : Ty := ⟨8, true⟩
abbrev u8 : Ty := ⟨8, false⟩
abbrev i32 : Ty := ⟨32, true⟩
abbrev u32 : Ty := ⟨32, false⟩
abbrev i64 : Ty := ⟨64, true⟩

/-- No declarations. -/
def noD : Decls := fun _ => ⟨false, none⟩

def w0 : World := ⟨fun _ => 7, fun _ x _ => x⟩

/-! ## What is wrong -/

/-- `0 * f(1)`: the call is dropped. -/
def dropped : Expr := .bin .mul (.lit 0 i32 none) (.call 0 (.lit 1 i32 none) i32) i32

/-- **C36** does not hold: `0 * f(1)` does not call `f`. -/
theorem fold_drops_call_violated : ¬ FullClaim36 := by
  intro h
  have := h dropped noD 5 noD (.lit 0 i32 none) (by simp [dropped, WT, Expr.ty, Ty.Ok]) rfl w0 []
  exact absurd this (by decide)

/-- `(200 + 100) / 2` of type `uint8` is 22; it is compiled as 150. -/
theorem fold_div_violated : ¬ FullClaim36 := by
  intro h
  have := h (.bin .div (.bin .add (.lit 200 u8 none) (.lit 100 u8 none) u8) (.lit 2 u8 none) u8) noD 5 noD (.lit 150 u8 none)
    (by simp [WT, Expr.ty, Ty.Ok]) rfl w0 []
  exact absurd this (by decide)

/-- `(-1) >> 1` of type `uint32` is 0x7fffffff; it is compiled as 0xffffffff. -/
theorem fold_shr_violated : ¬ FullClaim36 := by
  intro h
  have := h (.bin .bsr (.neg (.lit 1 u32 none) u32) (.lit 1 u32 none) u32) noD 5 noD (.lit (-1) u32 none)
    (by simp [WT, Expr.ty, Ty.Ok]) rfl w0 []
  exact absurd this (by decide)

/-- `((200 + 100 : uint8) : int)` is 44; it is compiled as 300. -/
theorem fold_cast_violated : ¬ FullClaim36 := by
  intro h
  have := h (.cast (.bin .add (.lit 200 u8 none) (.lit 100 u8 none) u8) i32) noD 5 noD (.lit 300 i32 none)
    (by simp [WT, Expr.ty, Ty.Ok]) rfl w0 []
  exact absurd this (by decide)

/-- **C36** does not hold: the compiler's own arithmetic overflows at `0x7fffffffffffffff + 1`. -/
theorem fold_overflow_violated : ¬ FullClaim36b := by
  intro h
  exact h (.bin .add (.lit 0x7fffffffffffffff i64 none) (.lit 1 i64 none) i64) noD 5 (by simp [WT, Expr.ty, Ty.Ok]) rfl

/-- The compiler divides the least 64-bit number by -1 (a trap on x86). -/
theorem fold_div_min_violated : ¬ FullClaim36b := by
  intro h
  exact h (.bin .div (.lit 0x8000000000000000 i64 none) (.lit (-1) i64 none) i64) noD 5 (by simp [WT, Expr.ty, Ty.Ok]) rfl

/-- The compiler shifts by 64. -/
theorem fold_shl_violated : ¬ FullClaim36b := by
  intro h
  exact h (.bin .bsl (.lit 1 i64 none) (.lit 64 i64 none) i64) noD 5 (by simp [WT, Expr.ty, Ty.Ok]) rfl

/-- `const c : int64 = 5`. -/
def constC : Decls := fun k => if k = 0 then ⟨true, some (.lit 5 i64 (some 0))⟩ else ⟨false, none⟩

/-- **C36** does not hold: folding `(c : int8)` changes the type of the initialiser of `c` itself; the constant is then
emitted with 1 byte instead of 8. -/
theorem fold_retypes_constant_violated : ¬ FullClaim36c := by
  intro h
  have hD : ∀ k e, (constC k).init = some e → WT e := by
    intro k e he
    unfold constC at he
    split at he
    · cases he; simp [WT, Ty.Ok]
    · cases he
  have := h (.cast (.var 0 i64) i8) constC 5 (constC.retype 0 i8) (.lit 5 i8 (some 0)) (by simp [WT, Ty.Ok]) hD rfl
  have := congrFun this 0
  exact absurd this (by decide)

/-- **C36** does not hold: in `[.[0] = c, .[1] = c]` both elements get the index 1. -/
theorem fold_array_violated : ¬ FullClaim36d := by
  intro h
  have := h [(0, .var 0 i64), (1, .var 0 i64)] constC 5 constC [(1, .lit 5 i64 (some 0)), (1, .lit 5 i64 (some 0))]
    (by simp) rfl
  exact absurd this (by decide)

/-! ## What holds -/

/-- **C36** (expressions in functions). If the constants fit (`Fits`), folding succeeds, the new expression has the type
of the old, has the same value and makes the same calls in every world, and no declaration is changed. Missing for the
full claim: `Fits`. -/
theorem fold_preserves_partial (e : Expr) (D : Decls) (fuel : Nat) (hw : WT e) (hf : Fits e) (ho : Own e) (hd : depth e ≤ fuel) :
    ∃ e', fold false fuel D e = .ok (D, e') ∧ e'.ty = e.ty ∧ ∀ W h, eval W e' h = eval W e h := by
  obtain ⟨D', e', h1, g, h2⟩ := fold_good fuel e D hw hf hd
  obtain ⟨rfl, _⟩ := h2 ho
  exact ⟨e', h1, g.ty, g.sem⟩

/-- A constant expression which fits becomes a literal of its exact value. -/
theorem fold_constant_partial (e : Expr) (D : Decls) (fuel : Nat) (x : Int) (hw : WT e) (hf : Fits e) (hd : depth e ≤ fuel)
    (hx : exact e = some x) : ∃ D' v s, fold false fuel D e = .ok (D', .lit v e.ty s) ∧ v.toInt = x := by
  obtain ⟨D', e', h1, g, _⟩ := fold_good fuel e D hw hf hd
  obtain ⟨v, s, rfl, h3⟩ := g.lit x hx
  exact ⟨D', v, s, h1, h3⟩

/-- `(250 + 10) * n - 0`, type `uint8`, with wrap-around, and a call. -/
def sample : Expr := .bin .sub (.bin .mul (.bin .add (.lit 250 u8 none) (.lit 10 u8 none) u8) (.call 3 (.var 1 u8) u8) u8) (.lit 0 u8 none) u8

example : WT sample ∧ Fits sample ∧ Own sample ∧ depth sample ≤ 4 ∧
    fold false 4 noD sample = .ok (noD, .bin .mul (.lit 260 u8 none) (.call 3 (.var 1 u8) u8) u8) := by
  refine ⟨by simp [sample, WT, Expr.ty, Ty.Ok], ?_, by simp [sample, Own], by decide, rfl⟩
  simp [sample, Fits, exact, FitOp, inS64, exactop]

example : eval w0 sample [] = some (28, [(3, 7)]) := by decide

/-- **C36** (initialisers of globals). Without casts, if the constants fit, folding an initialiser changes no declaration
and the value is that of the expression, in every world in which constants have the values of their initialisers.
Missing for the full claim: casts and `Fits`. -/
theorem fold_const_preserves_partial (e i : Expr) (D : Decls) (fuel : Nat) (hD : ∀ k e, (D k).init = some e → NoCast e)
    (hc : NoCast e) (hi : inl fuel D e = some i) (hw : WT i) (hf : Fits i) :
    ∃ e', fold true fuel D e = .ok (D, e') ∧ e'.ty = e.ty ∧ (∀ W, Consts D W → ∀ h, eval W e' h = eval W e h) ∧
      ∀ x, exact i = some x → ∃ v s, e' = .lit v e.ty s ∧ v.toInt = x := by
  obtain ⟨e', h1, g⟩ := fold_true_good fuel e i D hD hc hi hw hf
  have ht : i.ty = e.ty := by
    clear h1 g hw hf
    induction fuel generalizing e with
    | zero => cases hi
    | succ n ih =>
      cases e with
      | lit v t s => cases hi; rfl
      | var d t =>
        simp only [inl] at hi
        split at hi
        · rename_i e0 hd
          split at hi
          · rename_i h0
            rw [ih e0 (hD d e0 (by rw [hd])) hi, h0]; rfl
          · cases hi
        · cases hi; rfl
      | bin op a b t =>
        simp only [inl] at hi
        split at hi
        · cases hi; rfl
        · cases hi
      | neg a t => simp only [inl, Option.map_eq_some_iff] at hi; obtain ⟨_, _, rfl⟩ := hi; rfl
      | cast a t => simp only [inl, Option.map_eq_some_iff] at hi; obtain ⟨_, _, rfl⟩ := hi; rfl
      | call f a t => simp only [inl, Option.map_eq_some_iff] at hi; obtain ⟨_, _, rfl⟩ := hi; rfl
  refine ⟨e', h1, by rw [g.ty, ht], fun W hW h => by rw [g.sem, (inl_sem hW fuel e i hi).2], fun x hx => ?_⟩
  obtain ⟨v, s, h3, h4⟩ := g.lit x hx
  exact ⟨v, s, by rw [h3, ht], h4⟩

example : inl 5 constC (.bin .mul (.var 0 i64) (.lit 3 i64 none) i64) = some (.bin .mul (.lit 5 i64 (some 0)) (.lit 3 i64 none) i64) ∧
    fold true 5 constC (.bin .mul (.var 0 i64) (.lit 3 i64 none) i64) = .ok (constC, .lit 15 i64 none) := ⟨rfl, rfl⟩

example : WT (.bin .mul (.lit 5 i64 (some 0)) (.lit 3 i64 none) i64) ∧ Fits (.bin .mul (.lit 5 i64 (some 0)) (.lit 3 i64 none) i64) := by
  constructor
  · simp [WT, Expr.ty, Ty.Ok]
  · simp [Fits, exact, FitOp, inS64]

/-- **C36** (arrays). If no two elements become the same node, the elements are those given, each folded by itself, in
the order of their indices. Missing for the full claim: a constant named by two elements. -/
theorem fold_array_partial (es : List (Int × Expr)) (f : Expr → Expr) (D : Decls) (fuel : Nat)
    (hf : ∀ p ∈ es, fold true fuel D p.2 = .ok (D, f p.2)) (hn : (es.filterMap fun p => (f p.2).src).Nodup)
    (hi : (es.map Prod.fst).Nodup) :
    ∃ es', foldarr true fuel D es = .ok (D, es') ∧ es'.Perm (es.map fun p => (p.1, f p.2)) ∧ (es'.map Prod.fst).Pairwise (· < ·) := by
  have hn' : ((es.map fun p => (p.1, f p.2)).filterMap fun p => p.2.src).Nodup := by
    rw [List.filterMap_map]; exact hn
  refine ⟨(es.map fun p => (p.1, f p.2)).foldr insert [], ?_, sort_perm _, ?_⟩
  · unfold foldarr
    rw [foldelems_map es hf, Res.bind_ok]
    simp only [readback_id hn', Res.pure_eq]
  · have h1 := sort_le (es.map fun p => (p.1, f p.2))
    have h2 : (((es.map fun p => (p.1, f p.2)).foldr insert []).map Prod.fst).Nodup := by
      rw [((sort_perm (es.map fun p => (p.1, f p.2))).map Prod.fst).nodup_iff, List.map_map]; exact hi
    have h3 : (((es.map fun p => (p.1, f p.2)).foldr insert []).map Prod.fst).Pairwise (· ≤ ·) := List.pairwise_map.2 h1
    exact (h3.and h2).imp fun h => by omega

example : foldarr true 5 constC [(2, .var 0 i64), (0, .lit 9 i64 none)] = .ok (constC, [(0, .lit 9 i64 none), (2, .lit 5 i64 (some 0))]) := rfl

end Verif.Fold
