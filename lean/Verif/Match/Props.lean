import Verif.Match.Whole

/-!
# Properties of match statements (C34, C35, C78)
-/

namespace Verif.Match

open Verif

/-! ## Samples -/

/-- A boolean pattern. -/
def bp (b : Nat) : Pat := .lit ⟨.bool, b⟩
/-- An integer pattern. -/
def ip (n : Nat) : Pat := .lit ⟨.int 32, n⟩
/-- A boolean. -/
def bv (b : Nat) : Val := .atom ⟨.bool, b⟩
/-- An integer. -/
def iv (n : Nat) : Val := .atom ⟨.int 32, n⟩
/-- A pair of patterns. -/
def pair (a b : Pat) : Pat := .agg .tup (.cons a (.cons b .nil))
/-- Three patterns. -/
def triple (a b c : Pat) : Pat := .agg .tup (.cons a (.cons b (.cons c .nil)))
/-- The boolean type. -/
def tb : Ty := .atom .bool
/-- The integer type. -/
def ti : Ty := .atom (.int 32)
/-- No named types. -/
def none0 : Defs := fun _ => .str

theorem bp_ty {b : Nat} (h : b < 2) : (bp b).HasTy none0 tb := ⟨rfl, h⟩
theorem ip_ty {n : Nat} (h : n < 2 ^ 32) : (ip n).HasTy none0 ti := ⟨rfl, by simp [Atom.InRange]; omega⟩
theorem pair_ty {a b : Pat} {s t : Ty} (ha : a.HasTy none0 s) (hb : b.HasTy none0 t) : (pair a b).HasTy none0 (.agg .tup [s, t]) := ⟨_, rfl, ha, hb, trivial⟩
theorem triple_ty {a b c : Pat} {s t u : Ty} (ha : a.HasTy none0 s) (hb : b.HasTy none0 t) (hc : c.HasTy none0 u) :
    (triple a b c).HasTy none0 (.agg .tup [s, t, u]) := ⟨_, rfl, ha, hb, hc, trivial⟩
theorem gap_ty {t : Ty} : Pat.gap.HasTy none0 t := by simp [Pat.HasTy]
theorem var_ty {t : Ty} {d : Nat} : (Pat.var d).HasTy none0 t := by simp [Pat.HasTy]
theorem bv_ty {b : Nat} (h : b < 2) : HasVal none0 (bv b) tb := .atom rfl h
theorem iv_ty {n : Nat} (h : n < 2 ^ 32) : HasVal none0 (iv n) ti := .atom rfl (by simp [Atom.InRange]; omega)
theorem pair_val {a b : Val} {s t : Ty} (ha : HasVal none0 a s) (hb : HasVal none0 b t) : HasVal none0 (.agg .tup [a, b]) (.agg .tup [s, t]) :=
  .agg rfl (.cons ha (.cons hb .nil))

/-- Does the match statement, when run, reach the arm given by `ok`? -/
def reaches (f : Nat) (pats : List Pat) (v : Val) (ok : Option Nat × Nat → Bool) : Bool :=
  match genmatch f pats with
  | .ok (.ok c) => match runmatch f pats c v with
    | .ok x => ok (x.1, x.2.length)
    | _ => false
  | _ => false

theorem reaches_spec {f : Nat} {pats : List Pat} {v : Val} {ok : Option Nat × Nat → Bool} (h : reaches f pats v ok = true) :
    ∃ c x, genmatch f pats = .ok (.ok c) ∧ runmatch f pats c v = .ok x ∧ ok (x.1, x.2.length) = true := by
  unfold reaches at h
  split at h
  · rename_i c hc
    split at h
    · rename_i x hx
      exact ⟨c, x, hc, hx, h⟩
    · cases h
  · cases h

theorem exec_mono {c : List Ins} {v : Val} (f : Nat) : ∀ (pc : Nat) (env : List (Nat × Val)) (x : Option Nat × List (Nat × Val)), exec c v f pc env = .ok x →
    ∀ g, f ≤ g → exec c v g pc env = .ok x := by
  induction f with
  | zero => intro pc env x h; simp [exec] at h
  | succ f ih =>
    intro pc env x h g hg
    obtain ⟨g, rfl⟩ : ∃ k, g = k + 1 := ⟨g - 1, by omega⟩
    have hg : f ≤ g := by omega
    rw [exec.eq_def] at h ⊢
    simp only at h ⊢
    cases hc : c[pc]? with
    | none => rw [hc] at h; exact h
    | some i =>
      rw [hc] at h
      cases i with
      | lbl l => exact ih _ _ _ h g hg
      | jmp l =>
        simp only at h ⊢
        cases hl : find c l with
        | none => rw [hl] at h; exact h
        | some k => rw [hl] at h; exact ih _ _ _ h g hg
      | cjmp l a t e =>
        simp only at h ⊢
        split at h
        · rename_i b hb
          cases hl : find c (if a = b then t else e) with
          | none => rw [hl] at h; exact h
          | some k => rw [hl] at h; exact ih _ _ _ h g hg
        · cases h
      | asn d l =>
        simp only at h ⊢
        cases hl : l.eval v with
        | none => rw [hl] at h; exact h
        | some w => rw [hl] at h; exact ih _ _ _ h g hg
      | block i => exact h

theorem runmatch_det {pats : List Pat} {c : List Ins} {v : Val} {f g : Nat} {x y : Option Nat × List (Nat × Val)} (h : runmatch f pats c v = .ok x)
    (h' : runmatch g pats c v = .ok y) : x = y := by
  simp only [runmatch] at h h'
  obtain ⟨a, h1, h2⟩ := Res.bind_eq_ok.1 h
  obtain ⟨b, h3, h4⟩ := Res.bind_eq_ok.1 h'
  have := exec_mono f _ _ _ h1 (max f g) (by omega)
  rw [exec_mono g _ _ _ h3 (max f g) (by omega)] at this
  cases this
  rw [h2] at h4
  exact Res.ok.inj h4

/-! ## C34: the first pattern which matches -/

/-- A match statement runs the arm of the first pattern which matches the value, with the variables of that pattern bound to
the parts of the value they match. -/
def FullClaim34 : Prop := ∀ (Γ : Defs) (t : Ty) (pats : List Pat), (∀ p ∈ pats, p.HasTy Γ t) → ∀ fuel c, genmatch fuel pats = .ok (.ok c) →
  ∀ v, HasVal Γ v t → ∀ i b, first 0 pats v = some (i, b) → ∃ f, runmatch f pats c v = .ok (some i, b)

/-- `(1 || 2, 3)`: the row of the second alternative lacks what follows it, so `(2, 99)` fits. -/
theorem first_match_violated : ¬ FullClaim34 := by
  intro h
  obtain ⟨c, x, h1, h2, h3⟩ := reaches_spec (f := 20) (pats := [pair (.lor (ip 1) (ip 2)) (ip 3), .gap]) (v := .agg .tup [iv 2, iv 99])
    (ok := fun x => x.1 == some 0) (by decide +kernel)
  obtain ⟨f, hf⟩ := h none0 (.agg .tup [ti, ti]) [pair (.lor (ip 1) (ip 2)) (ip 3), .gap] (by
      intro p hp
      simp only [List.mem_cons, List.not_mem_nil, or_false] at hp
      rcases hp with rfl | rfl
      · exact pair_ty ⟨ip_ty (by decide), ip_ty (by decide)⟩ (ip_ty (by decide))
      · exact gap_ty) 20 c h1 (.agg .tup [iv 2, iv 99]) (pair_val (iv_ty (by decide)) (iv_ty (by decide))) 1 [] (by rfl)
  rw [runmatch_det h2 hf] at h3
  simp at h3

/-- Constants: `const C = ((1, 2), 3)` as a pattern, then `((_, 2), 6)`: the paths of two different parts clash, and `((1, 2), 6)`
goes to the last arm. -/
theorem first_match_const_violated : ¬ FullClaim34 := by
  intro h
  obtain ⟨c, x, h1, h2, h3⟩ := reaches_spec (f := 20) (pats := [.cst (pair (pair (ip 1) (ip 2)) (ip 3)), pair (pair .gap (ip 2)) (ip 6), .gap])
    (v := .agg .tup [.agg .tup [iv 1, iv 2], iv 6]) (ok := fun x => x.1 == some 2) (by decide +kernel)
  obtain ⟨f, hf⟩ := h none0 (.agg .tup [.agg .tup [ti, ti], ti]) [.cst (pair (pair (ip 1) (ip 2)) (ip 3)), pair (pair .gap (ip 2)) (ip 6), .gap] (by
      intro p hp
      simp only [List.mem_cons, List.not_mem_nil, or_false] at hp
      rcases hp with rfl | rfl | rfl
      · exact ⟨pair_ty (pair_ty (ip_ty (by decide)) (ip_ty (by decide))) (ip_ty (by decide)), by intro a e; cases e⟩
      · exact pair_ty (pair_ty gap_ty (ip_ty (by decide))) (ip_ty (by decide))
      · exact gap_ty) 20 c h1 _ (pair_val (pair_val (iv_ty (n := 1) (by decide)) (iv_ty (n := 2) (by decide))) (iv_ty (n := 6) (by decide))) 1 [] (by rfl)
  rw [runmatch_det h2 hf] at h3
  simp at h3

/-- Two constructors, each with an integer. -/
def either : Ty := .union [some ti, some ti]

/-- `` `A 1``, then `` `A x || `B x``: `` `A 5`` runs the second arm, but `x` is not assigned. -/
theorem first_match_capture_violated : ¬ FullClaim34 := by
  intro h
  obtain ⟨c, x, h1, h2, h3⟩ := reaches_spec (f := 20) (pats := [.ucon 2 0 (ip 1), .lor (.ucon 2 0 (.var 7)) (.ucon 2 1 (.var 7))]) (v := .union 0 (iv 5))
    (ok := fun x => x.1 == some 1 && x.2 == 0) (by decide +kernel)
  obtain ⟨f, hf⟩ := h none0 either [.ucon 2 0 (ip 1), .lor (.ucon 2 0 (.var 7)) (.ucon 2 1 (.var 7))] (by
      intro p hp
      simp only [List.mem_cons, List.not_mem_nil, or_false] at hp
      rcases hp with rfl | rfl
      · exact ⟨_, _, rfl, rfl, rfl, ip_ty (by decide)⟩
      · exact ⟨⟨_, _, rfl, rfl, rfl, var_ty⟩, ⟨_, _, rfl, rfl, rfl, var_ty⟩⟩) 20 c h1 (.union 0 (iv 5)) (.union rfl rfl (iv_ty (by decide))) 1 [(7, iv 5)] (by rfl)
  rw [runmatch_det h2 hf] at h3
  simp at h3

/-- For patterns in which nothing but gaps follows alternatives inside of a tuple, array or struct, and whose constants are
strings or unions: the arm is right, and so are the variables if the arm has no alternatives; if it has some, either all
variables are right or none is assigned. Missing: other patterns with alternatives or constants, and the variables of arms with
alternatives (all violated). -/
theorem first_match_partial {Γ : Defs} {t : Ty} {pats : List Pat} (ht : ∀ p ∈ pats, p.HasTy Γ t) (hm : ∀ p ∈ pats, p.tame = true) {fuel : Nat} {c : List Ins}
    (h : genmatch fuel pats = .ok (.ok c)) {v : Val} (hv : HasVal Γ v t) {i : Nat} {b : List (Nat × Val)} (hf : first 0 pats v = some (i, b)) :
    ∃ f b', runmatch f pats c v = .ok (some i, b') ∧ ((∀ p, pats[i]? = some p → p.orfree = true) → b' = b) ∧ (b' = b ∨ b' = []) :=
  runs_first ht hm h hv hf

/-- `(true, _)`, `(_, true)`, `(x, y)` on `(false, false)`. -/
example : (∀ p ∈ [pair (bp 1) .gap, pair .gap (bp 1), pair (.var 3) (.var 4)], p.HasTy none0 (.agg .tup [tb, tb])) ∧
    (∀ p ∈ [pair (bp 1) .gap, pair .gap (bp 1), pair (.var 3) (.var 4)], p.tame = true) ∧
    (∃ c, genmatch 20 [pair (bp 1) .gap, pair .gap (bp 1), pair (.var 3) (.var 4)] = .ok (.ok c)) ∧
    HasVal none0 (.agg .tup [bv 0, bv 0]) (.agg .tup [tb, tb]) ∧
    first 0 [pair (bp 1) .gap, pair .gap (bp 1), pair (.var 3) (.var 4)] (.agg .tup [bv 0, bv 0]) = some (2, [(3, bv 0), (4, bv 0)]) := by
  refine ⟨?_, by decide, ?_, pair_val (bv_ty (by decide)) (bv_ty (by decide)), by rfl⟩
  · intro p hp
    simp only [List.mem_cons, List.not_mem_nil, or_false] at hp
    rcases hp with rfl | rfl | rfl
    · exact pair_ty (bp_ty (by decide)) gap_ty
    · exact pair_ty gap_ty (bp_ty (by decide))
    · exact pair_ty var_ty var_ty
  · obtain ⟨c, _, h, _⟩ := reaches_spec (f := 20) (pats := [pair (bp 1) .gap, pair .gap (bp 1), pair (.var 3) (.var 4)]) (v := .agg .tup [bv 0, bv 0])
      (ok := fun x => x.1 == some 2) (by decide +kernel)
    exact ⟨c, h⟩

/-! ## C35: no case is missing -/

/-- If a match statement is accepted, each value is matched by some pattern. -/
def FullClaim35 : Prop := ∀ (Γ : Defs) (t : Ty) (pats : List Pat), (∀ p ∈ pats, p.HasTy Γ t) → ∀ fuel c, genmatch fuel pats = .ok (.ok c) →
  ∀ v, HasVal Γ v t → (first 0 pats v).isSome

/-- `(true, _)`, `(_, true)` is accepted: what is behind a default edge is not verified. `(false, false)` runs the first arm. -/
theorem exhaustive_violated : ¬ FullClaim35 := by
  intro h
  obtain ⟨c, x, h1, h2, h3⟩ := reaches_spec (f := 20) (pats := [pair (bp 1) .gap, pair .gap (bp 1)]) (v := .agg .tup [bv 0, bv 0])
    (ok := fun x => x.1 == some 0) (by decide +kernel)
  have := h none0 (.agg .tup [tb, tb]) [pair (bp 1) .gap, pair .gap (bp 1)] (by
      intro p hp
      simp only [List.mem_cons, List.not_mem_nil, or_false] at hp
      rcases hp with rfl | rfl
      · exact pair_ty (bp_ty (by decide)) gap_ty
      · exact pair_ty gap_ty (bp_ty (by decide))) 20 c h1 (.agg .tup [bv 0, bv 0]) (pair_val (bv_ty (by decide)) (bv_ty (by decide)))
  revert this
  decide +kernel

/-- For patterns which look at one thing after another - literals, constructors of unions, pointers, alternatives, variables -
with fewer than 0x10ffff alternatives altogether: no case is missing. (A match over `char` with 0x10ffff cases would be accepted,
because that is taken for the number of characters.) Missing: tuples, arrays, structs, strings and constants (violated). -/
theorem exhaustive_partial {Γ : Defs} {t : Ty} {pats : List Pat} (ht : ∀ p ∈ pats, p.HasTy Γ t) (hm : ∀ p ∈ pats, p.linear = true)
    (hn : (pats.map Pat.alts).sum < 0x10ffff) {fuel : Nat} {c : List Ins} (h : genmatch fuel pats = .ok (.ok c)) {v : Val} (hv : HasVal Γ v t) :
    (first 0 pats v).isSome := by
  obtain ⟨root, tb, g, h1, h2, _, _, _⟩ := genmatch_parts h
  have htame : ∀ p ∈ pats, p.tame = true := fun p hp => linear_tame p (hm p hp)
  obtain ⟨_, _, _, w4⟩ := compile_walk ht htame h1
  have hL := lined_rows ht hm
  obtain ⟨_, _, _, k4⟩ := compile_exh hL fuel _ _ [] _ _ h1 (left_start hL.nodup) (by rw [alts_all pats hm]; exact hn) (finok_finals pats) (by
    intro i l es any nc hi
    obtain ⟨r, _, e⟩ := List.mem_map.1 (List.mem_of_getElem? hi)
    cases e)
  have := k4 tb.nodes (List.prefix_refl _) v hv (by intro x hx; cases hx) _ h2 _ (w4 v hv)
  cases e : first 0 pats v with
  | some x => rfl
  | none => exact absurd ((first_row ht htame hv).2 e) this

/-- So each value runs the arm which is meant. -/
theorem linear_match_partial {Γ : Defs} {t : Ty} {pats : List Pat} (ht : ∀ p ∈ pats, p.HasTy Γ t) (hm : ∀ p ∈ pats, p.linear = true)
    (hn : (pats.map Pat.alts).sum < 0x10ffff) {fuel : Nat} {c : List Ins} (h : genmatch fuel pats = .ok (.ok c)) {v : Val} (hv : HasVal Γ v t) :
    ∃ i b f b', first 0 pats v = some (i, b) ∧ runmatch f pats c v = .ok (some i, b') := by
  obtain ⟨⟨i, b⟩, e⟩ := Option.isSome_iff_exists.1 (exhaustive_partial ht hm hn h hv)
  obtain ⟨f, b', h1, _⟩ := first_match_partial ht (fun p hp => linear_tame p (hm p hp)) h hv e
  exact ⟨i, b, f, b', e, h1⟩

/-- `` `Some 1``, `` `Some x``, `` `None``. -/
example : (∀ p ∈ [Pat.ucon 2 0 (ip 1), .ucon 2 0 (.var 1), .ucon0 2 1], p.HasTy none0 (.union [some ti, none])) ∧
    (∀ p ∈ [Pat.ucon 2 0 (ip 1), .ucon 2 0 (.var 1), .ucon0 2 1], p.linear = true) ∧
    ([Pat.ucon 2 0 (ip 1), .ucon 2 0 (.var 1), .ucon0 2 1].map Pat.alts).sum < 0x10ffff ∧
    (∃ c, genmatch 20 [Pat.ucon 2 0 (ip 1), .ucon 2 0 (.var 1), .ucon0 2 1] = .ok (.ok c)) ∧ HasVal none0 (.union 0 (iv 9)) (.union [some ti, none]) := by
  refine ⟨?_, by decide, by decide, ?_, .union rfl rfl (iv_ty (by decide))⟩
  · intro p hp
    simp only [List.mem_cons, List.not_mem_nil, or_false] at hp
    rcases hp with rfl | rfl | rfl
    · exact ⟨_, _, rfl, rfl, rfl, ip_ty (by decide)⟩
    · exact ⟨_, _, rfl, rfl, rfl, var_ty⟩
    · exact ⟨_, rfl, rfl, rfl⟩
  · obtain ⟨c, _, h, _⟩ := reaches_spec (f := 20) (pats := [Pat.ucon 2 0 (ip 1), .ucon 2 0 (.var 1), .ucon0 2 1]) (v := .union 0 (iv 9))
      (ok := fun x => x.1 == some 1) (by decide +kernel)
    exact ⟨c, h⟩

/-- Without `` `None`` it is rejected. -/
example : genmatch 20 [Pat.ucon 2 0 (ip 1), .ucon 2 0 (.var 1)] = .ok (.error .nonexhaustive) := by decide +kernel

/-- If some arm matches everything, no case is missing (whatever the other patterns are). -/
theorem wild_exhaustive {pats : List Pat} {p : Pat} (hp : p ∈ pats) (hw : p.wild = true) (v : Val) : (first 0 pats v).isSome := by
  have : ∀ (pats : List Pat) (i : Nat), p ∈ pats → (first i pats v).isSome := by
    intro pats
    induction pats with
    | nil => intro _ h; cases h
    | cons q qs ih =>
      intro i h
      simp only [first]
      cases e : q.bind v with
      | some b => rfl
      | none =>
        rcases List.mem_cons.1 h with rfl | h
        · cases p with
          | gap => simp [Pat.bind] at e
          | var d => simp [Pat.bind] at e
          | _ => cases hw
        · exact ih _ h
  exact this pats 0 hp

/-! ## C78: compiling match statements -/

/-- Compiling the patterns of a match statement ends without a crash, with code or with an error message; a pattern reported as
already matched never is the first which matches. -/
def FullClaim78 : Prop := ∀ (Γ : Defs) (t : Ty) (pats : List Pat), (∀ p ∈ pats, p.HasTy Γ t) → pats ≠ [] →
  (∃ n, ∀ fuel, n ≤ fuel → ∃ r, genmatch fuel pats = .ok r) ∧
  ∀ fuel k, genmatch fuel pats = .ok (.error (.redundant k)) → (∀ p ∈ pats, p.orfree = true) → ∀ v, HasVal Γ v t → ∀ b, first 0 pats v ≠ some (k, b)

/-- Is it a crash with a null pointer, for sixteen and more rounds? -/
def isub (r : Res (Except Err (List Ins))) : Bool := match r with | .ub => true | _ => false
/-- Is it a failed assertion? -/
def isabort (r : Res (Except Err (List Ins))) : Bool := match r with | .abort => true | _ => false

theorem compile_fuel_mono (f : Nat) : ∀ (rows : List Row) (t : Tbl) (r : Res (Nat × Tbl)), compile f rows t = r → r ≠ .spin → ∀ g, f ≤ g → compile g rows t = r := by
  induction f with
  | zero => intro rows t r h hr; simp only [compile] at h; exact absurd h.symm hr
  | succ f ih =>
    intro rows t r h hr g hg
    obtain ⟨g, rfl⟩ : ∃ k, g = k + 1 := ⟨g - 1, by omega⟩
    have hg : f ≤ g := by omega
    cases rows with
    | nil => simp only [compile] at h ⊢; exact h
    | cons fs rs =>
      simp only [compile] at h ⊢
      cases hp : pick fs with
      | none => rw [hp] at h; exact h
      | some s =>
        rw [hp] at h
        simp only at h ⊢
        have hedges : ∀ (cs : List Atom) (t : Tbl) (r : Res (List (Atom × Nat) × Tbl)), edges (compile f) s.path (fs :: rs) cs t = r → r ≠ .spin →
            edges (compile g) s.path (fs :: rs) cs t = r := by
          intro cs
          induction cs with
          | nil => intro t r h _; exact h
          | cons c cs ihc =>
            intro t r h hr
            simp only [edges] at h ⊢
            cases k1 : projrows c s.path (fs :: rs) with
            | ok row =>
              rw [k1] at h
              simp only [Res.bind_ok] at h ⊢
              split
              · rename_i he
                rw [if_pos he] at h
                exact ihc t r h hr
              · rename_i he
                rw [if_neg he] at h
                cases k2 : compile f row t with
                | ok x =>
                  rw [k2] at h
                  rw [ih _ _ _ k2 (by simp) g hg]
                  simp only [Res.bind_ok] at h ⊢
                  cases k3 : edges (compile f) s.path (fs :: rs) cs x.2 with
                  | ok y => rw [k3] at h; rw [ihc _ _ k3 (by simp)]; exact h
                  | abort => rw [k3] at h; rw [ihc _ _ k3 (by simp)]; exact h
                  | ub => rw [k3] at h; rw [ihc _ _ k3 (by simp)]; exact h
                  | spin => rw [k3] at h; exact absurd h.symm hr
                | abort => rw [k2] at h; rw [ih _ _ _ k2 (by simp) g hg]; exact h
                | ub => rw [k2] at h; rw [ih _ _ _ k2 (by simp) g hg]; exact h
                | spin => rw [k2] at h; exact absurd h.symm hr
            | abort => rw [k1] at h; exact h
            | ub => rw [k1] at h; exact h
            | spin => rw [k1] at h; exact h
        cases k1 : edges (compile f) s.path (fs :: rs) (consat s.path (fs :: rs)) t with
        | ok e =>
          rw [k1] at h
          rw [hedges _ _ _ k1 (by simp)]
          simp only [Res.bind_ok, dflt] at h ⊢
          by_cases he : ((fs :: rs).filter (isdflt s.path)).isEmpty = true
          · rw [if_pos he] at h ⊢
            exact h
          · rw [if_neg he] at h ⊢
            cases k2 : compile f ((fs :: rs).filter (isdflt s.path)) e.2 with
            | ok x => rw [k2] at h; rw [ih _ _ _ k2 (by simp) g hg]; exact h
            | abort => rw [k2] at h; rw [ih _ _ _ k2 (by simp) g hg]; exact h
            | ub => rw [k2] at h; rw [ih _ _ _ k2 (by simp) g hg]; exact h
            | spin => rw [k2] at h; exact absurd h.symm hr
        | abort => rw [k1] at h; rw [hedges _ _ _ k1 (by simp)]; exact h
        | ub => rw [k1] at h; rw [hedges _ _ _ k1 (by simp)]; exact h
        | spin => rw [k1] at h; exact absurd h.symm hr

/-- The outcome of `genmatch` depends on the fuel through `compile` only. -/
theorem genmatch_fuel {f g : Nat} {pats : List Pat} (h : compile f (rowsall pats) ⟨finals (rowsall pats), []⟩ = compile g (rowsall pats) ⟨finals (rowsall pats), []⟩) :
    genmatch f pats = genmatch g pats := by
  unfold rowsall at h
  simp only [genmatch, gendtree, h]

theorem genmatch_mono {f g : Nat} {pats : List Pat} (h : genmatch f pats ≠ .spin) (hg : f ≤ g) : genmatch g pats = genmatch f pats := by
  by_cases hc : compile f (rowsall pats) ⟨finals (rowsall pats), []⟩ = .spin
  · by_cases h1 : capsok (rowsall pats) = true
    · by_cases h2 : (rowsall pats).any dupcap = true
      · unfold rowsall at h1 h2
        simp only [genmatch, gendtree, h1, h2, Bool.not_true, Bool.false_eq_true, if_false, if_true]
      · exfalso
        apply h
        unfold rowsall at h1 h2 hc
        simp only [genmatch, gendtree, h1, h2, hc, Bool.not_true, Bool.false_eq_true, if_false, Res.bind_spin]
    · have h1 : capsok (number 0 (genrows 0 pats)) = false := by simpa [rowsall] using h1
      simp only [genmatch, gendtree, h1, Bool.not_false, if_true]
  · exact genmatch_fuel (compile_fuel_mono f _ _ _ rfl hc g hg)

/-- `(true, false, _)`, `(_, true, true)`, `(_, true, false)`, `(false, _, _)`: looking for a node to use again, the compiler follows
a null pointer. -/
theorem compile_crash_violated : ¬ FullClaim78 := by
  intro h
  obtain ⟨n, hn⟩ := (h none0 (.agg .tup [tb, tb, tb]) [triple (bp 1) (bp 0) .gap, triple .gap (bp 1) (bp 1), triple .gap (bp 1) (bp 0), triple (bp 0) .gap .gap] (by
      intro p hp
      simp only [List.mem_cons, List.not_mem_nil, or_false] at hp
      rcases hp with rfl | rfl | rfl | rfl
      · exact triple_ty (bp_ty (by decide)) (bp_ty (by decide)) gap_ty
      · exact triple_ty gap_ty (bp_ty (by decide)) (bp_ty (by decide))
      · exact triple_ty gap_ty (bp_ty (by decide)) (bp_ty (by decide))
      · exact triple_ty (bp_ty (by decide)) gap_ty gap_ty) (by simp)).1
  have hub : isub (genmatch 20 [triple (bp 1) (bp 0) .gap, triple .gap (bp 1) (bp 1), triple .gap (bp 1) (bp 0), triple (bp 0) .gap .gap]) = true := by decide +kernel
  obtain ⟨r, hr⟩ := hn (max n 20) (by omega)
  rw [genmatch_mono (f := 20) (by intro k; rw [k] at hub; cases hub) (by omega)] at hr
  rw [hr] at hub
  cases hub

/-- Constants of union type, `const C = `B`: `` (`A, 1)``, `(C, 2)`, `` (`A, _)``, `_` fails an assertion. -/
theorem compile_const_violated : ¬ FullClaim78 := by
  intro h
  obtain ⟨n, hn⟩ := (h none0 (.agg .tup [.union [none, none], ti]) [pair (.ucon0 2 0) (ip 1), pair (.cst (.ucon0 2 1)) (ip 2), pair (.ucon0 2 0) .gap, .gap] (by
      intro p hp
      simp only [List.mem_cons, List.not_mem_nil, or_false] at hp
      rcases hp with rfl | rfl | rfl | rfl
      · exact pair_ty ⟨_, rfl, rfl, rfl⟩ (ip_ty (by decide))
      · exact pair_ty ⟨⟨_, rfl, rfl, rfl⟩, by intro a e; cases e⟩ (ip_ty (by decide))
      · exact pair_ty ⟨_, rfl, rfl, rfl⟩ gap_ty
      · exact gap_ty) (by simp)).1
  have hub : isabort (genmatch 20 [pair (.ucon0 2 0) (ip 1), pair (.cst (.ucon0 2 1)) (ip 2), pair (.ucon0 2 0) .gap, .gap]) = true := by decide +kernel
  obtain ⟨r, hr⟩ := hn (max n 20) (by omega)
  rw [genmatch_mono (f := 20) (by intro k; rw [k] at hub; cases hub) (by omega)] at hr
  rw [hr] at hub
  cases hub

/-- Alternatives: `(2, 9)`, `(1 || 2, _)`, `_` fails an assertion. -/
theorem compile_or_violated : ¬ FullClaim78 := by
  intro h
  obtain ⟨n, hn⟩ := (h none0 (.agg .tup [ti, ti]) [pair (ip 2) (ip 9), pair (.lor (ip 1) (ip 2)) .gap, .gap] (by
      intro p hp
      simp only [List.mem_cons, List.not_mem_nil, or_false] at hp
      rcases hp with rfl | rfl | rfl
      · exact pair_ty (ip_ty (by decide)) (ip_ty (by decide))
      · exact pair_ty ⟨ip_ty (by decide), ip_ty (by decide)⟩ gap_ty
      · exact gap_ty) (by simp)).1
  have hub : isabort (genmatch 20 [pair (ip 2) (ip 9), pair (.lor (ip 1) (ip 2)) .gap, .gap]) = true := by decide +kernel
  obtain ⟨r, hr⟩ := hn (max n 20) (by omega)
  rw [genmatch_mono (f := 20) (by intro k; rw [k] at hub; cases hub) (by omega)] at hr
  rw [hr] at hub
  cases hub

/-- The nodes made, whatever the rows are. -/
theorem compile_down {R : List Row} (f : Nat) : ∀ rows t i t', compile f rows t = .ok (i, t') → TOk t → FinOk R t → (∀ c ∈ rows, ∃ o ∈ R, c.final = o.final) →
    TOk t' ∧ Ext t t' ∧ Target t' i := by
  induction f with
  | zero => intro rows t i t' h; simp [compile] at h
  | succ f ih =>
    intro rows t i t' h ht hf hfin
    unfold compile at h
    cases rows with
    | nil => cases h
    | cons fs rs =>
      simp only at h
      cases hp : pick fs with
      | none =>
        rw [hp] at h
        simp only [Res.ok.injEq, Prod.mk.injEq] at h
        obtain ⟨rfl, rfl⟩ := h
        have hx : Ext t { t with hits := fs.final :: t.hits } := ⟨List.prefix_refl _, fun k hk => List.mem_cons_of_mem _ hk⟩
        obtain ⟨o, ho, e⟩ := hfin fs (by simp)
        obtain ⟨a, c, hn⟩ := hf o ho
        rw [← e] at hn
        refine ⟨?_, hx, ⟨_, hn, fun _ _ _ => by simp⟩⟩
        intro i l es any nc hi
        obtain ⟨q1, q2⟩ := ht i l es any nc hi
        exact ⟨fun e h => ⟨(q1 e h).1, (q1 e h).2.mono hx⟩, fun j h => ⟨(q2 j h).1, (q2 j h).2.mono hx⟩⟩
      | some s =>
        rw [hp] at h
        simp only at h
        obtain ⟨⟨es, t1⟩, h1, h2⟩ := Res.bind_eq_ok.1 h
        obtain ⟨⟨any, t2⟩, h3, h4⟩ := Res.bind_eq_ok.1 h2
        have hedges : ∀ (cs : List Atom) (t : Tbl) (es : List (Atom × Nat)) (t' : Tbl), edges (compile f) s.path (fs :: rs) cs t = .ok (es, t') → TOk t → FinOk R t →
            TOk t' ∧ Ext t t' ∧ ∀ e ∈ es, Target t' e.2 := by
          intro cs
          induction cs with
          | nil =>
            intro t es t' h ht _
            simp only [edges, Res.ok.injEq, Prod.mk.injEq] at h
            obtain ⟨rfl, rfl⟩ := h
            exact ⟨ht, Ext.refl _, by simp⟩
          | cons c cs ihc =>
            intro t es t' h ht hf
            simp only [edges] at h
            obtain ⟨row, h1, h2⟩ := Res.bind_eq_ok.1 h
            have hrow := projrows_ok h1
            split at h2
            · exact ihc t es t' h2 ht hf
            · obtain ⟨⟨x1, x2⟩, h3, h4⟩ := Res.bind_eq_ok.1 h2
              obtain ⟨⟨y1, y2⟩, h5, h6⟩ := Res.bind_eq_ok.1 h4
              simp only [Res.ok.injEq, Prod.mk.injEq] at h6
              obtain ⟨rfl, rfl⟩ := h6
              obtain ⟨q1, q2, q3⟩ := ih row t x1 x2 h3 ht hf (by
                intro r hr
                rw [hrow] at hr
                obtain ⟨r0, hr0, e⟩ := List.mem_filterMap.1 hr
                obtain ⟨o, ho, e'⟩ := hfin r0 hr0
                exact ⟨o, ho, by rw [project_final e, e']⟩)
              obtain ⟨k1, k2, k3⟩ := ihc x2 y1 y2 h5 q1 (hf.mono q2)
              refine ⟨k1, q2.trans k2, ?_⟩
              intro e he
              rcases List.mem_cons.1 he with rfl | he
              · exact q3.mono k2
              · exact k3 e he
        obtain ⟨a1, a2, a3⟩ := hedges _ t es t1 h1 ht hf
        have hd : TOk t2 ∧ Ext t1 t2 ∧ ∀ j, any = some j → Target t2 j := by
          simp only [dflt] at h3
          split at h3
          · simp only [Res.ok.injEq, Prod.mk.injEq] at h3
            obtain ⟨rfl, rfl⟩ := h3
            exact ⟨a1, Ext.refl _, by simp⟩
          · obtain ⟨⟨x1, x2⟩, h5, h6⟩ := Res.bind_eq_ok.1 h3
            simp only [Res.ok.injEq, Prod.mk.injEq] at h6
            obtain ⟨rfl, rfl⟩ := h6
            obtain ⟨q1, q2, q3⟩ := ih _ t1 x1 x2 h5 a1 (hf.mono a2) (fun c hc => hfin c (List.mem_filter.1 hc).1)
            exact ⟨q1, q2, fun j hj => by cases hj; exact q3⟩
        obtain ⟨b1, b2, b3⟩ := hd
        obtain ⟨c1, c2, nc, c3⟩ := mknode_ok h4 b1 (fun e he => (a3 e he).mono b2) b3
        exact ⟨c1, (a2.trans b2).trans c2, ⟨_, c3, fun a c k => by cases k⟩⟩

/-- Compiling ends, whatever the patterns are. -/
theorem compile_ends (pats : List Pat) : ∃ n, ∀ fuel, n ≤ fuel → genmatch fuel pats ≠ .spin := by
  refine ⟨weight (rowsall pats) + 1, fun fuel hf => ?_⟩
  have hc := compile_nospin fuel (rowsall pats) ⟨finals (rowsall pats), []⟩ (nodups_rowsall pats) (by omega)
  have key : ∀ root tb, compile fuel (rowsall pats) ⟨finals (rowsall pats), []⟩ = .ok (root, tb) → TOk tb ∧ Ext ⟨finals (rowsall pats), []⟩ tb ∧ Target tb root :=
    fun root tb h => compile_down fuel _ _ _ _ h (tok_finals _) (finok_finals _) (fun c hc => ⟨c, hc, rfl⟩)
  simp only [genmatch, gendtree]
  unfold rowsall at hc key
  split
  · simp
  · split
    · simp
    · cases e : compile fuel (number 0 (genrows 0 pats)) ⟨finals (number 0 (genrows 0 pats)), []⟩ with
      | ok x =>
        obtain ⟨root, tb⟩ := x
        obtain ⟨k1, _, n, k2, _⟩ := key root tb e
        have hlt := (List.getElem?_eq_some_iff.1 k2).1
        obtain ⟨b, hb⟩ := verify_total k1.down (root + 1) root (by omega) hlt
        obtain ⟨g, hg⟩ := gencode_total k1.down (root + 1) root ⟨[], 0, []⟩ (by omega) hlt
        simp only [Res.bind_ok]
        split
        · simp
        · rw [hb]
          cases b with
          | false => simp
          | true => simp [hg]
      | abort => simp
      | ub => simp
      | spin => exact absurd e hc

/-- Patterns without alternatives and without constants other than literals, each variable once, one arm which matches everything:
there is no crash; the only error there can be is that a pattern is already matched. Missing: other patterns (violated), and
statements without such an arm (violated). -/
theorem compile_no_crash_partial {Γ : Defs} {t : Ty} {pats : List Pat} (ht : ∀ p ∈ pats, p.HasTy Γ t) (hm : ∀ p ∈ pats, p.plain = true)
    (hv : ∀ p ∈ pats, p.vars.Nodup) {w : Pat} (hw : w ∈ pats) (hw' : w.wild = true) :
    ∃ n, ∀ fuel, n ≤ fuel → (∃ c, genmatch fuel pats = .ok (.ok c)) ∨ ∃ k, genmatch fuel pats = .ok (.error (.redundant k)) := by
  refine ⟨weight (rowsall pats) + 1, fun fuel hf => ?_⟩
  have htame : ∀ p ∈ pats, p.tame = true := fun p hp => plain_tame p (hm p hp)
  obtain ⟨root, tb, h1, h2⟩ := compile_total (good_rows ht htame) (neat_rows ht hm) fuel (rowsall pats) ⟨finals (rowsall pats), []⟩ [] (inv_start _)
    (by intro e he; cases he) (open_wild hw hw') (anyok_finals _) (by omega)
  obtain ⟨k1, k2, _, _⟩ := compile_walk ht htame h1
  obtain ⟨n, k2, _⟩ := k2
  have hlt := (List.getElem?_eq_some_iff.1 k2).1
  obtain ⟨b, hb⟩ := verify_total k1.down (root + 1) root (by omega) hlt
  have hbt := verify_any h2 _ _ _ hb
  subst hbt
  obtain ⟨g, hg⟩ := gencode_total k1.down (root + 1) root ⟨[], 0, []⟩ (by omega) hlt
  have c1 := capsok_plain pats hm
  have c2 := dupcap_plain pats hm hv
  unfold rowsall at h1 c1 c2
  simp only [genmatch, gendtree, c1, c2, h1, Bool.not_true, Bool.false_eq_true, if_false, Res.bind_ok]
  split
  · rename_i r _
    right
    refine ⟨r.final, ?_⟩
    simp only [Res.bind_ok]
  · left
    refine ⟨g.out ++ genarms 0 pats.length, ?_⟩
    simp only [hb, Res.bind_ok, if_true, hg]

theorem genmatch_redundant {fuel k : Nat} {pats : List Pat} (h : genmatch fuel pats = .ok (.error (.redundant k))) :
    ∃ root tb, compile fuel (rowsall pats) ⟨finals (rowsall pats), []⟩ = .ok (root, tb) ∧ k ∉ tb.hits := by
  simp only [genmatch] at h
  obtain ⟨x, h1, h2⟩ := Res.bind_eq_ok.1 h
  cases x with
  | ok x =>
    obtain ⟨g, _, h4⟩ := Res.bind_eq_ok.1 h2
    simp at h4
  | error e =>
    simp only [Res.ok.injEq, Except.error.injEq] at h2
    subst h2
    unfold gendtree at h1
    simp only at h1
    split at h1
    · simp at h1
    · split at h1
      · cases h1
      · obtain ⟨⟨r, tb⟩, h5, h6⟩ := Res.bind_eq_ok.1 h1
        simp only at h6
        split at h6
        · rename_i q hq
          simp only [Res.ok.injEq, Except.error.injEq, Err.redundant.injEq] at h6
          refine ⟨r, tb, h5, ?_⟩
          have := List.find?_some hq
          rw [h6] at this
          simpa using this
        · obtain ⟨b, h7, h8⟩ := Res.bind_eq_ok.1 h6
          cases b <;> simp at h8

theorem genrows_orfree (pats : List Pat) : ∀ i, (∀ p ∈ pats, p.orfree = true) → ∀ j r, (genrows i pats)[j]? = some r → r.arm = i + j := by
  induction pats with
  | nil => intro i _ j r h; simp [genrows] at h
  | cons p ps ih =>
    intro i ho j r h
    have h1 := orfree_one p .root [0] (ho p (by simp))
    simp only [genrows, genfrontier_eq, rowsof, h1.1, List.map_cons, List.map_nil, List.singleton_append] at h
    cases j with
    | zero =>
      simp only [List.getElem?_cons_zero, Option.some.injEq] at h
      rw [← h]
      rfl
    | succ j =>
      rw [List.getElem?_cons_succ] at h
      have := ih (i + 1) (fun q hq => ho q (by simp [hq])) j r h
      omega

/-- What is reported as already matched is never the first pattern which matches: for patterns without alternatives whose constants
are strings or unions. -/
theorem redundant_sound_partial {Γ : Defs} {t : Ty} {pats : List Pat} (ht : ∀ p ∈ pats, p.HasTy Γ t) (hm : ∀ p ∈ pats, p.tame = true)
    (ho : ∀ p ∈ pats, p.orfree = true) {fuel k : Nat} (h : genmatch fuel pats = .ok (.error (.redundant k))) {v : Val} (hv : HasVal Γ v t) (b : List (Nat × Val)) :
    first 0 pats v ≠ some (k, b) := by
  intro hf
  obtain ⟨r, hr, hres, harm, _⟩ := (first_row ht hm hv).1 k b hf
  obtain ⟨root, tb, h1, hqk⟩ := genmatch_redundant h
  obtain ⟨w1, w2, _, w4⟩ := compile_walk ht hm h1
  have hfin : r.final = k := by
    obtain ⟨i, hi⟩ := List.mem_iff_getElem?.1 hr
    rw [rowsall, number_get] at hi
    cases e : (genrows 0 pats)[i]? with
    | none => rw [e] at hi; cases hi
    | some r0 =>
      rw [e] at hi
      simp only [Option.map_some, Option.some.injEq, Nat.zero_add] at hi
      have := genrows_orfree pats 0 ho i r0 e
      rw [← hi] at harm ⊢
      simp only at harm ⊢
      omega
  have hwalk := w4 v hv
  rw [hres] at hwalk
  have := hwalk.hit w1 w2 rfl
  rw [hfin] at this
  exact hqk this

/-- Each hypothesis of the last two theorems. -/
example : (∀ p ∈ [pair (bp 1) .gap, pair .gap (ip 1), .var 3], p.HasTy none0 (.agg .tup [tb, ti])) ∧
    (∀ p ∈ [pair (bp 1) .gap, pair .gap (ip 1), .var 3], p.plain = true) ∧
    (∀ p ∈ [pair (bp 1) .gap, pair .gap (ip 1), .var 3], p.vars.Nodup) ∧ (Pat.var 3).wild = true := by
  refine ⟨?_, by decide, by decide, rfl⟩
  intro p hp
  simp only [List.mem_cons, List.not_mem_nil, or_false] at hp
  rcases hp with rfl | rfl | rfl
  · exact pair_ty (bp_ty (by decide)) gap_ty
  · exact pair_ty gap_ty (ip_ty (by decide))
  · exact var_ty

/-- A pattern which is already matched is found. -/
example : genmatch 20 [pair (bp 1) .gap, pair (bp 1) (ip 4), .gap] = .ok (.error (.redundant 1)) := by decide +kernel

end Verif.Match
