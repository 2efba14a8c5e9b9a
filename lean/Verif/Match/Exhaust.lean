import Verif.Match.Total
import Mathlib.Data.List.Nodup
import Mathlib.Data.List.Perm.Subperm

/-!
# Lemmas: the check for missing cases
-/

namespace Verif.Match

open Verif

/-! ## Chains of tests -/

/-- What a slot tests. -/
def Slot.test (s : Slot) : List Nat × Load × Option Atom := (s.path, s.load, s.pat)

/-- The tests which look at one thing after another. -/
inductive Chain (Γ : Defs) : Ty → Load → List Nat → List Slot → Slot → Prop
  | atom {t l π a} : t.base Γ = .atom a.ty → a.InRange → Chain Γ t l π [] (atslot π a l)
  | tag {t l π cs i} : t.base Γ = .union cs → i < cs.length → Chain Γ t l π [] (tagslot cs.length i l π)
  | data {t l π cs i u g s} : t.base Γ = .union cs → cs[i]? = some (some u) → Chain Γ u (.udata l) (π ++ [1]) g s →
      Chain Γ t l π (tagslot cs.length i l π :: g) s
  | addr {t l π u g s} : t.base Γ = .ptr u → Chain Γ u (.deref l) (π ++ [0]) g s → Chain Γ t l π g s

theorem chain_same {Γ : Defs} {t : Ty} {l : Load} {π : List Nat} {g : List Slot} {s : Slot} (h : Chain Γ t l π g s) : ∀ {g' : List Slot} {s' : Slot},
    Chain Γ t l π g' s' → g.map Slot.test = g'.map Slot.test →
    s.path = s'.path ∧ s.load = s'.load ∧ s.ncons = s'.ncons ∧ s.pat.map Atom.ty = s'.pat.map Atom.ty := by
  induction h with
  | atom h1 h2 =>
    intro g' s' h' e
    cases h' with
    | atom k1 k2 =>
      rw [h1] at k1
      simp only [Ty.atom.injEq] at k1
      simp [atslot, k1]
    | tag k1 => rw [h1] at k1; cases k1
    | data k1 => rw [h1] at k1; cases k1
    | addr k1 => rw [h1] at k1; cases k1
  | tag h1 h2 =>
    intro g' s' h' e
    cases h' with
    | atom k1 => rw [h1] at k1; cases k1
    | tag k1 k2 =>
      rw [h1] at k1; cases k1
      simp [tagslot]
    | data k1 => simp at e
    | addr k1 => rw [h1] at k1; cases k1
  | data h1 h2 h3 ih =>
    intro g' s' h' e
    cases h' with
    | atom k1 => rw [h1] at k1; cases k1
    | tag k1 k2 => simp at e
    | data k1 k2 k3 =>
      rw [h1] at k1; cases k1
      simp only [List.map_cons, List.cons.injEq] at e
      have := e.1
      simp only [Slot.test, tagslot, Prod.mk.injEq, Option.some.injEq, Atom.mk.injEq, true_and] at this
      subst this
      rw [h2] at k2
      cases k2
      exact ih k3 e.2
    | addr k1 => rw [h1] at k1; cases k1
  | addr h1 h2 ih =>
    intro g' s' h' e
    cases h' with
    | atom k1 => rw [h1] at k1; cases k1
    | tag k1 => rw [h1] at k1; cases k1
    | data k1 => rw [h1] at k1; cases k1
    | addr k1 k2 =>
      rw [h1] at k1; cases k1
      exact ih k2 e

/-- The counts of constructors are right, or too large to matter. -/
def Counted (n : Nat) (a : Atom) : Prop := a.val < n ∨ 0x10ffff ≤ n

theorem inrange_counted {a : Atom} (h : a.InRange) : Counted a.ty.ncons a := by
  obtain ⟨ty, val⟩ := a
  unfold Atom.InRange at h
  cases ty with
  | void => left; simp only at h; simp [AtomTy.ncons, h]
  | bool => left; simpa [AtomTy.ncons] using h
  | char => right; simp [AtomTy.ncons]
  | int b =>
    simp only at h
    obtain ⟨h1, h2⟩ := h
    rcases h1 with rfl | rfl | rfl | rfl
    · left; simpa [AtomTy.ncons] using h2
    · left; simpa [AtomTy.ncons] using h2
    · left; simpa [AtomTy.ncons] using h2
    · right; simp [AtomTy.ncons]
  | flt => right; simp [AtomTy.ncons]

theorem chain_key {Γ : Defs} {t : Ty} {l : Load} {π : List Nat} {g : List Slot} {s : Slot} (h : Chain Γ t l π g s) : ∃ a, s.pat = some a ∧ Counted s.ncons a := by
  induction h with
  | atom h1 h2 => exact ⟨_, rfl, inrange_counted h2⟩
  | tag h1 h2 => exact ⟨_, rfl, .inl h2⟩
  | data _ _ _ ih => exact ih
  | addr _ _ ih => exact ih

theorem chain_read {Γ : Defs} {v : Val} {t : Ty} {l : Load} {π : List Nat} {g : List Slot} {s : Slot} (h : Chain Γ t l π g s) : ∀ {w : Val},
    HasVal Γ w t → l.eval v = some w → (∀ x ∈ g, holds v x) → ∃ b, s.load.eval v = some (.atom b) ∧ s.pat.map Atom.ty = some b.ty ∧ Counted s.ncons b := by
  induction h with
  | @atom t l π a h1 h2 =>
    intro w hw hl _
    cases hw with
    | @atom b _ k1 k2 =>
      rw [h1] at k1
      simp only [Ty.atom.injEq] at k1
      refine ⟨b, hl, by simp [atslot, k1], ?_⟩
      have := inrange_counted k2
      rw [← k1] at this
      exact this
    | bytes k1 => rw [h1] at k1; cases k1
    | ref k1 => rw [h1] at k1; cases k1
    | union0 k1 => rw [h1] at k1; cases k1
    | union k1 => rw [h1] at k1; cases k1
    | agg k1 => rw [h1] at k1; cases k1
  | @tag t l π cs i h1 h2 =>
    intro w hw hl _
    cases hw with
    | atom k1 k2 => rw [h1] at k1; cases k1
    | bytes k1 => rw [h1] at k1; cases k1
    | ref k1 => rw [h1] at k1; cases k1
    | @union0 j _ _ k1 k2 =>
      rw [h1] at k1; cases k1
      exact ⟨⟨.int 32, j⟩, by simp [tagslot, Load.eval, hl], rfl, .inl (List.getElem?_eq_some_iff.1 k2).1⟩
    | @union j _ _ _ _ k1 k2 _ =>
      rw [h1] at k1; cases k1
      exact ⟨⟨.int 32, j⟩, by simp [tagslot, Load.eval, hl], rfl, .inl (List.getElem?_eq_some_iff.1 k2).1⟩
    | agg k1 => rw [h1] at k1; cases k1
  | @data t l π cs i u g s h1 h2 h3 ih =>
    intro w hw hl hg
    have htag := hg (tagslot cs.length i l π) (by simp) ⟨.int 32, i⟩ rfl
    simp only [tagslot, Load.eval, hl] at htag
    cases hw with
    | atom k1 k2 => rw [h1] at k1; cases k1
    | bytes k1 => rw [h1] at k1; cases k1
    | ref k1 => rw [h1] at k1; cases k1
    | @union0 j _ _ k1 k2 =>
      rw [h1] at k1; cases k1
      simp only [Option.some.injEq, Val.atom.injEq, Atom.mk.injEq, true_and] at htag
      subst htag
      rw [h2] at k2; cases k2
    | @union j w' _ _ _ k1 k2 k3 =>
      rw [h1] at k1; cases k1
      simp only [Option.some.injEq, Val.atom.injEq, Atom.mk.injEq, true_and] at htag
      subst htag
      rw [h2] at k2; cases k2
      exact ih k3 (by simp [Load.eval, hl]) (fun x hx => hg x (by simp [hx]))
    | agg k1 => rw [h1] at k1; cases k1
  | @addr t l π u g s h1 h2 ih =>
    intro w hw hl hg
    cases hw with
    | atom k1 k2 => rw [h1] at k1; cases k1
    | bytes k1 => rw [h1] at k1; cases k1
    | ref k1 k2 =>
      rw [h1] at k1; cases k1
      exact ih k2 (by simp [Load.eval, hl]) hg
    | union0 k1 => rw [h1] at k1; cases k1
    | union k1 => rw [h1] at k1; cases k1
    | agg k1 => rw [h1] at k1; cases k1

/-- The size of a load. -/
def Load.size : Load → Nat
  | .root => 0
  | .utag l => l.size + 1
  | .udata l => l.size + 1
  | .elt _ l _ => l.size + 1
  | .len l => l.size + 1
  | .deref l => l.size + 1

theorem chain_load {Γ : Defs} {t : Ty} {l : Load} {π : List Nat} {g : List Slot} {s : Slot} (h : Chain Γ t l π g s) :
    (s.load = l ∨ l.size < s.load.size) ∧ ∀ x ∈ g, x.load ≠ s.load := by
  induction h with
  | atom => exact ⟨.inl rfl, by simp⟩
  | tag => exact ⟨.inr (by simp [tagslot, Load.size]), by simp⟩
  | @data t l π cs i u g s h1 h2 h3 ih =>
    obtain ⟨a, b⟩ := ih
    refine ⟨.inr ?_, ?_⟩
    · rcases a with a | a
      · rw [a]; simp [Load.size]
      · simp only [Load.size] at a; omega
    · intro x hx
      rcases List.mem_cons.1 hx with rfl | hx
      · intro e
        simp only [tagslot] at e
        rcases a with a | a
        · rw [← e] at a; cases a
        · rw [← e] at a; simp only [Load.size] at a; omega
      · exact b x hx
  | @addr t l π u g s h1 h2 ih =>
    obtain ⟨a, b⟩ := ih
    refine ⟨.inr ?_, b⟩
    rcases a with a | a
    · rw [a]; simp [Load.size]
    · simp only [Load.size] at a; omega

/-! ## Rows of such tests -/

/-- The tests of a row. -/
def consts (r : Row) : List Slot := r.slots.filter fun s => s.pat.isSome

theorem mem_consts {r : Row} {s : Slot} : s ∈ consts r ↔ s ∈ r.slots ∧ s.pat ≠ none := by
  rw [consts, List.mem_filter]
  cases s.pat <;> simp

theorem consts_app (a r : Row) : consts (a.app r) = consts a ++ consts r := by simp [consts, Row.app]

theorem lin_rows {Γ : Defs} : ∀ (p : Pat) (t : Ty) (l : Load) (π : List Nat), p.linear = true → p.HasTy Γ t → ∀ r ∈ rowsof p l π,
    ∀ (pre post : List Slot) (s : Slot), consts r = pre ++ s :: post → Chain Γ t l π pre s
  | .gap, t, l, π, _, _, r, hr, pre, post, s, h => by
    simp only [rowsof, addrec, Row.slot, e0, List.nil_append, List.mem_singleton] at hr; subst hr
    simp [consts] at h
  | .var d, t, l, π, _, _, r, hr, pre, post, s, h => by
    simp only [rowsof, addrec, e0, List.nil_append, List.mem_singleton] at hr; subst hr
    simp [consts] at h
  | .cst p, t, l, π, hp, _, r, hr, pre, post, s, h => by simp [Pat.linear] at hp
  | .str p, t, l, π, hp, _, r, hr, pre, post, s, h => by simp [Pat.linear] at hp
  | .agg k ps, t, l, π, hp, _, r, hr, pre, post, s, h => by simp [Pat.linear] at hp
  | .lit a, t, l, π, _, ht, r, hr, pre, post, s, h => by
    simp only [rowsof, addrec, Row.slot, e0, List.nil_append, List.mem_singleton] at hr; subst hr
    have : [atslot π a l] = pre ++ s :: post := by simpa [consts, atslot] using h
    obtain ⟨rfl, rfl⟩ : pre = [] ∧ s = atslot π a l := by
      cases pre with
      | nil => simp only [List.nil_append, List.cons.injEq] at this; exact ⟨rfl, this.1.symm⟩
      | cons x xs => simp at this
    exact .atom ht.1 ht.2
  | .addr p, t, l, π, hp, ht, r, hr, pre, post, s, h => by
    rw [rowsof_addr] at hr
    obtain ⟨u, h1, h2⟩ := ht
    exact .addr h1 (lin_rows p u _ _ hp h2 r hr pre post s h)
  | .ucon0 n i, t, l, π, _, ht, r, hr, pre, post, s, h => by
    simp only [rowsof, addrec, Row.slot, e0, List.nil_append, List.mem_singleton] at hr; subst hr
    obtain ⟨cs, h1, rfl, h3⟩ := ht
    have : [tagslot cs.length i l π] = pre ++ s :: post := by simpa [consts, tagslot] using h
    obtain ⟨rfl, rfl⟩ : pre = [] ∧ s = tagslot cs.length i l π := by
      cases pre with
      | nil => simp only [List.nil_append, List.cons.injEq] at this; exact ⟨rfl, this.1.symm⟩
      | cons x xs => simp at this
    exact .tag h1 (List.getElem?_eq_some_iff.1 h3).1
  | .ucon n i p, t, l, π, hp, ht, r, hr, pre, post, s, h => by
    rw [rowsof_ucon] at hr
    obtain ⟨r', hr', rfl⟩ := List.mem_map.1 hr
    obtain ⟨cs, u, h1, rfl, h3, h4⟩ := ht
    rw [consts_app] at h
    have e : consts (e0.slot (tagslot cs.length i l π)) = [tagslot cs.length i l π] := by simp [consts, Row.slot, e0, tagslot]
    rw [e, List.singleton_append] at h
    cases pre with
    | nil =>
      simp only [List.nil_append, List.cons.injEq] at h
      rw [← h.1]
      exact .tag h1 (List.getElem?_eq_some_iff.1 h3).1
    | cons x xs =>
      simp only [List.cons_append, List.cons.injEq] at h
      rw [← h.1]
      exact .data h1 h3 (lin_rows p u _ _ hp h4 r' hr' xs post s h.2)
  | .lor a b, t, l, π, hp, ht, r, hr, pre, post, s, h => by
    rw [rowsof_lor] at hr
    obtain ⟨r', hr', rfl⟩ := List.mem_map.1 hr
    simp only [Pat.linear, Bool.and_eq_true] at hp
    rw [consts_app, show consts { e0 with hasor := true } = [] from rfl, List.nil_append] at h
    rcases List.mem_append.1 hr' with hr' | hr'
    · exact lin_rows a t l π hp.1 ht.1 r' hr' pre post s h
    · exact lin_rows b t l π hp.2 ht.2 r' hr' pre post s h

theorem linear_tame : ∀ p : Pat, p.linear = true → p.tame = true
  | .gap, _ => rfl
  | .var d, _ => rfl
  | .cst p, h => by simp [Pat.linear] at h
  | .lit a, _ => rfl
  | .str s, _ => rfl
  | .addr p, h => linear_tame p h
  | .ucon0 n t, _ => rfl
  | .ucon n t p, h => linear_tame p h
  | .agg k ps, h => by simp [Pat.linear] at h
  | .lor a b, h => by
    simp only [Pat.linear, Bool.and_eq_true] at h
    simp only [Pat.tame, Bool.and_eq_true]
    exact ⟨linear_tame a h.1, linear_tame b h.2⟩

theorem alts_rows : ∀ (p : Pat) (l : Load) (π : List Nat), p.linear = true → (rowsof p l π).length = p.alts
  | .gap, l, π, _ => rfl
  | .var d, l, π, _ => rfl
  | .cst p, l, π, h => by simp [Pat.linear] at h
  | .lit a, l, π, _ => rfl
  | .str s, l, π, h => by simp [Pat.linear] at h
  | .addr p, l, π, h => by rw [rowsof_addr]; exact alts_rows p _ _ h
  | .ucon0 n t, l, π, _ => rfl
  | .ucon n t p, l, π, h => by rw [rowsof_ucon, List.length_map]; exact alts_rows p _ _ h
  | .agg k ps, l, π, h => by simp [Pat.linear] at h
  | .lor a b, l, π, h => by
    simp only [Pat.linear, Bool.and_eq_true] at h
    rw [rowsof_lor, List.length_map, List.length_append, alts_rows a l π h.1, alts_rows b l π h.2]
    rfl

theorem alts_all (pats : List Pat) (h : ∀ p ∈ pats, p.linear = true) : (rowsall pats).length = (pats.map Pat.alts).sum := by
  have h1 : ∀ (rs : List Row) (k : Nat), (number k rs).length = rs.length := by
    intro rs
    induction rs with
    | nil => intro _; rfl
    | cons r rs ih => intro k; simp [number, ih]
  have h2 : ∀ (pats : List Pat) (i : Nat), (∀ p ∈ pats, p.linear = true) → (genrows i pats).length = (pats.map Pat.alts).sum := by
    intro pats
    induction pats with
    | nil => intro _ _; rfl
    | cons p ps ih =>
      intro i h
      simp only [genrows, List.length_append, List.map_cons, List.sum_cons]
      rw [genfrontier_eq, List.length_map, alts_rows p _ _ (h p (by simp)), ih _ (fun q hq => h q (by simp [hq]))]
  rw [rowsall, h1, h2 pats 0 h]

/-! ## The graph -/

/-- Rows whose tests look at one thing after another. -/
structure Lined (Γ : Defs) (t : Ty) (R : List Row) : Prop where
  chain : ∀ o ∈ R, ∀ (pre post : List Slot) (s : Slot), consts o = pre ++ s :: post → Chain Γ t .root [0] pre s
  nodup : Nodups R
  final : ∀ o ∈ R, ∀ o' ∈ R, o.final = o'.final → o = o'

/-- The row is what is left of a row in `R` after the tests `T`. -/
def Left (R : List Row) (T : Tests) (c : Row) : Prop :=
  ∃ o ∈ R, c.final = o.final ∧ (∀ s ∈ c.slots, s ∈ o.slots) ∧ (c.slots.map Slot.path).Nodup ∧
    ∃ pre, consts o = pre ++ consts c ∧ (consts c ≠ [] → pre.map Slot.test = T)

theorem consts_drop (r : Row) (path : List Nat) : consts (r.drop path) = (consts r).filter fun s => s.path ≠ path := by
  simp only [consts, Row.drop, List.filter_filter]
  congr 1
  funext x
  rw [Bool.and_comm]

theorem consts_nodup {c : Row} (h : (c.slots.map Slot.path).Nodup) : ((consts c).map Slot.path).Nodup := h.sublist (List.filter_sublist.map _)

/-- The first test of each row is at the same place. -/
theorem left_same {Γ : Defs} {t : Ty} {R : List Row} (hL : Lined Γ t R) {T : Tests} {c c' : Row} (h : Left R T c) (h' : Left R T c') {s s' : Slot} {p p' : List Slot}
    (e : consts c = s :: p) (e' : consts c' = s' :: p') :
    s.path = s'.path ∧ s.load = s'.load ∧ s.ncons = s'.ncons ∧ s.pat.map Atom.ty = s'.pat.map Atom.ty := by
  obtain ⟨o, ho, _, _, _, pre, h1, h2⟩ := h
  obtain ⟨o', ho', _, _, _, pre', h1', h2'⟩ := h'
  rw [e] at h1 h2
  rw [e'] at h1' h2'
  exact chain_same (hL.chain o ho _ _ _ h1) (hL.chain o' ho' _ _ _ h1') ((h2 (by simp)).trans (h2' (by simp)).symm)

theorem pick_consts {c : Row} {s : Slot} (h : pick c = some s) : ∃ p, consts c = s :: p := by
  have : (consts c).head? = some s := by
    rw [consts, List.head?_filter]
    exact h
  cases e : consts c with
  | nil => rw [e] at this; cases this
  | cons x xs =>
    rw [e] at this
    simp only [List.head?_cons, Option.some.injEq] at this
    exact ⟨xs, by rw [this]⟩

theorem pick_open {c : Row} (h : consts c = []) : pick c = none := by
  have : (consts c).head? = none := by rw [h]; rfl
  rw [consts, List.head?_filter] at this
  exact this

theorem left_project {Γ : Defs} {t : Ty} {R : List Row} (hL : Lined Γ t R) {T : Tests} {fs c c' : Row} (h0 : Left R T fs) (h : Left R T c) {s : Slot}
    (hp : pick fs = some s) {b : Atom} (hc : project b s.path c = some c') : Left R (T ++ [(s.path, s.load, some b)]) c' := by
  obtain ⟨p0, e0⟩ := pick_consts hp
  have hdrop := project_weight hc
  subst hdrop
  cases e : consts c with
  | nil =>
    obtain ⟨o, ho, h1, h2, h3, pre, h4, h5⟩ := h
    refine ⟨o, ho, h1, fun s hs => h2 s (List.mem_filter.1 hs).1, h3.sublist (List.filter_sublist.map _), pre, ?_, ?_⟩
    · rw [consts_drop, e]; simpa [e] using h4
    · rw [consts_drop, e]; simp
  | cons s' p' =>
    obtain ⟨q1, q2, _, _⟩ := left_same hL h0 h e0 e
    obtain ⟨o, ho, h1, h2, h3, pre, h4, h5⟩ := h
    have hn := consts_nodup h3
    rw [e] at hn h4 h5
    rw [List.map_cons, List.nodup_cons] at hn
    have hs' := mem_consts.1 (show s' ∈ consts c by rw [e]; simp)
    have hdr : consts (c.drop s.path) = p' := by
      rw [consts_drop, e, q1, List.filter_cons_of_neg (by simp)]
      rw [List.filter_eq_self]
      intro x hx
      simp only [decide_not, Bool.not_eq_true', decide_eq_false_iff_not]
      intro k
      exact hn.1 (List.mem_map.2 ⟨x, hx, k⟩)
    refine ⟨o, ho, h1, fun s hs => h2 s (List.mem_filter.1 hs).1, h3.sublist (List.filter_sublist.map _), pre ++ [s'], ?_, ?_⟩
    · rw [hdr, h4]; simp
    · intro _
      rw [List.map_append, h5 (by simp)]
      simp only [List.map_cons, List.map_nil, Slot.test, List.append_cancel_left_eq, List.cons.injEq, Prod.mk.injEq, and_true]
      refine ⟨q1.symm, q2.symm, ?_⟩
      have hat := at_eq h3 hs'.1
      rw [← q1] at hat
      unfold project at hc
      rw [hat] at hc
      simp only at hc
      cases ep : s'.pat with
      | none => exact absurd ep hs'.2
      | some a =>
        rw [ep] at hc
        simp only at hc
        split at hc
        · rename_i k; rw [k]
        · cases hc

theorem left_dflt {Γ : Defs} {t : Ty} {R : List Row} (hL : Lined Γ t R) {T : Tests} {fs c : Row} (h0 : Left R T fs) (h : Left R T c) {s : Slot}
    (hp : pick fs = some s) (hc : isdflt s.path c = true) : consts c = [] := by
  obtain ⟨p0, e0⟩ := pick_consts hp
  cases e : consts c with
  | nil => rfl
  | cons s' p' =>
    exfalso
    obtain ⟨q1, _⟩ := left_same hL h0 h e0 e
    have hs' := mem_consts.1 (show s' ∈ consts c by rw [e]; simp)
    obtain ⟨o, ho, h1, h2, h3, _⟩ := h
    have hat := at_eq h3 hs'.1
    rw [← q1] at hat
    unfold isdflt at hc
    rw [hat] at hc
    cases ep : s'.pat with
    | none => exact hs'.2 ep
    | some a => simp [ep] at hc

theorem conslot_prefix (path : List Nat) (cs : List Atom) (s : Slot) : cs <+: conslot path cs s := by
  unfold conslot
  split
  · split
    · exact List.prefix_append _ _
    · exact List.prefix_refl _
  · exact List.prefix_refl _

theorem consfold_prefix (path : List Nat) (ss : List Slot) (cs : List Atom) : cs <+: ss.foldl (conslot path) cs := by
  induction ss generalizing cs with
  | nil => exact List.prefix_refl _
  | cons s ss ih => exact (conslot_prefix path cs s).trans (ih _)

theorem consrows_prefix (path : List Nat) (rows : List Row) (cs : List Atom) : cs <+: rows.foldl (fun cs r => r.slots.foldl (conslot path) cs) cs := by
  induction rows generalizing cs with
  | nil => exact List.prefix_refl _
  | cons r rs ih => exact (consfold_prefix path r.slots cs).trans (ih _)

theorem conslot_nodup {path : List Nat} {cs : List Atom} {s : Slot} (h : cs.Nodup) : (conslot path cs s).Nodup := by
  unfold conslot
  split
  · split
    · rename_i k
      simp only [Bool.and_eq_true, decide_eq_true_eq, Bool.not_eq_true', List.contains_eq_mem, decide_eq_false_iff_not] at k
      rw [List.nodup_append]
      exact ⟨h, by simp, by intro a ha b hb e; simp only [List.mem_singleton] at hb; subst hb; subst e; exact k.2 ha⟩
    · exact h
  · exact h

theorem consat_nodup (path : List Nat) (rows : List Row) : (consat path rows).Nodup := by
  have h1 : ∀ (ss : List Slot) (cs : List Atom), cs.Nodup → (ss.foldl (conslot path) cs).Nodup := by
    intro ss
    induction ss with
    | nil => intro cs h; exact h
    | cons s ss ih => intro cs h; exact ih _ (conslot_nodup h)
  have h2 : ∀ (rows : List Row) (cs : List Atom), cs.Nodup → (rows.foldl (fun cs r => r.slots.foldl (conslot path) cs) cs).Nodup := by
    intro rows
    induction rows with
    | nil => intro cs h; exact h
    | cons r rs ih => intro cs h; exact ih _ (h1 _ _ h)
  exact h2 rows [] (by simp)

theorem consat_length (path : List Nat) (rows : List Row) (h : ∀ r ∈ rows, (r.slots.map Slot.path).Nodup) : (consat path rows).length ≤ rows.length := by
  have h1 : ∀ (ss : List Slot) (cs : List Atom), (ss.map Slot.path).Nodup →
      (ss.foldl (conslot path) cs).length ≤ cs.length + (if path ∈ ss.map Slot.path then 1 else 0) := by
    intro ss
    induction ss with
    | nil => intro cs _; simp
    | cons s ss ih =>
      intro cs hn
      rw [List.map_cons, List.nodup_cons] at hn
      have := ih (conslot path cs s) hn.2
      simp only [List.foldl_cons, List.map_cons, List.mem_cons]
      have hc : (conslot path cs s).length ≤ cs.length + (if s.path = path then 1 else 0) := by
        unfold conslot
        split
        · split
          · rename_i k
            simp only [Bool.and_eq_true, decide_eq_true_eq] at k
            simp [k.1]
          · omega
        · omega
      by_cases e : s.path = path
      · rw [e] at hn
        rw [if_neg hn.1] at this
        rw [if_pos e] at hc
        rw [if_pos (.inl e.symm)]
        omega
      · rw [if_neg e] at hc
        by_cases k : path ∈ ss.map Slot.path
        · rw [if_pos k] at this; rw [if_pos (.inr k)]; omega
        · rw [if_neg k] at this
          omega
  have h2 : ∀ (rows : List Row) (cs : List Atom), (∀ r ∈ rows, (r.slots.map Slot.path).Nodup) →
      (rows.foldl (fun cs r => r.slots.foldl (conslot path) cs) cs).length ≤ cs.length + rows.length := by
    intro rows
    induction rows with
    | nil => intro cs _; simp
    | cons r rs ih =>
      intro cs h
      have a := h1 r.slots cs (h r (by simp))
      have b := ih (r.slots.foldl (conslot path) cs) (fun x hx => h x (by simp [hx]))
      simp only [List.foldl_cons, List.length_cons]
      split at a <;> omega
  have := h2 rows [] h
  rw [List.length_nil, Nat.zero_add] at this
  exact this

theorem consat_head {fs : Row} {rs : List Row} {s : Slot} {a : Atom} (hn : (fs.slots.map Slot.path).Nodup) (hs : s ∈ fs.slots) (ha : s.pat = some a) :
    ∃ cs, consat s.path (fs :: rs) = a :: cs := by
  have h1 : ∀ b, b ∈ fs.slots.foldl (conslot s.path) [] ↔ b = a := by
    intro b
    rw [mem_consfold]
    constructor
    · rintro (k | ⟨x, hx, e1, e2⟩)
      · cases k
      · have := nodup_map_inj hn hx hs e1
        subst this
        rw [ha] at e2
        exact (Option.some.inj e2).symm
    · rintro rfl
      exact .inr ⟨s, hs, rfl, ha⟩
  have h2 := consrows_prefix s.path rs (fs.slots.foldl (conslot s.path) [])
  cases e : fs.slots.foldl (conslot s.path) [] with
  | nil => have := (h1 a).2 rfl; rw [e] at this; cases this
  | cons x xs =>
    have hx : x = a := (h1 x).1 (by rw [e]; simp)
    rw [e, hx] at h2
    obtain ⟨ys, hy⟩ := h2
    refine ⟨xs ++ ys, ?_⟩
    rw [consat, List.foldl_cons, e, hx, ← hy]
    simp

/-- Follow the first edges. -/
inductive Lead (nodes : List Node) : Nat → Nat → Prop
  | fin {i a c} : nodes[i]? = some (Node.fin a c) → Lead nodes i i
  | test {i l a j es any nc k} : nodes[i]? = some (Node.test l ((a, j) :: es) any nc) → Lead nodes j k → Lead nodes i k

theorem Lead.mono {n n' : List Node} (h : n <+: n') {i k : Nat} (hl : Lead n i k) : Lead n' i k := by
  induction hl with
  | fin h1 => exact .fin (getElem?_of_prefix h h1)
  | test h1 _ ih => exact .test (getElem?_of_prefix h h1) ih

theorem Lead.det {n : List Node} {i k k' : Nat} (h : Lead n i k) (h' : Lead n i k') : k = k' := by
  induction h with
  | fin h1 =>
    cases h' with
    | fin => rfl
    | test k1 => rw [h1] at k1; cases k1
  | test h1 _ ih =>
    cases h' with
    | fin k1 => rw [h1] at k1; cases k1
    | test k1 k2 =>
      rw [h1] at k1
      cases k1
      exact ih k2

/-- The count in each node belongs to a test of the row it leads to. -/
def NodeOk (R : List Row) (nodes : List Node) : Prop := ∀ (i : Nat) (l : Load) (es : List (Atom × Nat)) (any : Option Nat) (nc : Nat),
  nodes[i]? = some (Node.test l es any nc) → ∃ o ∈ R, ∃ s ∈ consts o, s.load = l ∧ nc = s.ncons ∧ Lead nodes i o.final

theorem loads_inj {Γ : Defs} {t : Ty} {R : List Row} (hL : Lined Γ t R) {o : Row} (ho : o ∈ R) {s s' : Slot} (hs : s ∈ consts o) (hs' : s' ∈ consts o)
    (e : s.load = s'.load) : s = s' := by
  obtain ⟨pre, post, h⟩ := List.append_of_mem hs
  rw [h] at hs'
  rcases List.mem_append.1 hs' with k | k
  · exact absurd e.symm ((chain_load (hL.chain o ho _ _ _ h)).2 s' k)
  · rcases List.mem_cons.1 k with k | k
    · exact k.symm
    · obtain ⟨pre', post', h'⟩ := List.append_of_mem k
      rw [h'] at h
      have h2 : consts o = (pre ++ s :: pre') ++ s' :: post' := by rw [h]; simp
      exact absurd e ((chain_load (hL.chain o ho _ _ _ h2)).2 s (by simp))

/-- No value which passes the tests gets stuck at a node which was verified. -/
def NoStuck (Γ : Defs) (t : Ty) (T : Tests) (nodes : List Node) (i : Nat) : Prop :=
  ∀ N, nodes <+: N → ∀ v, HasVal Γ v t → Passes v T → ∀ f, verify N f i = .ok true → ∀ r, Walk N v i r → r ≠ none

theorem pigeon {n : Nat} {τ : AtomTy} {as : List Atom} (hn : as.Nodup) (hl : as.length = n) (ht : ∀ a ∈ as, a.ty = τ ∧ a.val < n) {b : Atom} (hb : b.ty = τ ∧ b.val < n) :
    b ∈ as := by
  by_contra hc
  have h1 : ((b :: as).map Atom.val).Nodup := by
    apply List.Nodup.map_on _ (List.nodup_cons.2 ⟨hc, hn⟩)
    have hty : ∀ x ∈ b :: as, x.ty = τ := by
      intro x hx
      rcases List.mem_cons.1 hx with rfl | hx
      · exact hb.1
      · exact (ht x hx).1
    intro x hx y hy e
    obtain ⟨xt, xv⟩ := x
    obtain ⟨yt, yv⟩ := y
    have := hty _ hx
    have := hty _ hy
    simp_all
  have h2 : ((b :: as).map Atom.val) ⊆ List.range n := by
    intro x hx
    obtain ⟨a, ha, rfl⟩ := List.mem_map.1 hx
    rw [List.mem_range]
    rcases List.mem_cons.1 ha with rfl | ha
    · exact hb.2
    · exact (ht a ha).2
  have := (List.subperm_of_subset h1 h2).length_le
  simp only [List.length_map, List.length_cons, List.length_range] at this
  omega

theorem vedges_true {f : Nat → Res Bool} {es : List (Atom × Nat)} (h : verify.vedges f es = .ok true) : ∀ e ∈ es, f e.2 = .ok true := by
  induction es with
  | nil => simp
  | cons x xs ih =>
    simp only [verify.vedges] at h
    obtain ⟨y, k1, k2⟩ := Res.bind_eq_ok.1 h
    obtain ⟨z, k3, k4⟩ := Res.bind_eq_ok.1 k2
    simp only [Res.ok.injEq, Bool.and_eq_true] at k4
    rw [k4.1] at k1
    rw [k4.2] at k3
    intro e he
    rcases List.mem_cons.1 he with rfl | he
    · exact k1
    · exact ih k3 e he

theorem compile_exh {Γ : Defs} {t : Ty} {R : List Row} (hL : Lined Γ t R) (f : Nat) : ∀ (rows : List Row) (tb : Tbl) (T : Tests) (i : Nat) (tb' : Tbl),
    compile f rows tb = .ok (i, tb') → (∀ c ∈ rows, Left R T c) → rows.length < 0x10ffff → FinOk R tb → NodeOk R tb.nodes →
    tb.nodes <+: tb'.nodes ∧ NodeOk R tb'.nodes ∧ (∀ fs, rows.head? = some fs → Lead tb'.nodes i fs.final) ∧ NoStuck Γ t T tb'.nodes i := by
  induction f with
  | zero => intro rows tb T i tb' h; simp [compile] at h
  | succ f ih =>
    intro rows tb T i tb' h hl hlen hf hn
    unfold compile at h
    cases rows with
    | nil => cases h
    | cons fs rs =>
      simp only at h
      cases hp : pick fs with
      | none =>
        rw [hp] at h
        simp only [Res.ok.injEq, Prod.mk.injEq] at h
        obtain ⟨rfl, rfl⟩ := h
        obtain ⟨o, ho, e, _⟩ := hl fs (by simp)
        obtain ⟨a, c, hfin⟩ := hf o ho
        rw [← e] at hfin
        refine ⟨List.prefix_refl _, hn, ?_, ?_⟩
        · intro fs' hfs'
          simp only [List.head?_cons, Option.some.injEq] at hfs'
          subst hfs'
          exact .fin hfin
        · intro N hN v _ _ g _ r hw
          have := getElem?_of_prefix hN hfin
          cases hw with
          | fin => simp
          | edge k1 => rw [this] at k1; cases k1
          | dflt k1 => rw [this] at k1; cases k1
          | fail k1 => rw [this] at k1; cases k1
      | some s =>
        rw [hp] at h
        simp only at h
        obtain ⟨⟨es, t1⟩, h1, h2⟩ := Res.bind_eq_ok.1 h
        obtain ⟨⟨any, t2⟩, h3, h4⟩ := Res.bind_eq_ok.1 h2
        have hfs := hl fs (by simp)
        obtain ⟨p0, e0⟩ := pick_consts hp
        have hsfs := mem_consts.1 (show s ∈ consts fs by rw [e0]; simp)
        have hnd : ∀ r ∈ fs :: rs, (r.slots.map Slot.path).Nodup := by
          intro r hr
          obtain ⟨_, _, _, _, k, _⟩ := hl r hr
          exact k
        -- the edges
        have hedges : ∀ (cs : List Atom) (tb : Tbl) (es : List (Atom × Nat)) (tb' : Tbl), edges (compile f) s.path (fs :: rs) cs tb = .ok (es, tb') → FinOk R tb → NodeOk R tb.nodes →
            tb.nodes <+: tb'.nodes ∧ NodeOk R tb'.nodes ∧ (es.map Prod.fst).Sublist cs ∧
            (∀ e ∈ es, NoStuck Γ t (T ++ [(s.path, s.load, some e.1)]) tb'.nodes e.2) ∧
            ∀ a cs', cs = a :: cs' → s.pat = some a → ∃ j es', es = (a, j) :: es' ∧ Lead tb'.nodes j fs.final := by
          intro cs
          induction cs with
          | nil =>
            intro tb es tb' h hf hn
            simp only [edges, Res.ok.injEq, Prod.mk.injEq] at h
            obtain ⟨rfl, rfl⟩ := h
            exact ⟨List.prefix_refl _, hn, by simp, by simp, by simp⟩
          | cons c cs ihc =>
            intro tb es tb' h hf hn
            simp only [edges] at h
            obtain ⟨row, k1, k2⟩ := Res.bind_eq_ok.1 h
            have hrow := projrows_ok k1
            split at k2
            · rename_i hemp
              obtain ⟨q1, q2, q3, q4, q5⟩ := ihc tb es tb' k2 hf hn
              refine ⟨q1, q2, q3.cons _, q4, ?_⟩
              intro a cs' e ha
              cases e
              exfalso
              rw [hrow, List.isEmpty_iff] at hemp
              have : project c s.path fs = some (fs.drop s.path) := by simp [project, at_eq (hnd fs (by simp)) hsfs.1, ha]
              rw [List.filterMap_cons_some this] at hemp
              cases hemp
            · obtain ⟨⟨x1, x2⟩, k3, k4⟩ := Res.bind_eq_ok.1 k2
              obtain ⟨⟨y1, y2⟩, k5, k6⟩ := Res.bind_eq_ok.1 k4
              simp only [Res.ok.injEq, Prod.mk.injEq] at k6
              obtain ⟨rfl, rfl⟩ := k6
              have hleft : ∀ c' ∈ row, Left R (T ++ [(s.path, s.load, some c)]) c' := by
                intro c' hc'
                rw [hrow] at hc'
                obtain ⟨r0, hr0, e⟩ := List.mem_filterMap.1 hc'
                exact left_project hL hfs (hl r0 hr0) hp e
              have hlen' : row.length < 0x10ffff := by
                rw [hrow]
                have := List.length_filterMap_le (project c s.path) (fs :: rs)
                omega
              obtain ⟨q1, q2, q3, q4⟩ := ih row tb _ x1 x2 k3 hleft hlen' hf hn
              have hf2 : FinOk R x2 := by
                intro r hr
                obtain ⟨a, c, hh⟩ := hf r hr
                exact ⟨a, c, getElem?_of_prefix q1 hh⟩
              obtain ⟨z1, z2, z3, z4, z5⟩ := ihc x2 y1 y2 k5 hf2 q2
              refine ⟨q1.trans z1, z2, by simpa using z3, ?_, ?_⟩
              · intro e he
                rcases List.mem_cons.1 he with rfl | he
                · intro N hN
                  exact q4 N (z1.trans hN)
                · exact z4 e he
              · intro a cs' e ha
                cases e
                refine ⟨x1, y1, rfl, ?_⟩
                have : project c s.path fs = some (fs.drop s.path) := by simp [project, at_eq (hnd fs (by simp)) hsfs.1, ha]
                have := q3 (fs.drop s.path) (by rw [hrow, List.filterMap_cons_some this]; rfl)
                exact this.mono z1
        obtain ⟨a1, a2, a3, a4, a5⟩ := hedges _ tb es t1 h1 hf hn
        have hf1 : FinOk R t1 := by
          intro r hr
          obtain ⟨a, c, hh⟩ := hf r hr
          exact ⟨a, c, getElem?_of_prefix a1 hh⟩
        -- the default edge leads to a final node
        have hdf : t2.nodes = t1.nodes ∧ ∀ j, any = some j → ∃ a c, t1.nodes[j]? = some (Node.fin a c) := by
          simp only [dflt] at h3
          split at h3
          · simp only [Res.ok.injEq, Prod.mk.injEq] at h3
            obtain ⟨rfl, rfl⟩ := h3
            exact ⟨rfl, by simp⟩
          · rename_i hne
            obtain ⟨⟨x1, x2⟩, k3, k4⟩ := Res.bind_eq_ok.1 h3
            simp only [Res.ok.injEq, Prod.mk.injEq] at k4
            obtain ⟨rfl, rfl⟩ := k4
            cases hd : (fs :: rs).filter (isdflt s.path) with
            | nil => rw [hd] at hne; simp at hne
            | cons d ds =>
              rw [hd] at k3
              have hdm : d ∈ (fs :: rs).filter (isdflt s.path) := by rw [hd]; simp
              obtain ⟨hdm, hdd⟩ := List.mem_filter.1 hdm
              have hopen := left_dflt hL hfs (hl d hdm) hp hdd
              cases f with
              | zero => simp [compile] at k3
              | succ f =>
                simp only [compile, pick_open hopen, Res.ok.injEq, Prod.mk.injEq] at k3
                obtain ⟨rfl, rfl⟩ := k3
                refine ⟨rfl, ?_⟩
                intro j hj
                cases hj
                obtain ⟨o, ho, e, _⟩ := hl d hdm
                obtain ⟨a, c, hh⟩ := hf1 o ho
                exact ⟨a, c, by rw [e]; exact hh⟩
        obtain ⟨hd1, hd2⟩ := hdf
        obtain ⟨a, hpat⟩ : ∃ a, s.pat = some a := Option.ne_none_iff_exists'.1 hsfs.2
        obtain ⟨cs', hcs⟩ := consat_head (rs := rs) (hnd fs (by simp)) hsfs.1 hpat
        obtain ⟨j0, es', hes, hlead⟩ := a5 a cs' hcs hpat
        obtain ⟨o0, ho0, hfin0, _, _, pre0, hpre0, hT0⟩ := hfs
        have hso0 : s ∈ consts o0 := by rw [hpre0, e0]; simp
        -- the node
        have hnode : t1.nodes <+: tb'.nodes ∧ NodeOk R tb'.nodes ∧ ∃ nc, tb'.nodes[i]? = some (.test s.load es any nc) ∧ nc = s.ncons := by
          simp only [mknode] at h4
          obtain ⟨r, k1, k2⟩ := Res.bind_eq_ok.1 h4
          cases r with
          | some k =>
            simp only [Res.ok.injEq, Prod.mk.injEq] at k2
            obtain ⟨rfl, rfl⟩ := k2
            obtain ⟨nc, _, k3⟩ := reuse_some k1
            rw [Nat.sub_zero, hd1] at k3
            rw [hd1]
            refine ⟨List.prefix_refl _, a2, nc, k3, ?_⟩
            obtain ⟨o, ho, s', hs', w1, w2, w3⟩ := a2 k s.load es any nc k3
            have w4 : Lead t1.nodes k fs.final := by
              rw [hes] at k3
              exact .test k3 hlead
            have := hL.final o ho o0 ho0 (by rw [← hfin0]; exact w3.det w4)
            subst this
            rw [w2, loads_inj hL ho hs' hso0 w1]
          | none =>
            simp only [Res.ok.injEq, Prod.mk.injEq] at k2
            obtain ⟨rfl, rfl⟩ := k2
            simp only [hd1]
            have hx : t1.nodes <+: t1.nodes ++ [Node.test s.load es any s.ncons] := List.prefix_append _ _
            refine ⟨hx, ?_, s.ncons, by simp, rfl⟩
            intro i l es2 any2 nc hi
            rcases Nat.lt_or_ge i t1.nodes.length with k | k
            · rw [List.getElem?_append_left k] at hi
              obtain ⟨o, ho, s', hs', w1, w2, w3⟩ := a2 i l es2 any2 nc hi
              exact ⟨o, ho, s', hs', w1, w2, w3.mono hx⟩
            · have hi0 := hi
              rw [List.getElem?_append_right k] at hi
              have : i = t1.nodes.length := by
                rcases Nat.eq_or_lt_of_le k with e | e
                · exact e.symm
                · rw [List.getElem?_eq_none (by simp; omega)] at hi; cases hi
              subst this
              simp only [Nat.sub_self, List.getElem?_cons_zero, Option.some.injEq, Node.test.injEq] at hi
              obtain ⟨rfl, rfl, rfl, rfl⟩ := hi
              refine ⟨o0, ho0, s, hso0, rfl, rfl, ?_⟩
              rw [← hfin0]
              have hl0 := hlead.mono hx
              subst hes
              exact .test hi0 hl0
        obtain ⟨n1, n2, nc, n3, n4⟩ := hnode
        refine ⟨a1.trans n1, n2, ?_, ?_⟩
        · intro fs' hfs'
          simp only [List.head?_cons, Option.some.injEq] at hfs'
          subst hfs'
          rw [hes] at n3
          exact .test n3 (hlead.mono n1)
        · intro N hN v hv hpass g hver r hw
          have n5 := getElem?_of_prefix hN n3
          cases g with
          | zero => simp [verify] at hver
          | succ g =>
            simp only [verify, n5] at hver
            obtain ⟨x, v1, v2⟩ := Res.bind_eq_ok.1 hver
            simp only [Res.ok.injEq, Bool.and_eq_true] at v2
            rw [v2.2] at v1
            have vs := vedges_true v1
            cases hw with
            | fin k1 => rw [n5] at k1; cases k1
            | @edge _ _ _ _ _ b j _ k1 k2 k3 k4 =>
              rw [n5] at k1; cases k1
              have hm := List.mem_of_find?_eq_some k3
              refine a4 (b, j) hm N (n1.trans hN) v hv ?_ g (vs _ hm) r k4
              intro x hx y hy
              rcases List.mem_append.1 hx with hx | hx
              · exact hpass x hx y hy
              · simp only [List.mem_singleton] at hx
                subst hx
                cases hy
                exact k2
            | @dflt _ _ _ _ b j _ k1 k2 k3 k4 =>
              rw [n5] at k1; cases k1
              obtain ⟨a, c, hfin⟩ := hd2 j rfl
              have := getElem?_of_prefix (n1.trans hN) hfin
              cases k4 with
              | fin => simp
              | edge w => rw [this] at w; cases w
              | dflt w => rw [this] at w; cases w
              | fail w => rw [this] at w; cases w
            | @fail _ _ _ _ b k1 k2 k3 =>
              rw [n5] at k1; cases k1
              exfalso
              have hc := v2.1
              simp only [Option.isSome_none, Bool.or_false, beq_iff_eq] at hc
              rw [n4] at hc
              -- what is read
              have hchain := hL.chain o0 ho0 pre0 p0 s (by rw [hpre0, e0])
              have hT := hT0 (by rw [e0]; simp)
              obtain ⟨b', r1, r2, r3⟩ := chain_read (v := v) hchain hv rfl (by
                intro x hx y hy
                exact hpass x.test (by rw [← hT]; exact List.mem_map.2 ⟨x, hx, rfl⟩) y hy)
              rw [k2] at r1
              simp only [Option.some.injEq, Val.atom.injEq] at r1
              subst r1
              have hlen2 : es.length ≤ (fs :: rs).length := by
                have q1 := a3.length_le
                have q2 := consat_length s.path (fs :: rs) hnd
                rw [List.length_map] at q1
                omega
              have hbig : s.ncons < 0x10ffff := by omega
              have hb : b.val < s.ncons := by
                rcases r3 with r3 | r3
                · exact r3
                · omega
              have hmem : b ∈ es.map Prod.fst := by
                apply pigeon (τ := b.ty) (n := s.ncons) ((consat_nodup _ _).sublist a3) (by rw [List.length_map]; exact hc) _ ⟨rfl, hb⟩
                intro y hy
                obtain ⟨r', hr', s', hs', u1, u2⟩ := (mem_consat _ _).1 (a3.subset hy)
                have hleft' := hl r' hr'
                have hs'c : s' ∈ consts r' := mem_consts.2 ⟨hs', by simp [u2]⟩
                cases er : consts r' with
                | nil => rw [er] at hs'c; cases hs'c
                | cons z zs =>
                  obtain ⟨w1, w2, w3, w4⟩ := left_same hL (hl fs (by simp)) hleft' e0 er
                  have hz := mem_consts.1 (show z ∈ consts r' by rw [er]; simp)
                  have : s' = z := nodup_map_inj (hnd r' hr') hs' hz.1 (by rw [u1, w1])
                  subst this
                  obtain ⟨o', ho', _, _, _, pre', hp1, _⟩ := hleft'
                  obtain ⟨y', y1, y2⟩ := chain_key (hL.chain o' ho' pre' zs s' (by rw [hp1, er]))
                  rw [u2] at y1
                  cases y1
                  rw [← w3] at y2
                  rw [u2, r2] at w4
                  simp only [Option.map_some, Option.some.injEq] at w4
                  refine ⟨w4.symm, ?_⟩
                  rcases y2 with y2 | y2
                  · exact y2
                  · omega
              obtain ⟨e, he, rfl⟩ := List.mem_map.1 hmem
              have := List.find?_eq_none.1 k3 e he
              simp at this

theorem lined_rows {Γ : Defs} {pats : List Pat} {t : Ty} (ht : ∀ p ∈ pats, p.HasTy Γ t) (hm : ∀ p ∈ pats, p.linear = true) : Lined Γ t (rowsall pats) := by
  refine ⟨?_, nodups_rowsall pats, ?_⟩
  · intro o ho pre post s h
    obtain ⟨p, hp, r, hr, e, _⟩ := rowsall_arm pats o ho
    have hp := List.mem_of_getElem? hp
    exact lin_rows p t _ _ (hm p hp) (ht p hp) r hr pre post s (by rw [consts, ← e]; exact h)
  · intro o ho o' ho' e
    have key : ∀ o ∈ rowsall pats, (rowsall pats)[o.final]? = some o := by
      intro o ho
      obtain ⟨i, hi⟩ := List.mem_iff_getElem?.1 ho
      have hi' := hi
      rw [rowsall, number_get] at hi
      cases e : (genrows 0 pats)[i]? with
      | none => rw [e] at hi; cases hi
      | some r0 =>
        rw [e] at hi
        simp only [Option.map_some, Option.some.injEq, Nat.zero_add] at hi
        have : o.final = i := by rw [← hi]
        rw [this]; exact hi'
    have h1 := key o ho
    have h2 := key o' ho'
    rw [e, h2] at h1
    exact (Option.some.inj h1).symm

theorem left_start {R : List Row} (h : Nodups R) : ∀ c ∈ R, Left R [] c := fun c hc => ⟨c, hc, rfl, fun _ h => h, h c hc, [], rfl, fun _ => rfl⟩

end Verif.Match
