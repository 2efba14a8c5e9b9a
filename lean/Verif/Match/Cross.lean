import Verif.Match.Rows

/-!
# Lemmas: slots of different rows at one path
-/

namespace Verif.Match

open Verif

/-! ## Paths within a row -/

/-- All paths extend `π`, and no path occurs twice. -/
def Under (π : List Nat) (ss : List Slot) : Prop := (∀ s ∈ ss, π <+: s.path) ∧ (ss.map Slot.path).Nodup

/-- All paths extend `π` by `j ≥ i` and more, and no path occurs twice. -/
def UnderFrom (π : List Nat) (i : Nat) (ss : List Slot) : Prop := (∀ s ∈ ss, ∃ j, i ≤ j ∧ (π ++ [j]) <+: s.path) ∧ (ss.map Slot.path).Nodup

theorem prefix_snoc_inj {π p : List Nat} {i j : Nat} (h1 : (π ++ [i]) <+: p) (h2 : (π ++ [j]) <+: p) : i = j := by
  obtain ⟨a, rfl⟩ := h1
  obtain ⟨b, hb⟩ := h2
  simp only [List.append_assoc, List.append_cancel_left_eq, List.singleton_append, List.cons.injEq] at hb
  exact hb.1.symm

theorem underfrom_append {π : List Nat} {i : Nat} {a b : List Slot} (ha : Under (π ++ [i]) a) (hb : UnderFrom π (i + 1) b) :
    UnderFrom π i (a ++ b) := by
  refine ⟨?_, ?_⟩
  · intro s hs
    rcases List.mem_append.1 hs with h | h
    · exact ⟨i, Nat.le_refl _, ha.1 s h⟩
    · obtain ⟨j, h1, h2⟩ := hb.1 s h
      exact ⟨j, by omega, h2⟩
  · rw [List.map_append, List.nodup_append]
    refine ⟨ha.2, hb.2, ?_⟩
    intro p hp q hq e
    subst e
    obtain ⟨s, hs, rfl⟩ := List.mem_map.1 hp
    obtain ⟨s', hs', e'⟩ := List.mem_map.1 hq
    obtain ⟨j, h1, h2⟩ := hb.1 s' hs'
    rw [e'] at h2
    have := prefix_snoc_inj (ha.1 s hs) h2
    omega

theorem UnderFrom.under {π : List Nat} {i : Nat} {a : List Slot} (h : UnderFrom π i a) : Under π a :=
  ⟨fun s hs => by obtain ⟨j, _, h2⟩ := h.1 s hs; exact (List.prefix_append π [j]).trans h2, h.2⟩

theorem Under.from {π : List Nat} {i : Nat} {a : List Slot} (h : Under (π ++ [i]) a) : UnderFrom π i a :=
  ⟨fun s hs => ⟨i, Nat.le_refl _, h.1 s hs⟩, h.2⟩

theorem Under.weaken {π : List Nat} {i : Nat} {a : List Slot} (h : Under (π ++ [i]) a) : Under π a := h.from.under

theorem under_bslots (l : Load) (π : List Nat) (s : List Byte) (i : Nat) : UnderFrom π (1 + i) (bslots l π i s) := by
  induction s generalizing i with
  | nil => exact ⟨by simp [bslots], by simp [bslots]⟩
  | cons b bs ih =>
    have : Under (π ++ [1 + i]) [atslot (π ++ [1 + i]) ⟨.int 8, b.toNat⟩ (.elt .arr l i)] := ⟨by simp [atslot], by simp⟩
    exact underfrom_append this (ih (i + 1))

mutual
theorem rows_under : ∀ (p : Pat) (l : Load) (π : List Nat) (r : Row), r ∈ rowsof p l π → Under π r.slots
  | .gap, l, π, r, h => by
    simp only [rowsof, addrec, Row.slot, e0, List.nil_append, List.mem_singleton] at h; subst h
    exact ⟨by simp, by simp⟩
  | .var d, l, π, r, h => by
    simp only [rowsof, addrec, e0, List.nil_append, List.mem_singleton] at h; subst h
    exact ⟨by simp, by simp⟩
  | .cst p, l, π, r, h => by
    rw [rowsof_cst] at h
    exact (rows_under p l _ r h).weaken
  | .lit a, l, π, r, h => by
    simp only [rowsof, addrec, Row.slot, e0, List.nil_append, List.mem_singleton] at h; subst h
    exact ⟨by simp [atslot], by simp⟩
  | .str s, l, π, r, h => by
    rw [rowsof_str] at h
    simp only [List.mem_singleton] at h; subst h
    have : Under (π ++ [0]) [atslot (π ++ [0]) ⟨.int 64, s.length⟩ (.len l)] := ⟨by simp [atslot], by simp⟩
    exact (underfrom_append this (by simpa using under_bslots l π s 0)).under
  | .addr p, l, π, r, h => by
    rw [rowsof_addr] at h
    exact (rows_under p _ _ r h).weaken
  | .ucon0 n i, l, π, r, h => by
    simp only [rowsof, addrec, Row.slot, e0, List.nil_append, List.mem_singleton] at h; subst h
    exact ⟨by simp, by simp⟩
  | .ucon n i p, l, π, r, h => by
    rw [rowsof_ucon] at h
    obtain ⟨r', hr', rfl⟩ := List.mem_map.1 h
    have : Under (π ++ [0]) [tagslot n i l π] := ⟨by simp [tagslot], by simp⟩
    exact (underfrom_append this (rows_under p _ _ r' hr').from).under
  | .agg k ps, l, π, r, h => by
    rw [rowsof_agg] at h
    exact (rowsl_under k ps l π 0 r h).under
  | .lor a b, l, π, r, h => by
    rw [rowsof_lor] at h
    obtain ⟨r', hr', rfl⟩ := List.mem_map.1 h
    simp only [Row.app, e0, List.nil_append]
    rcases List.mem_append.1 hr' with h | h
    · exact rows_under a l π r' h
    · exact rows_under b l π r' h

theorem rowsl_under (k : Agg) : ∀ (ps : Pats) (l : Load) (π : List Nat) (i : Nat) (r : Row), r ∈ rowsofl k ps l π i → UnderFrom π i r.slots
  | .nil, l, π, i, r, h => by
    rw [rowsofl_nil] at h
    simp only [List.mem_singleton] at h; subst h
    exact ⟨by simp [e0], by simp [e0]⟩
  | .cons p ps, l, π, i, r, h => by
    rw [rowsofl_cons] at h
    have ih := rows_under p (.elt k l i) (π ++ [i])
    rcases List.mem_append.1 h with h | h
    · obtain ⟨r', hr', rfl⟩ := List.mem_map.1 h
      exact underfrom_append (ih _ (by simp [rowsof])) (rowsl_under k ps l π (i + 1) r' hr')
    · exact (ih r (by simp [rowsof, h])).from
end

/-! ## Constructor slots -/

/-- The i-th pattern. -/
def Pats.get : Pats → Nat → Option Pat
  | .nil, _ => none
  | .cons p _, 0 => some p
  | .cons _ ps, i + 1 => ps.get i

/-- A constructor slot of a pattern, with the slots of tags and lengths it depends on. -/
inductive In : Pat → Load → List Nat → List Slot → Slot → Prop
  | lit {a l π} : In (.lit a) l π [] (atslot π a l)
  | len {s l π} : In (.str s) l π [] (atslot (π ++ [0]) ⟨.int 64, s.length⟩ (.len l))
  | byte {s l π j b} : j < s.length → In (.str s) l π [atslot (π ++ [0]) ⟨.int 64, s.length⟩ (.len l)] (atslot (π ++ [1 + j]) ⟨.int 8, b⟩ (.elt .arr l j))
  | tag0 {n t l π} : In (.ucon0 n t) l π [] (tagslot n t l π)
  | tag {n t p l π} : In (.ucon n t p) l π [] (tagslot n t l π)
  | data {n t p l π g s} : In p (.udata l) (π ++ [1]) g s → In (.ucon n t p) l π (tagslot n t l π :: g) s
  | addr {p l π g s} : In p (.deref l) (π ++ [0]) g s → In (.addr p) l π g s
  | cst {p l π g s} : In p l (π ++ [0]) g s → In (.cst p) l π g s
  | elt {k ps i p l π g s} : ps.get i = some p → In p (.elt k l i) (π ++ [i]) g s → In (.agg k ps) l π g s
  | orl {a b l π g s} : In a l π g s → In (.lor a b) l π g s
  | orr {a b l π g s} : In b l π g s → In (.lor a b) l π g s

/-- The slots `g` stand before `s`. -/
def Before (g : List Slot) (s : Slot) (ss : List Slot) : Prop := ∃ pre post, ss = pre ++ s :: post ∧ ∀ x ∈ g, x ∈ pre

theorem before_append_left {g : List Slot} {s : Slot} {ss : List Slot} (h : Before g s ss) (a : List Slot) : Before g s (a ++ ss) := by
  obtain ⟨pre, post, rfl, h⟩ := h
  exact ⟨a ++ pre, post, by simp, fun x hx => by simp [h x hx]⟩

theorem before_append_right {g : List Slot} {s : Slot} {ss : List Slot} (h : Before g s ss) (a : List Slot) : Before g s (ss ++ a) := by
  obtain ⟨pre, post, rfl, h⟩ := h
  exact ⟨pre, post ++ a, by simp, h⟩

theorem before_nil {s : Slot} {ss : List Slot} (h : s ∈ ss) : Before [] s ss := by
  obtain ⟨pre, post, rfl⟩ := List.append_of_mem h
  exact ⟨pre, post, rfl, by simp⟩

mutual
theorem rows_in : ∀ (p : Pat) (l : Load) (π : List Nat) (r : Row), r ∈ rowsof p l π → ∀ s ∈ r.slots, s.pat ≠ none → ∃ g, In p l π g s ∧ Before g s r.slots
  | .gap, l, π, r, h, s, hs, hc => by
    simp only [rowsof, addrec, Row.slot, e0, List.nil_append, List.mem_singleton] at h; subst h
    simp only [List.mem_singleton] at hs; subst hs
    exact absurd rfl hc
  | .var d, l, π, r, h, s, hs, hc => by
    simp only [rowsof, addrec, e0, List.nil_append, List.mem_singleton] at h; subst h
    simp only [List.mem_singleton] at hs; subst hs
    exact absurd rfl hc
  | .cst p, l, π, r, h, s, hs, hc => by
    rw [rowsof_cst] at h
    obtain ⟨g, h1, h2⟩ := rows_in p l _ r h s hs hc
    exact ⟨g, .cst h1, h2⟩
  | .lit a, l, π, r, h, s, hs, hc => by
    simp only [rowsof, addrec, Row.slot, e0, List.nil_append, List.mem_singleton] at h; subst h
    have hs' := hs
    simp only [List.mem_singleton] at hs; subst hs
    exact ⟨[], .lit, before_nil hs'⟩
  | .str b0, l, π, r, h, s, hs, hc => by
    rw [rowsof_str] at h
    simp only [List.mem_singleton] at h; subst h
    simp only [sslots, List.mem_cons] at hs
    rcases hs with rfl | hs
    · exact ⟨[], .len, before_nil (by simp [sslots])⟩
    · obtain ⟨pre, post, e⟩ := List.append_of_mem hs
      obtain ⟨j, b, _, h2, rfl⟩ := mem_bslots hs
      refine ⟨_, .byte ?_, atslot (π ++ [0]) ⟨.int 64, b0.length⟩ (.len l) :: pre, post, by simp only [sslots, e, List.cons_append], by simp⟩
      simpa using (List.getElem?_eq_some_iff.1 h2).1
  | .addr p, l, π, r, h, s, hs, hc => by
    rw [rowsof_addr] at h
    obtain ⟨g, h1, h2⟩ := rows_in p _ _ r h s hs hc
    exact ⟨g, .addr h1, h2⟩
  | .ucon0 n i, l, π, r, h, s, hs, hc => by
    simp only [rowsof, addrec, Row.slot, e0, List.nil_append, List.mem_singleton] at h; subst h
    have hs' := hs
    simp only [List.mem_singleton] at hs; subst hs
    exact ⟨[], .tag0, before_nil hs'⟩
  | .ucon n i p, l, π, r, h, s, hs, hc => by
    rw [rowsof_ucon] at h
    obtain ⟨r', hr', rfl⟩ := List.mem_map.1 h
    simp only [Row.app, Row.slot, e0, List.nil_append, List.singleton_append, List.mem_cons] at hs ⊢
    rcases hs with rfl | hs
    · exact ⟨[], .tag, before_nil (by simp)⟩
    · obtain ⟨g, h1, pre, post, h2, h3⟩ := rows_in p _ _ r' hr' s hs hc
      refine ⟨_, .data h1, tagslot n i l π :: pre, post, by simp [h2], ?_⟩
      intro x hx
      rcases List.mem_cons.1 hx with rfl | hx
      · simp
      · simp [h3 x hx]
  | .agg k ps, l, π, r, h, s, hs, hc => by
    rw [rowsof_agg] at h
    obtain ⟨j, p, g, h1, h2, h3⟩ := rowsl_in k ps l π 0 r h s hs hc
    exact ⟨g, .elt (i := j) h1 (by simpa using h2), h3⟩
  | .lor a b, l, π, r, h, s, hs, hc => by
    rw [rowsof_lor] at h
    obtain ⟨r', hr', rfl⟩ := List.mem_map.1 h
    simp only [Row.app, e0, List.nil_append] at hs ⊢
    rcases List.mem_append.1 hr' with h | h
    · obtain ⟨g, h1, h2⟩ := rows_in a l π r' h s hs hc
      exact ⟨g, .orl h1, h2⟩
    · obtain ⟨g, h1, h2⟩ := rows_in b l π r' h s hs hc
      exact ⟨g, .orr h1, h2⟩

theorem rowsl_in (k : Agg) : ∀ (ps : Pats) (l : Load) (π : List Nat) (i : Nat) (r : Row), r ∈ rowsofl k ps l π i → ∀ s ∈ r.slots, s.pat ≠ none →
    ∃ j p g, ps.get j = some p ∧ In p (.elt k l (i + j)) (π ++ [i + j]) g s ∧ Before g s r.slots
  | .nil, l, π, i, r, h, s, hs, hc => by
    rw [rowsofl_nil] at h
    simp only [List.mem_singleton] at h; subst h
    simp [e0] at hs
  | .cons p ps, l, π, i, r, h, s, hs, hc => by
    rw [rowsofl_cons] at h
    rcases List.mem_append.1 h with h | h
    · obtain ⟨r', hr', rfl⟩ := List.mem_map.1 h
      simp only [Row.app, List.mem_append] at hs ⊢
      rcases hs with hs | hs
      · obtain ⟨g, h1, h2⟩ := rows_in p (.elt k l i) (π ++ [i]) _ (by simp [rowsof]) s hs hc
        exact ⟨0, p, g, rfl, h1, before_append_right h2 _⟩
      · obtain ⟨j, q, g, h1, h2, h3⟩ := rowsl_in k ps l π (i + 1) r' hr' s hs hc
        refine ⟨j + 1, q, g, h1, ?_, before_append_left h3 _⟩
        rw [show i + (j + 1) = i + 1 + j by omega]
        exact h2
    · obtain ⟨g, h1, h2⟩ := rows_in p (.elt k l i) (π ++ [i]) r (by simp [rowsof, h]) s hs hc
      exact ⟨0, p, g, rfl, h1, h2⟩
end

theorem In.prefix {p : Pat} {l : Load} {π : List Nat} {g : List Slot} {s : Slot} (h : In p l π g s) : π <+: s.path := by
  induction h with
  | lit => simp [atslot]
  | len => simp [atslot]
  | byte => simp [atslot]
  | tag0 => simp [tagslot]
  | tag => simp [tagslot]
  | data _ ih => exact (List.prefix_append _ _).trans ih
  | addr _ ih => exact (List.prefix_append _ _).trans ih
  | cst _ ih => exact (List.prefix_append _ _).trans ih
  | elt _ _ ih => exact (List.prefix_append _ _).trans ih
  | orl _ ih => exact ih
  | orr _ ih => exact ih

theorem In.pat {p : Pat} {l : Load} {π : List Nat} {g : List Slot} {s : Slot} (h : In p l π g s) : s.pat ≠ none ∧ ∀ x ∈ g, x.pat ≠ none := by
  induction h with
  | lit => simp [atslot]
  | len => simp [atslot]
  | byte _ => simp [atslot]
  | tag0 => simp [tagslot]
  | tag => simp [tagslot]
  | data _ ih => exact ⟨ih.1, by intro x hx; rcases List.mem_cons.1 hx with rfl | hx; · simp [tagslot]
                                 · exact ih.2 x hx⟩
  | addr _ ih => exact ih
  | cst _ ih => exact ih
  | elt _ _ ih => exact ih
  | orl _ ih => exact ih
  | orr _ ih => exact ih

/-- Constants of an atom, string or union type. -/
theorem scalar_ty {Γ : Defs} (p : Pat) (t : Ty) (hs : p.scalar = true) (ht : p.HasTy Γ t) :
    (∃ a, t.base Γ = .atom a) ∨ t.base Γ = .str ∨ ∃ cs, t.base Γ = .union cs := by
  match p, hs, ht with
  | .lit a, _, ht => exact .inl ⟨_, ht.1⟩
  | .str s, _, ht => exact .inr (.inl ht)
  | .ucon0 n i, _, ⟨cs, h, _⟩ => exact .inr (.inr ⟨cs, h⟩)
  | .ucon n i p, _, ⟨cs, u, h, _⟩ => exact .inr (.inr ⟨cs, h⟩)
  | .cst p, hs, ht => exact scalar_ty p t hs ht.1
  termination_by structural p

/-- Tests of a constant which is no atom lie below its path. -/
theorem scalar_deep {Γ : Defs} {p : Pat} {l : Load} {π : List Nat} {g : List Slot} {s : Slot} (h : In p l π g s) {t : Ty} (hs : p.scalar = true)
    (ht : p.HasTy Γ t) (hn : ∀ a, t.base Γ ≠ .atom a) : π.length < s.path.length := by
  induction h with
  | lit => exact absurd ht.1 (hn _)
  | len => simp [atslot]
  | byte => simp [atslot]
  | tag0 => simp [tagslot]
  | tag => simp [tagslot]
  | data h ih => have := h.prefix.length_le; simp only [List.length_append, List.length_singleton] at this; omega
  | addr h ih => simp [Pat.scalar] at hs
  | cst h ih => have := h.prefix.length_le; simp only [List.length_append, List.length_singleton] at this; omega
  | elt _ h ih => simp [Pat.scalar] at hs
  | orl h ih => simp [Pat.scalar] at hs
  | orr h ih => simp [Pat.scalar] at hs

theorem pats_get {Γ : Defs} : ∀ (ps qs : Pats) (ts : List Ty) (i : Nat) (p q : Pat), ps.HasTys Γ ts → qs.HasTys Γ ts → ps.get i = some p → qs.get i = some q →
    ∃ t, p.HasTy Γ t ∧ q.HasTy Γ t
  | .nil, qs, ts, i, p, q, h1, h2, g1, g2 => by simp [Pats.get] at g1
  | .cons p0 ps, .nil, ts, i, p, q, h1, h2, g1, g2 => by simp [Pats.get] at g2
  | .cons p0 ps, .cons q0 qs, [], i, p, q, h1, h2, g1, g2 => by simp [Pats.HasTys] at h1
  | .cons p0 ps, .cons q0 qs, t :: ts, 0, p, q, h1, h2, g1, g2 => by
    simp only [Pats.get, Option.some.injEq] at g1 g2; subst g1; subst g2
    simp only [Pats.HasTys] at h1 h2
    exact ⟨t, h1.1, h2.1⟩
  | .cons p0 ps, .cons q0 qs, t :: ts, i + 1, p, q, h1, h2, g1, g2 => by
    simp only [Pats.HasTys] at h1 h2
    exact pats_get ps qs ts i p q h1.2 h2.2 g1 g2

theorem gaps_get : ∀ (ps : Pats) (i : Nat) (p : Pat), ps.gaps = true → ps.get i = some p → p = .gap
  | .nil, i, p, h1, h2 => by simp [Pats.get] at h2
  | .cons p0 ps, 0, p, h1, h2 => by
    simp only [Pats.get, Option.some.injEq] at h2; subst h2
    cases p0 <;> simp [Pats.gaps] at h1
    rfl
  | .cons p0 ps, i + 1, p, h1, h2 => by
    cases p0 <;> simp [Pats.gaps] at h1
    exact gaps_get ps i p h1 h2

theorem tame_get : ∀ (ps : Pats) (i : Nat) (p : Pat), ps.tame = true → ps.get i = some p → p.tame = true
  | .nil, i, p, h1, h2 => by simp [Pats.get] at h2
  | .cons p0 ps, 0, p, h1, h2 => by
    simp only [Pats.get, Option.some.injEq] at h2; subst h2
    simp only [Pats.tame, Bool.and_eq_true] at h1
    exact h1.1
  | .cons p0 ps, i + 1, p, h1, h2 => by
    simp only [Pats.tame, Bool.and_eq_true] at h1
    simp only [Pats.get] at h2
    split at h1
    · exact tame_get ps i p h1.2 h2
    · rw [gaps_get ps i p h1.2 h2]; rfl

theorem get_size : ∀ (ps : Pats) (i : Nat) (p : Pat), ps.get i = some p → sizeOf p < sizeOf ps
  | .nil, i, p, h => by simp [Pats.get] at h
  | .cons p0 ps, 0, p, h => by
    simp only [Pats.get, Option.some.injEq] at h; subst h
    simp; omega
  | .cons p0 ps, i + 1, p, h => by
    have := get_size ps i p h
    simp; omega

/-- Two slots read the same, or lie within different constructors of one union. -/
def Agree (g : List Slot) (s : Slot) (g' : List Slot) (s' : Slot) : Prop :=
  s.load = s'.load ∨ ∃ x ∈ g, ∃ y ∈ g', x.path = y.path ∧ x.load = y.load ∧ x.pat ≠ y.pat

theorem Agree.symm {g : List Slot} {s : Slot} {g' : List Slot} {s' : Slot} (h : Agree g s g' s') : Agree g' s' g s := by
  rcases h with h | ⟨x, hx, y, hy, h1, h2, h3⟩
  · exact .inl h.symm
  · exact .inr ⟨y, hy, x, hx, h1.symm, h2.symm, h3.symm⟩

/-- A constant against a pattern of another form: the paths differ. -/
theorem cst_other {Γ : Defs} {p q : Pat} {l : Load} {π : List Nat} {g g' : List Slot} {s s' : Slot} {t : Ty} (h : In p l (π ++ [0]) g s)
    (hs : p.scalar = true) (ht : p.HasTy Γ t) (h' : In q l π g' s') (ht' : q.HasTy Γ t) (hq : ∀ q', q ≠ .cst q') (hq' : ∀ a b, q ≠ .lor a b)
    (he : s.path = s'.path) : False := by
  have hp := h.prefix
  cases h' with
  | lit =>
    rw [he] at hp
    have := hp.length_le
    simp only [atslot, List.length_append, List.length_singleton] at this
    omega
  | len =>
    have := scalar_deep h hs ht (fun a e => by simp only [Pat.HasTy] at ht'; rw [ht'] at e; cases e)
    rw [he] at this
    simp [atslot] at this
  | byte =>
    have := scalar_deep h hs ht (fun a e => by simp only [Pat.HasTy] at ht'; rw [ht'] at e; cases e)
    rw [he] at this
    simp [atslot] at this
  | tag0 =>
    obtain ⟨cs, e', _⟩ := ht'
    have := scalar_deep h hs ht (fun a e => by rw [e'] at e; cases e)
    rw [he] at this
    simp [tagslot] at this
  | tag =>
    obtain ⟨cs, u, e', _⟩ := ht'
    have := scalar_deep h hs ht (fun a e => by rw [e'] at e; cases e)
    rw [he] at this
    simp [tagslot] at this
  | data h' =>
    have h2 := h'.prefix
    rw [he] at hp
    have := prefix_snoc_inj hp h2
    omega
  | addr h' =>
    obtain ⟨u, e', _⟩ := ht'
    rcases scalar_ty p t hs ht with ⟨a, e⟩ | e | ⟨cs, e⟩ <;> rw [e'] at e <;> cases e
  | cst h' => exact hq _ rfl
  | elt _ h' =>
    obtain ⟨u, e', _⟩ := ht'
    rcases scalar_ty p t hs ht with ⟨a, e⟩ | e | ⟨cs, e⟩ <;> rw [e'] at e <;> cases e
  | orl h' => exact hq' _ _ rfl
  | orr h' => exact hq' _ _ rfl

theorem cross {Γ : Defs} : ∀ (n : Nat) (p q : Pat) (t : Ty) (l : Load) (π : List Nat) (g g' : List Slot) (s s' : Slot), sizeOf p + sizeOf q < n →
    p.tame = true → q.tame = true → p.HasTy Γ t → q.HasTy Γ t → In p l π g s → In q l π g' s' → s.path = s'.path → Agree g s g' s'
  | 0, _, _, _, _, _, _, _, _, _, hn, _, _, _, _, _, _, _ => by omega
  | n + 1, p, q, t, l, π, g, g', s, s', hn, hp, hq, htp, htq, hip, hiq, he => by
    -- alternatives first
    cases hip with
    | @orl a b _ _ _ _ h =>
      simp only [Pat.tame, Bool.and_eq_true] at hp
      exact cross n a q t l π g g' s s' (by simp at hn; omega) hp.1 hq htp.1 htq h hiq he
    | @orr a b _ _ _ _ h =>
      simp only [Pat.tame, Bool.and_eq_true] at hp
      exact cross n b q t l π g g' s s' (by simp at hn; omega) hp.2 hq htp.2 htq h hiq he
    | @cst p _ _ _ _ h =>
      simp only [Pat.tame, Bool.and_eq_true] at hp
      cases hiq with
      | @orl a b _ _ _ _ h' =>
        simp only [Pat.tame, Bool.and_eq_true] at hq
        exact cross n (.cst p) a t l π g g' s s' (by simp at hn ⊢; omega) (by simp [Pat.tame, hp]) hq.1 htp htq.1 (.cst h) h' he
      | @orr a b _ _ _ _ h' =>
        simp only [Pat.tame, Bool.and_eq_true] at hq
        exact cross n (.cst p) b t l π g g' s s' (by simp at hn ⊢; omega) (by simp [Pat.tame, hp]) hq.2 htp htq.2 (.cst h) h' he
      | @cst q _ _ _ _ h' =>
        simp only [Pat.tame, Bool.and_eq_true] at hq
        exact cross n p q t l (π ++ [0]) g g' s s' (by simp at hn; omega) hp.2 hq.2 htp.1 htq.1 h h' he
      | lit => exact (cst_other h hp.1 htp.1 .lit htq (fun _ k => nomatch k) (fun _ _ k => nomatch k) he).elim
      | len => exact (cst_other h hp.1 htp.1 .len htq (fun _ k => nomatch k) (fun _ _ k => nomatch k) he).elim
      | byte hj => exact (cst_other h hp.1 htp.1 (.byte hj) htq (fun _ k => nomatch k) (fun _ _ k => nomatch k) he).elim
      | tag0 => exact (cst_other h hp.1 htp.1 .tag0 htq (fun _ k => nomatch k) (fun _ _ k => nomatch k) he).elim
      | tag => exact (cst_other h hp.1 htp.1 .tag htq (fun _ k => nomatch k) (fun _ _ k => nomatch k) he).elim
      | data h' => exact (cst_other h hp.1 htp.1 (.data h') htq (fun _ k => nomatch k) (fun _ _ k => nomatch k) he).elim
      | addr h' => exact (cst_other h hp.1 htp.1 (.addr h') htq (fun _ k => nomatch k) (fun _ _ k => nomatch k) he).elim
      | elt e h' => exact (cst_other h hp.1 htp.1 (.elt e h') htq (fun _ k => nomatch k) (fun _ _ k => nomatch k) he).elim
    | @lit a =>
      cases hiq with
      | @orl a' b _ _ _ _ h' =>
        simp only [Pat.tame, Bool.and_eq_true] at hq
        exact cross n (.lit a) a' t l π _ g' _ s' (by simp at hn ⊢; omega) hp hq.1 htp htq.1 .lit h' he
      | @orr a' b _ _ _ _ h' =>
        simp only [Pat.tame, Bool.and_eq_true] at hq
        exact cross n (.lit a) b t l π _ g' _ s' (by simp at hn ⊢; omega) hp hq.2 htp htq.2 .lit h' he
      | @cst q _ _ _ _ h' =>
        simp only [Pat.tame, Bool.and_eq_true] at hq
        exact (cst_other h' hq.1 htq.1 .lit htp (fun _ k => nomatch k) (fun _ _ k => nomatch k) he.symm).elim
      | lit => exact .inl rfl
      | len => simp only [Pat.HasTy] at htp htq; rw [htp.1] at htq; cases htq
      | byte => simp only [Pat.HasTy] at htp htq; rw [htp.1] at htq; cases htq
      | tag0 => obtain ⟨cs, e, _⟩ := htq; rw [htp.1] at e; cases e
      | tag => obtain ⟨cs, u, e, _⟩ := htq; rw [htp.1] at e; cases e
      | data h' => obtain ⟨cs, u, e, _⟩ := htq; rw [htp.1] at e; cases e
      | addr h' => obtain ⟨u, e, _⟩ := htq; rw [htp.1] at e; cases e
      | elt _ h' => obtain ⟨u, e, _⟩ := htq; rw [htp.1] at e; cases e
    | @len b =>
      simp only [Pat.HasTy] at htp
      cases hiq with
      | @orl a' b' _ _ _ _ h' =>
        simp only [Pat.tame, Bool.and_eq_true] at hq
        exact cross n (.str b) a' t l π _ g' _ s' (by simp at hn ⊢; omega) hp hq.1 htp htq.1 .len h' he
      | @orr a' b' _ _ _ _ h' =>
        simp only [Pat.tame, Bool.and_eq_true] at hq
        exact cross n (.str b) b' t l π _ g' _ s' (by simp at hn ⊢; omega) hp hq.2 htp htq.2 .len h' he
      | @cst q _ _ _ _ h' =>
        simp only [Pat.tame, Bool.and_eq_true] at hq
        exact (cst_other h' hq.1 htq.1 (.len (s := b)) htp (fun _ k => nomatch k) (fun _ _ k => nomatch k) he.symm).elim
      | lit => simp only [Pat.HasTy] at htq; rw [htp] at htq; cases htq.1
      | len => exact .inl rfl
      | byte => simp only [atslot, List.append_cancel_left_eq, List.cons.injEq, and_true] at he; omega
      | tag0 => obtain ⟨cs, e, _⟩ := htq; rw [htp] at e; cases e
      | tag => obtain ⟨cs, u, e, _⟩ := htq; rw [htp] at e; cases e
      | data h' => obtain ⟨cs, u, e, _⟩ := htq; rw [htp] at e; cases e
      | addr h' => obtain ⟨u, e, _⟩ := htq; rw [htp] at e; cases e
      | elt _ h' => obtain ⟨u, e, _⟩ := htq; rw [htp] at e; cases e
    | @byte b _ _ j c hj =>
      simp only [Pat.HasTy] at htp
      cases hiq with
      | @orl a' b' _ _ _ _ h' =>
        simp only [Pat.tame, Bool.and_eq_true] at hq
        exact cross n (.str b) a' t l π _ g' _ s' (by simp at hn ⊢; omega) hp hq.1 htp htq.1 (.byte hj) h' he
      | @orr a' b' _ _ _ _ h' =>
        simp only [Pat.tame, Bool.and_eq_true] at hq
        exact cross n (.str b) b' t l π _ g' _ s' (by simp at hn ⊢; omega) hp hq.2 htp htq.2 (.byte hj) h' he
      | @cst q _ _ _ _ h' =>
        simp only [Pat.tame, Bool.and_eq_true] at hq
        exact (cst_other h' hq.1 htq.1 (In.byte (b := c) hj) htp (fun _ k => nomatch k) (fun _ _ k => nomatch k) he.symm).elim
      | lit => simp only [Pat.HasTy] at htq; rw [htp] at htq; cases htq.1
      | len => simp only [atslot, List.append_cancel_left_eq, List.cons.injEq, and_true] at he; omega
      | byte =>
        simp only [atslot, List.append_cancel_left_eq, List.cons.injEq, and_true] at he
        exact .inl (by simp [atslot]; omega)
      | tag0 => obtain ⟨cs, e, _⟩ := htq; rw [htp] at e; cases e
      | tag => obtain ⟨cs, u, e, _⟩ := htq; rw [htp] at e; cases e
      | data h' => obtain ⟨cs, u, e, _⟩ := htq; rw [htp] at e; cases e
      | addr h' => obtain ⟨u, e, _⟩ := htq; rw [htp] at e; cases e
      | elt _ h' => obtain ⟨u, e, _⟩ := htq; rw [htp] at e; cases e
    | @tag0 m i =>
      cases hiq with
      | @orl a' b _ _ _ _ h' =>
        simp only [Pat.tame, Bool.and_eq_true] at hq
        exact cross n (.ucon0 m i) a' t l π _ g' _ s' (by simp at hn ⊢; omega) hp hq.1 htp htq.1 .tag0 h' he
      | @orr a' b _ _ _ _ h' =>
        simp only [Pat.tame, Bool.and_eq_true] at hq
        exact cross n (.ucon0 m i) b t l π _ g' _ s' (by simp at hn ⊢; omega) hp hq.2 htp htq.2 .tag0 h' he
      | @cst q _ _ _ _ h' =>
        simp only [Pat.tame, Bool.and_eq_true] at hq
        exact (cst_other h' hq.1 htq.1 (.tag0 (n := m) (t := i)) htp (fun _ k => nomatch k) (fun _ _ k => nomatch k) he.symm).elim
      | lit => obtain ⟨cs, e, _⟩ := htp; rw [htq.1] at e; cases e
      | len => obtain ⟨cs, e, _⟩ := htp; simp only [Pat.HasTy] at htq; rw [htq] at e; cases e
      | byte => obtain ⟨cs, e, _⟩ := htp; simp only [Pat.HasTy] at htq; rw [htq] at e; cases e
      | tag0 => exact .inl rfl
      | tag => exact .inl rfl
      | data h' =>
        have h2 := h'.prefix
        rw [← he] at h2
        have := prefix_snoc_inj h2 (List.prefix_refl (π ++ [0]))
        omega
      | addr h' => obtain ⟨cs, e', _⟩ := htp; obtain ⟨u, e, _⟩ := htq; rw [e'] at e; cases e
      | elt _ h' => obtain ⟨cs, e', _⟩ := htp; obtain ⟨u, e, _⟩ := htq; rw [e'] at e; cases e
    | @tag m i p =>
      cases hiq with
      | @orl a' b _ _ _ _ h' =>
        simp only [Pat.tame, Bool.and_eq_true] at hq
        exact cross n (.ucon m i p) a' t l π _ g' _ s' (by simp at hn ⊢; omega) hp hq.1 htp htq.1 .tag h' he
      | @orr a' b _ _ _ _ h' =>
        simp only [Pat.tame, Bool.and_eq_true] at hq
        exact cross n (.ucon m i p) b t l π _ g' _ s' (by simp at hn ⊢; omega) hp hq.2 htp htq.2 .tag h' he
      | @cst q _ _ _ _ h' =>
        simp only [Pat.tame, Bool.and_eq_true] at hq
        exact (cst_other h' hq.1 htq.1 (.tag (n := m) (t := i) (p := p)) htp (fun _ k => nomatch k) (fun _ _ k => nomatch k) he.symm).elim
      | lit => obtain ⟨cs, u, e, _⟩ := htp; rw [htq.1] at e; cases e
      | len => obtain ⟨cs, u, e, _⟩ := htp; simp only [Pat.HasTy] at htq; rw [htq] at e; cases e
      | byte => obtain ⟨cs, u, e, _⟩ := htp; simp only [Pat.HasTy] at htq; rw [htq] at e; cases e
      | tag0 => exact .inl rfl
      | tag => exact .inl rfl
      | data h' =>
        have h2 := h'.prefix
        rw [← he] at h2
        have := prefix_snoc_inj h2 (List.prefix_refl (π ++ [0]))
        omega
      | addr h' => obtain ⟨cs, u, e', _⟩ := htp; obtain ⟨u, e, _⟩ := htq; rw [e'] at e; cases e
      | elt _ h' => obtain ⟨cs, u, e', _⟩ := htp; obtain ⟨u, e, _⟩ := htq; rw [e'] at e; cases e
    | @data m i p _ _ g s h =>
      cases hiq with
      | @orl a' b _ _ _ _ h' =>
        simp only [Pat.tame, Bool.and_eq_true] at hq
        exact cross n (.ucon m i p) a' t l π _ g' _ s' (by simp at hn ⊢; omega) hp hq.1 htp htq.1 (.data h) h' he
      | @orr a' b _ _ _ _ h' =>
        simp only [Pat.tame, Bool.and_eq_true] at hq
        exact cross n (.ucon m i p) b t l π _ g' _ s' (by simp at hn ⊢; omega) hp hq.2 htp htq.2 (.data h) h' he
      | @cst q _ _ _ _ h' =>
        simp only [Pat.tame, Bool.and_eq_true] at hq
        exact (cst_other h' hq.1 htq.1 (In.data (n := m) (t := i) h) htp (fun _ k => nomatch k) (fun _ _ k => nomatch k) he.symm).elim
      | lit => obtain ⟨cs, u, e, _⟩ := htp; rw [htq.1] at e; cases e
      | len => obtain ⟨cs, u, e, _⟩ := htp; simp only [Pat.HasTy] at htq; rw [htq] at e; cases e
      | byte => obtain ⟨cs, u, e, _⟩ := htp; simp only [Pat.HasTy] at htq; rw [htq] at e; cases e
      | tag0 =>
        have h2 := h.prefix
        rw [he] at h2
        have := prefix_snoc_inj h2 (List.prefix_refl (π ++ [0]))
        omega
      | tag =>
        have h2 := h.prefix
        rw [he] at h2
        have := prefix_snoc_inj h2 (List.prefix_refl (π ++ [0]))
        omega
      | @data m' i' p' _ _ g' s' h' =>
        by_cases ei : i = i'
        · subst ei
          obtain ⟨cs, u, e1, e2, e3, e4⟩ := htp
          obtain ⟨cs', u', e1', e2', e3', e4'⟩ := htq
          rw [e1] at e1'; cases e1'
          rw [e3] at e3'; cases e3'
          rcases cross n p p' u (.udata l) (π ++ [1]) g g' s s' (by simp at hn; omega) hp hq e4 e4' h h' he with k | ⟨x, hx, y, hy, k⟩
          · exact .inl k
          · exact .inr ⟨x, by simp [hx], y, by simp [hy], k⟩
        · exact .inr ⟨tagslot m i l π, by simp, tagslot m' i' l π, by simp, rfl, rfl, by simp [tagslot, ei]⟩
      | addr h' => obtain ⟨cs, u, e', _⟩ := htp; obtain ⟨u, e, _⟩ := htq; rw [e'] at e; cases e
      | elt _ h' => obtain ⟨cs, u, e', _⟩ := htp; obtain ⟨u, e, _⟩ := htq; rw [e'] at e; cases e
    | @addr p _ _ _ _ h =>
      cases hiq with
      | @orl a' b _ _ _ _ h' =>
        simp only [Pat.tame, Bool.and_eq_true] at hq
        exact cross n (.addr p) a' t l π _ g' _ s' (by simp at hn ⊢; omega) hp hq.1 htp htq.1 (.addr h) h' he
      | @orr a' b _ _ _ _ h' =>
        simp only [Pat.tame, Bool.and_eq_true] at hq
        exact cross n (.addr p) b t l π _ g' _ s' (by simp at hn ⊢; omega) hp hq.2 htp htq.2 (.addr h) h' he
      | @cst q _ _ _ _ h' =>
        simp only [Pat.tame, Bool.and_eq_true] at hq
        exact (cst_other h' hq.1 htq.1 (.addr h) htp (fun _ k => nomatch k) (fun _ _ k => nomatch k) he.symm).elim
      | lit => obtain ⟨u, e, _⟩ := htp; rw [htq.1] at e; cases e
      | len => obtain ⟨u, e, _⟩ := htp; simp only [Pat.HasTy] at htq; rw [htq] at e; cases e
      | byte => obtain ⟨u, e, _⟩ := htp; simp only [Pat.HasTy] at htq; rw [htq] at e; cases e
      | tag0 => obtain ⟨u, e', _⟩ := htp; obtain ⟨cs, e, _⟩ := htq; rw [e'] at e; cases e
      | tag => obtain ⟨u, e', _⟩ := htp; obtain ⟨cs, u, e, _⟩ := htq; rw [e'] at e; cases e
      | data h' => obtain ⟨u, e', _⟩ := htp; obtain ⟨cs, u, e, _⟩ := htq; rw [e'] at e; cases e
      | @addr p' _ _ _ _ h' =>
        obtain ⟨u, e1, e2⟩ := htp
        obtain ⟨u', e1', e2'⟩ := htq
        rw [e1] at e1'; cases e1'
        exact cross n p p' u _ _ g g' s s' (by simp at hn; omega) hp hq e2 e2' h h' he
      | elt _ h' => obtain ⟨u, e', _⟩ := htp; obtain ⟨u, e, _⟩ := htq; rw [e'] at e; cases e
    | @elt k ps i p _ _ _ _ hg h =>
      cases hiq with
      | @orl a' b _ _ _ _ h' =>
        simp only [Pat.tame, Bool.and_eq_true] at hq
        exact cross n (.agg k ps) a' t l π _ g' _ s' (by simp at hn ⊢; omega) hp hq.1 htp htq.1 (.elt hg h) h' he
      | @orr a' b _ _ _ _ h' =>
        simp only [Pat.tame, Bool.and_eq_true] at hq
        exact cross n (.agg k ps) b t l π _ g' _ s' (by simp at hn ⊢; omega) hp hq.2 htp htq.2 (.elt hg h) h' he
      | @cst q _ _ _ _ h' =>
        simp only [Pat.tame, Bool.and_eq_true] at hq
        exact (cst_other h' hq.1 htq.1 (In.elt hg h) htp (fun _ k => nomatch k) (fun _ _ k => nomatch k) he.symm).elim
      | lit => obtain ⟨u, e, _⟩ := htp; rw [htq.1] at e; cases e
      | len => obtain ⟨u, e, _⟩ := htp; simp only [Pat.HasTy] at htq; rw [htq] at e; cases e
      | byte => obtain ⟨u, e, _⟩ := htp; simp only [Pat.HasTy] at htq; rw [htq] at e; cases e
      | tag0 => obtain ⟨u, e', _⟩ := htp; obtain ⟨cs, e, _⟩ := htq; rw [e'] at e; cases e
      | tag => obtain ⟨u, e', _⟩ := htp; obtain ⟨cs, u, e, _⟩ := htq; rw [e'] at e; cases e
      | data h' => obtain ⟨u, e', _⟩ := htp; obtain ⟨cs, u, e, _⟩ := htq; rw [e'] at e; cases e
      | addr h' => obtain ⟨u, e', _⟩ := htp; obtain ⟨u, e, _⟩ := htq; rw [e'] at e; cases e
      | @elt k' ps' i' p' _ _ _ _ hg' h' =>
        obtain ⟨ts, e1, e2⟩ := htp
        obtain ⟨ts', e1', e2'⟩ := htq
        rw [e1] at e1'; cases e1'
        have h1 := h.prefix
        have h2 := h'.prefix
        rw [← he] at h2
        have := prefix_snoc_inj h1 h2; subst this
        obtain ⟨u, hu1, hu2⟩ := pats_get ps ps' ts i p p' e2 e2' hg hg'
        have z1 := get_size ps i p hg
        have z2 := get_size ps' i p' hg'
        exact cross n p p' u _ _ g g' s s' (by simp at hn; omega) (tame_get ps i p hp hg) (tame_get ps' i p' hq hg') hu1 hu2 h h' he

end Verif.Match
