import Verif.Match.Spec

/-!
# Lemmas: the rows of a pattern
-/

namespace Verif.Match

open Verif

/-- The row without slots. -/
def e0 : Row := ⟨0, [], [], false, 0⟩

/-- Add the slots and captures of `a` to those of `r`. -/
def Row.app (r a : Row) : Row := { r with slots := r.slots ++ a.slots, cap := r.cap ++ a.cap, hasor := r.hasor || a.hasor }

theorem app_e0 (r : Row) : r.app e0 = r := by simp [Row.app, e0]

theorem app_assoc (r a b : Row) : (r.app a).app b = r.app (a.app b) := by simp [Row.app, Bool.or_assoc]

theorem addbytes_slots (fs : Row) (l : Load) (path : List Nat) (i : Nat) (s : List Byte) :
    addbytes fs l path i s = fs.app (addbytes e0 l path i s) := by
  induction s generalizing fs i with
  | nil => simp [addbytes, app_e0]
  | cons b bs ih =>
    simp only [addbytes]
    rw [ih, ih (Row.slot e0 _), ← app_assoc]
    congr 1
    simp [Row.slot, Row.app, e0]

mutual
theorem addrec_app : ∀ (p : Pat) (fs : Row) (l : Load) (π : List Nat),
    addrec fs p l π = (fs.app (addrec e0 p l π).1, (addrec e0 p l π).2.map fs.app)
  | .gap, fs, l, π => by simp [addrec, Row.slot, Row.app, e0]
  | .var d, fs, l, π => by simp [addrec, Row.app, e0]
  | .cst p, fs, l, π => by simp only [addrec]; exact addrec_app p fs l _
  | .lit a, fs, l, π => by simp [addrec, Row.slot, Row.app, e0]
  | .str s, fs, l, π => by
    simp only [addrec, List.map_nil, Prod.mk.injEq, and_true]
    rw [addbytes_slots, addbytes_slots (Row.slot e0 _), ← app_assoc]
    congr 1
    simp [Row.slot, Row.app, e0]
  | .addr p, fs, l, π => by simp only [addrec]; exact addrec_app p fs _ _
  | .ucon0 n t, fs, l, π => by simp [addrec, Row.slot, Row.app, e0]
  | .ucon n t p, fs, l, π => by
    simp only [addrec]
    rw [addrec_app p (fs.slot _), addrec_app p (Row.slot e0 _)]
    have : ∀ s a, (fs.slot s).app a = fs.app ((e0.slot s).app a) := by intro s a; simp [Row.slot, Row.app, e0]
    simp [this]
  | .agg k ps, fs, l, π => by simp only [addrec]; exact addlist_app k ps fs l π 0
  | .lor a b, fs, l, π => by
    simp only [addrec]
    rw [addrec_app a { fs with hasor := true }, addrec_app b { fs with hasor := true }, addrec_app a { e0 with hasor := true },
      addrec_app b { e0 with hasor := true }]
    have : ({ fs with hasor := true } : Row).app = fs.app ∘ ({ e0 with hasor := true } : Row).app := by
      funext a; simp [Row.app, e0]
    rw [this]
    simp

theorem addlist_app : ∀ (k : Agg) (ps : Pats) (fs : Row) (l : Load) (π : List Nat) (i : Nat),
    addlist fs k ps l π i = (fs.app (addlist e0 k ps l π i).1, (addlist e0 k ps l π i).2.map fs.app)
  | k, .nil, fs, l, π, i => by simp [addlist, app_e0]
  | k, .cons p ps, fs, l, π, i => by
    simp only [addlist]
    rw [addrec_app p fs, addlist_app k ps (fs.app _), addlist_app k ps (addrec e0 p _ _).1]
    simp [app_assoc]
end

/-- All rows of a pattern. -/
def rowsof (p : Pat) (l : Load) (π : List Nat) : List Row := (addrec e0 p l π).1 :: (addrec e0 p l π).2

/-- All rows of a list of patterns. -/
def rowsofl (k : Agg) (ps : Pats) (l : Load) (π : List Nat) (i : Nat) : List Row := (addlist e0 k ps l π i).1 :: (addlist e0 k ps l π i).2

theorem rowsof_cst (p : Pat) (l : Load) (π : List Nat) : rowsof (.cst p) l π = rowsof p l (π ++ [0]) := by simp [rowsof, addrec]
theorem rowsof_addr (p : Pat) (l : Load) (π : List Nat) : rowsof (.addr p) l π = rowsof p (.deref l) (π ++ [0]) := by simp [rowsof, addrec]
theorem rowsof_agg (k : Agg) (ps : Pats) (l : Load) (π : List Nat) : rowsof (.agg k ps) l π = rowsofl k ps l π 0 := by simp [rowsof, rowsofl, addrec]

/-- The slot of a union tag. -/
def tagslot (n t : Nat) (l : Load) (π : List Nat) : Slot := ⟨π ++ [0], some ⟨.int 32, t⟩, .utag l, n⟩

theorem rowsof_ucon (n t : Nat) (p : Pat) (l : Load) (π : List Nat) :
    rowsof (.ucon n t p) l π = (rowsof p (.udata l) (π ++ [1])).map (e0.slot (tagslot n t l π)).app := by
  simp only [rowsof, addrec, List.map_cons]
  rw [addrec_app]
  rfl

theorem rowsof_lor (a b : Pat) (l : Load) (π : List Nat) :
    rowsof (.lor a b) l π = (rowsof a l π ++ rowsof b l π).map ({ e0 with hasor := true } : Row).app := by
  simp only [rowsof, addrec, List.map_cons, List.map_append, List.cons_append]
  rw [addrec_app a, addrec_app b]

theorem rowsofl_cons (k : Agg) (p : Pat) (ps : Pats) (l : Load) (π : List Nat) (i : Nat) :
    rowsofl k (.cons p ps) l π i =
      (rowsofl k ps l π (i + 1)).map (addrec e0 p (.elt k l i) (π ++ [i])).1.app ++ (addrec e0 p (.elt k l i) (π ++ [i])).2 := by
  simp only [rowsofl, addlist, List.map_cons, List.cons_append]
  rw [addlist_app]

theorem rowsofl_nil (k : Agg) (l : Load) (π : List Nat) (i : Nat) : rowsofl k .nil l π i = [e0] := by simp [rowsofl, addlist]

mutual
theorem orfree_one : ∀ (p : Pat) (l : Load) (π : List Nat), p.orfree = true → (addrec e0 p l π).2 = [] ∧ (addrec e0 p l π).1.hasor = false
  | .gap, l, π, _ => by simp [addrec, Row.slot, e0]
  | .var d, l, π, _ => by simp [addrec, e0]
  | .cst p, l, π, h => by simp only [addrec]; exact orfree_one p l _ h
  | .lit a, l, π, _ => by simp [addrec, Row.slot, e0]
  | .str s, l, π, _ => by
    simp only [addrec, true_and]
    have : ∀ (s : List Byte) (r : Row) i, (addbytes r l π i s).hasor = r.hasor := by
      intro s
      induction s with
      | nil => intro r i; rfl
      | cons b bs ih => intro r i; simp only [addbytes]; rw [ih]; rfl
    rw [this]; rfl
  | .addr p, l, π, h => by simp only [addrec]; exact orfree_one p _ _ h
  | .ucon0 n t, l, π, _ => by simp [addrec, Row.slot, e0]
  | .ucon n t p, l, π, h => by
    simp only [addrec]
    rw [addrec_app]
    have := orfree_one p (.udata l) (π ++ [1]) h
    simp only [this, Row.app, Row.slot, List.map_nil, true_and, Bool.or_false]
    rfl
  | .agg k ps, l, π, h => by simp only [addrec]; exact orfree_onel k ps l π 0 h
  | .lor a b, l, π, h => by simp [Pat.orfree] at h

theorem orfree_onel : ∀ (k : Agg) (ps : Pats) (l : Load) (π : List Nat) (i : Nat), ps.orfree = true →
    (addlist e0 k ps l π i).2 = [] ∧ (addlist e0 k ps l π i).1.hasor = false
  | k, .nil, l, π, i, _ => by simp [addlist, e0]
  | k, .cons p ps, l, π, i, h => by
    simp only [Pats.orfree, Bool.and_eq_true] at h
    simp only [addlist]
    rw [addlist_app]
    have h1 := orfree_one p (.elt k l i) (π ++ [i]) h.1
    have h2 := orfree_onel k ps l π (i + 1) h.2
    simp [h1, h2, Row.app]
end

/-! ## What rows mean -/

/-- The value agrees with a slot. -/
def holds (v : Val) (s : Slot) : Prop := ∀ a, s.pat = some a → s.load.eval v = some (.atom a)

/-- The value agrees with all slots of a row. -/
def Row.sat (v : Val) (r : Row) : Prop := ∀ s ∈ r.slots, holds v s

theorem sat_app (v : Val) (r a : Row) : (r.app a).sat v ↔ r.sat v ∧ a.sat v := by
  simp only [Row.sat, Row.app, List.mem_append]
  constructor
  · intro h; exact ⟨fun s hs => h s (.inl hs), fun s hs => h s (.inr hs)⟩
  · rintro ⟨h1, h2⟩ s (hs | hs)
    · exact h1 s hs
    · exact h2 s hs

theorem sat_e0 (v : Val) : e0.sat v := by simp [Row.sat, e0]

/-- The values captured. -/
def capval (v : Val) : List (Nat × Load) → Option (List (Nat × Val))
  | [] => some []
  | c :: cs => match c.2.eval v, capval v cs with
    | some w, some r => some ((c.1, w) :: r)
    | _, _ => none

/-- Join two results. -/
def cat : Option (List (Nat × Val)) → Option (List (Nat × Val)) → Option (List (Nat × Val))
  | some a, some b => some (a ++ b)
  | _, _ => none

theorem capval_append (v : Val) (a b : List (Nat × Load)) : capval v (a ++ b) = cat (capval v a) (capval v b) := by
  induction a with
  | nil => simp [capval, cat]; cases capval v b <;> rfl
  | cons c cs ih =>
    simp only [List.cons_append, capval, ih]
    cases c.2.eval v <;> cases capval v cs <;> cases capval v b <;> simp [cat]

open Classical in
/-- The first row the value agrees with, and what it captures. -/
noncomputable def firstsat (v : Val) (rs : List Row) : Option Row := rs.find? fun r => decide (r.sat v)

/-- What the first row captures. -/
noncomputable def outcome (v : Val) (rs : List Row) : Option (Option (List (Nat × Val))) := (firstsat v rs).map fun r => capval v r.cap

theorem firstsat_cons_pos {v : Val} {r : Row} {rs : List Row} (h : r.sat v) : firstsat v (r :: rs) = some r := by simp [firstsat, h]
theorem firstsat_cons_neg {v : Val} {r : Row} {rs : List Row} (h : ¬ r.sat v) : firstsat v (r :: rs) = firstsat v rs := by simp [firstsat, h]

theorem outcome_cons_pos {v : Val} {r : Row} {rs : List Row} (h : r.sat v) : outcome v (r :: rs) = some (capval v r.cap) := by
  simp [outcome, firstsat_cons_pos h]
theorem outcome_cons_neg {v : Val} {r : Row} {rs : List Row} (h : ¬ r.sat v) : outcome v (r :: rs) = outcome v rs := by
  simp [outcome, firstsat_cons_neg h]

theorem outcome_append (v : Val) (a b : List Row) : outcome v (a ++ b) = (outcome v a).or (outcome v b) := by
  simp only [outcome, firstsat, List.find?_append]
  cases List.find? _ a <;> simp

theorem outcome_app_pos {v : Val} {x : Row} (h : x.sat v) (rs : List Row) : outcome v (rs.map x.app) = (outcome v rs).map (cat (capval v x.cap)) := by
  induction rs with
  | nil => simp [outcome, firstsat]
  | cons r rs ih =>
    by_cases hr : r.sat v
    · rw [List.map_cons, outcome_cons_pos ((sat_app v x r).2 ⟨h, hr⟩), outcome_cons_pos hr]
      simp [Row.app, capval_append]
    · rw [List.map_cons, outcome_cons_neg (fun k => hr ((sat_app v x r).1 k).2), outcome_cons_neg hr, ih]

theorem outcome_app_neg {v : Val} {x : Row} (h : ¬ x.sat v) (rs : List Row) : outcome v (rs.map x.app) = none := by
  induction rs with
  | nil => simp [outcome, firstsat]
  | cons r rs ih => rw [List.map_cons, outcome_cons_neg (fun k => h ((sat_app v x r).1 k).1), ih]

/-! ## Guards -/

/-- Each test can be made once those before it succeeded. -/
def Guard (v : Val) : List Slot → Prop
  | [] => True
  | s :: ss => (s.pat ≠ none → ∃ a, s.load.eval v = some (.atom a)) ∧ (holds v s → Guard v ss)

theorem guard_append (v : Val) (a b : List Slot) : Guard v (a ++ b) ↔ Guard v a ∧ ((∀ s ∈ a, holds v s) → Guard v b) := by
  induction a with
  | nil => simp [Guard]
  | cons s ss ih =>
    simp only [List.cons_append, Guard, ih, List.mem_cons, forall_eq_or_imp]
    tauto

theorem guard_sub {v : Val} {a : List Slot} (h : Guard v a) (s : Slot) (pre post : List Slot) (ha : a = pre ++ s :: post)
    (hp : ∀ t ∈ pre, holds v t) (hs : s.pat ≠ none) : ∃ a, s.load.eval v = some (.atom a) := by
  subst ha
  rw [guard_append] at h
  exact (h.2 hp).1 hs

/-! ## Strings -/

/-- The slots of the bytes of a string. -/
def bslots (l : Load) (π : List Nat) : Nat → List Byte → List Slot
  | _, [] => []
  | i, b :: bs => atslot (π ++ [1 + i]) ⟨.int 8, b.toNat⟩ (.elt .arr l i) :: bslots l π (i + 1) bs

theorem addbytes_eq (l : Load) (π : List Nat) (s : List Byte) (r : Row) (i : Nat) :
    addbytes r l π i s = { r with slots := r.slots ++ bslots l π i s } := by
  induction s generalizing i r with
  | nil => simp [addbytes, bslots]
  | cons b bs ih => simp [addbytes, bslots, ih, Row.slot]

theorem mem_bslots {l : Load} {π : List Nat} {s : List Byte} {i : Nat} {x : Slot} (h : x ∈ bslots l π i s) :
    ∃ j b, i ≤ j ∧ s[j - i]? = some b ∧ x = atslot (π ++ [1 + j]) ⟨.int 8, b.toNat⟩ (.elt .arr l j) := by
  induction s generalizing i with
  | nil => simp [bslots] at h
  | cons c cs ih =>
    simp only [bslots, List.mem_cons] at h
    rcases h with h | h
    · exact ⟨i, c, Nat.le_refl _, by simp, h⟩
    · obtain ⟨j, b, h1, h2, h3⟩ := ih h
      refine ⟨j, b, by omega, ?_, h3⟩
      have : j - i = (j - (i + 1)) + 1 := by omega
      rw [this]
      simpa using h2

/-- The slots of a string. -/
def sslots (l : Load) (π : List Nat) (s : List Byte) : List Slot := atslot (π ++ [0]) ⟨.int 64, s.length⟩ (.len l) :: bslots l π 0 s

theorem rowsof_str (s : List Byte) (l : Load) (π : List Nat) : rowsof (.str s) l π = [⟨0, sslots l π s, [], false, 0⟩] := by
  simp [rowsof, addrec, addbytes_eq, Row.slot, e0, sslots]

theorem holds_bslots {v : Val} {l : Load} {π : List Nat} {s' : List Byte} (hl : l.eval v = some (.bytes s')) (s : List Byte) (i : Nat) :
    (∀ x ∈ bslots l π i s, holds v x) ↔ ∀ j, (h : j < s.length) → s'[i + j]? = some s[j] := by
  induction s generalizing i with
  | nil => simp [bslots]
  | cons c cs ih =>
    simp only [bslots, List.mem_cons, forall_eq_or_imp, ih]
    have h0 : holds v (atslot (π ++ [1 + i]) ⟨.int 8, c.toNat⟩ (.elt .arr l i)) ↔ s'[i]? = some c := by
      simp only [holds, atslot, Option.some.injEq, forall_eq', Load.eval, hl, ite_true, Option.map_eq_some_iff, Val.atom.injEq, Atom.mk.injEq, true_and]
      constructor
      · rintro ⟨b, h1, h2⟩
        rw [h1, BitVec.eq_of_toNat_eq h2]
      · intro h; exact ⟨c, h, rfl⟩
    rw [h0]
    constructor
    · rintro ⟨h1, h2⟩ j hj
      cases j with
      | zero => simpa using h1
      | succ j =>
        have := h2 j (by simpa using hj)
        rw [show i + (j + 1) = i + 1 + j by omega]
        simpa using this
    · intro h
      refine ⟨h 0 (by simp), fun j hj => ?_⟩
      have := h (j + 1) (by simpa using hj)
      rw [show i + (j + 1) = i + 1 + j by omega] at this
      simpa using this

theorem guard_bslots {v : Val} {l : Load} {π : List Nat} {s' : List Byte} (hl : l.eval v = some (.bytes s')) (s : List Byte) (i : Nat)
    (hlen : i + s.length ≤ s'.length) : Guard v (bslots l π i s) := by
  induction s generalizing i with
  | nil => simp [bslots, Guard]
  | cons c cs ih =>
    simp only [bslots, Guard]
    simp only [List.length_cons] at hlen
    refine ⟨fun _ => ?_, fun _ => ih (i + 1) (by omega)⟩
    refine ⟨⟨.int 8, (s'[i]'(by omega)).toNat⟩, ?_⟩
    simp [atslot, Load.eval, hl, List.getElem?_eq_getElem (show i < s'.length by omega)]

theorem sat_str {v : Val} {l : Load} {s' : List Byte} (hl : l.eval v = some (.bytes s')) (s : List Byte) (π : List Nat) :
    (∀ x ∈ sslots l π s, holds v x) ↔ s = s' := by
  simp only [sslots, List.mem_cons, forall_eq_or_imp, holds_bslots hl]
  have h0 : holds v (atslot (π ++ [0]) ⟨.int 64, s.length⟩ (.len l)) ↔ s'.length = s.length := by
    simp [holds, atslot, Load.eval, hl]
  rw [h0]
  constructor
  · rintro ⟨h1, h2⟩
    apply List.ext_getElem h1.symm
    intro j hj hj'
    have := h2 j hj
    rw [Nat.zero_add, List.getElem?_eq_getElem hj'] at this
    exact (Option.some.inj this).symm
  · rintro rfl
    exact ⟨rfl, fun j hj => by rw [Nat.zero_add, List.getElem?_eq_getElem hj]⟩

/-! ## Rows and matching -/

theorem gaps_rows (k : Agg) (ps : Pats) (h : ps.gaps = true) (l : Load) (π : List Nat) (i : Nat) :
    (addlist e0 k ps l π i).2 = [] ∧ (addlist e0 k ps l π i).1.cap = [] ∧ ∀ s ∈ (addlist e0 k ps l π i).1.slots, s.pat = none := by
  match ps, h with
  | .nil, _ => simp [addlist, e0]
  | .cons .gap ps, h =>
    obtain ⟨h1, h2, h3⟩ := gaps_rows k ps h l π (i + 1)
    simp only [addlist, addrec]
    rw [addlist_app, h1]
    refine ⟨rfl, by simp only [Row.app, h2, Row.slot, List.append_nil]; rfl, ?_⟩
    intro s hs
    simp only [Row.app, Row.slot, List.mem_append] at hs
    rcases hs with (hs | hs) | hs
    · simp [e0] at hs
    · simp only [List.mem_singleton] at hs; subst hs; rfl
    · exact h3 s hs
  termination_by structural ps

theorem gaps_bind {Γ : Defs} : ∀ (ps : Pats) (ts : List Ty) (vs : List Val), ps.gaps = true → ps.HasTys Γ ts → HasVals Γ vs ts → ps.bind vs = some []
  | .nil, ts, vs, _, ht, hv => by
    cases hv with
    | nil => rfl
    | cons _ _ => simp [Pats.HasTys] at ht
  | .cons p ps, ts, vs, hg, ht, hv => by
    cases p <;> simp only [Pats.gaps, Bool.false_eq_true] at hg
    cases hv with
    | nil => simp [Pats.HasTys] at ht
    | cons hv1 hv2 =>
      simp only [Pats.HasTys] at ht
      simp [Pats.bind, Pat.bind, gaps_bind ps _ _ hg ht.2 hv2]

/-- What is shown of the rows of a pattern: each is guarded, and the first which fits captures what the pattern binds. -/
def RowsOk (v : Val) (rs : List Row) (b : Option (List (Nat × Val))) : Prop :=
  outcome v rs = b.map some ∧ ∀ r ∈ rs, Guard v r.slots

theorem outcome_one {v : Val} {r : Row} {b : Option (List (Nat × Val))} (h : outcome v [r] = b.map some) :
    (r.sat v → capval v r.cap = b ∧ b ≠ none) ∧ (¬ r.sat v → b = none) := by
  constructor
  · intro hr
    rw [outcome_cons_pos hr] at h
    cases b with
    | none => simp at h
    | some x => simpa using h
  · intro hr
    rw [outcome_cons_neg hr] at h
    cases b with
    | none => rfl
    | some x => simp [outcome, firstsat] at h

theorem hasvals_get {Γ : Defs} {vs : List Val} {ts : List Ty} (h : HasVals Γ vs ts) (i : Nat) (t : Ty) (ht : ts[i]? = some t) :
    ∃ v, vs[i]? = some v ∧ HasVal Γ v t := by
  induction vs generalizing ts i with
  | nil => cases h; simp at ht
  | cons w ws ih =>
    cases h with
    | cons h1 h2 =>
      cases i with
      | zero => simp only [List.getElem?_cons_zero, Option.some.injEq] at ht; subst ht; exact ⟨w, rfl, h1⟩
      | succ i => simpa using ih h2 i (by simpa using ht)

theorem outcome_map_id {v : Val} {x : Row} (h : x.sat v) (hc : x.cap = []) (rs : List Row) : outcome v (rs.map x.app) = outcome v rs := by
  rw [outcome_app_pos h, hc]
  simp only [capval]
  cases outcome v rs with
  | none => rfl
  | some c => cases c <;> rfl

mutual
theorem rows_ok {Γ : Defs} (v : Val) : ∀ (p : Pat) (t : Ty) (l : Load) (π : List Nat) (w : Val), p.tame = true → p.HasTy Γ t → HasVal Γ w t →
    l.eval v = some w → RowsOk v (rowsof p l π) (p.bind w)
  | .gap, t, l, π, w, _, _, _, _ => by
    have : (⟨0, [⟨π, none, l, 0⟩], [], false, 0⟩ : Row).sat v := by simp [Row.sat, holds]
    simp only [rowsof, addrec, Row.slot, e0, List.nil_append, Pat.bind]
    refine ⟨?_, ?_⟩
    · rw [outcome_cons_pos this]; rfl
    · simp [Guard]
  | .var d, t, l, π, w, _, _, _, hl => by
    have : (⟨0, [⟨π, none, l, 0⟩], [(d, l)], false, 0⟩ : Row).sat v := by simp [Row.sat, holds]
    simp only [rowsof, addrec, e0, List.nil_append, Pat.bind]
    refine ⟨?_, ?_⟩
    · rw [outcome_cons_pos this]; simp [capval, hl]
    · simp [Guard]
  | .cst p, t, l, π, w, hm, ht, hv, hl => by
    rw [rowsof_cst]
    simp only [Pat.tame, Bool.and_eq_true] at hm
    exact rows_ok v p t l _ w hm.2 ht.1 hv hl
  | .lit a, t, l, π, w, _, ht, hv, hl => by
    simp only [Pat.HasTy] at ht
    have hw : ∃ b, w = .atom b := by
      cases hv with
      | atom _ _ => exact ⟨_, rfl⟩
      | bytes h => rw [ht.1] at h; cases h
      | ref h _ => rw [ht.1] at h; cases h
      | union0 h _ => rw [ht.1] at h; cases h
      | union h _ _ => rw [ht.1] at h; cases h
      | agg h _ => rw [ht.1] at h; cases h
    obtain ⟨b, rfl⟩ := hw
    have hs : (⟨0, [atslot π a l], [], false, 0⟩ : Row).sat v ↔ a = b := by
      simp only [Row.sat, List.mem_singleton, forall_eq, holds, atslot, Option.some.injEq, forall_eq', hl, Val.atom.injEq]
      exact eq_comm
    simp only [rowsof, addrec, Row.slot, e0, List.nil_append, Pat.bind]
    refine ⟨?_, ?_⟩
    · by_cases h : a = b
      · rw [outcome_cons_pos (hs.2 h), if_pos h]; rfl
      · rw [outcome_cons_neg (fun k => h (hs.1 k)), if_neg h]; rfl
    · intro r hr
      simp only [List.mem_singleton] at hr; subst hr
      exact ⟨fun _ => ⟨b, hl⟩, fun _ => trivial⟩
  | .str s, t, l, π, w, _, ht, hv, hl => by
    simp only [Pat.HasTy] at ht
    have hw : ∃ b, w = .bytes b := by
      cases hv with
      | atom h _ => rw [ht] at h; cases h
      | bytes h => exact ⟨_, rfl⟩
      | ref h _ => rw [ht] at h; cases h
      | union0 h _ => rw [ht] at h; cases h
      | union h _ _ => rw [ht] at h; cases h
      | agg h _ => rw [ht] at h; cases h
    obtain ⟨s', rfl⟩ := hw
    rw [rowsof_str]
    have hs : (⟨0, sslots l π s, [], false, 0⟩ : Row).sat v ↔ s = s' := sat_str hl s π
    simp only [Pat.bind]
    refine ⟨?_, ?_⟩
    · by_cases h : s = s'
      · rw [outcome_cons_pos (hs.2 h), if_pos h]; rfl
      · rw [outcome_cons_neg (fun k => h (hs.1 k)), if_neg h]; rfl
    · intro r hr
      simp only [List.mem_singleton] at hr; subst hr
      refine ⟨fun _ => ⟨⟨.int 64, s'.length⟩, by simp [atslot, Load.eval, hl]⟩, fun h => ?_⟩
      apply guard_bslots hl
      simp only [holds, atslot, Option.some.injEq, forall_eq', Load.eval, hl, Val.atom.injEq, Atom.mk.injEq, true_and] at h
      omega
  | .addr p, t, l, π, w, hm, ht, hv, hl => by
    obtain ⟨u, hu, hp⟩ := ht
    rw [rowsof_addr]
    cases hv with
    | atom h _ => rw [hu] at h; cases h
    | bytes h => rw [hu] at h; cases h
    | ref h hv =>
      rw [hu] at h; cases h
      exact rows_ok v p u _ _ _ hm hp hv (by simp [Load.eval, hl])
    | union0 h _ => rw [hu] at h; cases h
    | union h _ _ => rw [hu] at h; cases h
    | agg h _ => rw [hu] at h; cases h
  | .ucon0 n i, t, l, π, w, _, ht, hv, hl => by
    obtain ⟨cs, hu, hn, hi⟩ := ht
    simp only [rowsof, addrec, Row.slot, e0, List.nil_append]
    have key : ∃ j, (Load.utag l).eval v = some (.atom ⟨.int 32, j⟩) ∧ (Pat.ucon0 n i).bind w = if i = j then some [] else none := by
      cases hv with
      | atom h _ => rw [hu] at h; cases h
      | bytes h => rw [hu] at h; cases h
      | ref h hv => rw [hu] at h; cases h
      | @union0 j _ _ h hj => exact ⟨j, by simp [Load.eval, hl], by simp [Pat.bind]⟩
      | @union j _ _ _ _ h hj hv =>
        rw [hu] at h; cases h
        refine ⟨j, by simp [Load.eval, hl], ?_⟩
        have : i ≠ j := by rintro rfl; rw [hi] at hj; cases hj
        simp [Pat.bind, this]
      | agg h _ => rw [hu] at h; cases h
    obtain ⟨j, h1, h2⟩ := key
    have hs : (⟨0, [⟨π ++ [0], some ⟨.int 32, i⟩, .utag l, n⟩], [], false, 0⟩ : Row).sat v ↔ i = j := by
      simp only [Row.sat, List.mem_singleton, forall_eq, holds, Option.some.injEq, forall_eq', h1, Val.atom.injEq, Atom.mk.injEq, true_and]
      exact eq_comm
    rw [h2]
    refine ⟨?_, ?_⟩
    · by_cases h : i = j
      · rw [outcome_cons_pos (hs.2 h), if_pos h]; rfl
      · rw [outcome_cons_neg (fun k => h (hs.1 k)), if_neg h]; rfl
    · intro r hr
      simp only [List.mem_singleton] at hr; subst hr
      exact ⟨fun _ => ⟨_, h1⟩, fun _ => trivial⟩
  | .ucon n i p, t, l, π, w, hm, ht, hv, hl => by
    obtain ⟨cs, u, hu, hn, hi, hp⟩ := ht
    rw [rowsof_ucon]
    have key : ∃ j, (Load.utag l).eval v = some (.atom ⟨.int 32, j⟩) ∧
        ((i ≠ j ∧ (Pat.ucon n i p).bind w = none) ∨ (i = j ∧ ∃ w', w = .union i w' ∧ HasVal Γ w' u)) := by
      cases hv with
      | atom h _ => rw [hu] at h; cases h
      | bytes h => rw [hu] at h; cases h
      | ref h hv => rw [hu] at h; cases h
      | @union0 j _ _ h hj =>
        rw [hu] at h; cases h
        refine ⟨_, by simp [Load.eval, hl]; rfl, .inl ⟨?_, by simp [Pat.bind]⟩⟩
        rintro rfl; rw [hi] at hj; cases hj
      | @union j _ _ _ _ h hj hv =>
        rw [hu] at h; cases h
        refine ⟨j, by simp [Load.eval, hl], ?_⟩
        by_cases e : i = j
        · subst e; rw [hi] at hj; cases hj
          exact .inr ⟨rfl, _, rfl, hv⟩
        · exact .inl ⟨e, by simp [Pat.bind, e]⟩
      | agg h _ => rw [hu] at h; cases h
    obtain ⟨j, h1, h2⟩ := key
    have hs0 : holds v (tagslot n i l π) ↔ i = j := by
      simp only [holds, tagslot, Option.some.injEq, forall_eq', h1, Val.atom.injEq, Atom.mk.injEq, true_and]
      exact eq_comm
    have hs : (e0.slot (tagslot n i l π)).sat v ↔ i = j := by
      simp only [Row.sat, Row.slot, e0, List.nil_append, List.mem_singleton, forall_eq, hs0]
    have hg : ∀ r ∈ (rowsof p (.udata l) (π ++ [1])).map (e0.slot (tagslot n i l π)).app,
        (i = j → ∀ r ∈ rowsof p (.udata l) (π ++ [1]), Guard v r.slots) → Guard v r.slots := by
      intro r hr h
      obtain ⟨r', hr', rfl⟩ := List.mem_map.1 hr
      exact ⟨fun _ => ⟨_, h1⟩, fun k => h (hs0.1 k) r' hr'⟩
    rcases h2 with ⟨e, hb⟩ | ⟨e, w', hw, hv'⟩
    · rw [hb]
      exact ⟨outcome_app_neg (fun k => e (hs.1 k)) _, fun r hr => hg r hr (fun k => absurd k e)⟩
    · subst hw
      have ih := rows_ok v p u (.udata l) (π ++ [1]) w' hm hp hv' (by simp [Load.eval, hl])
      refine ⟨?_, fun r hr => hg r hr (fun _ => ih.2)⟩
      rw [outcome_map_id (hs.2 e) rfl]
      simpa [Pat.bind] using ih.1
  | .agg k ps, t, l, π, w, hm, ht, hv, hl => by
    obtain ⟨ts, hu, hp⟩ := ht
    rw [rowsof_agg]
    cases hv with
    | atom h _ => rw [hu] at h; cases h
    | bytes h => rw [hu] at h; cases h
    | ref h hv => rw [hu] at h; cases h
    | union0 h _ => rw [hu] at h; cases h
    | union h _ _ => rw [hu] at h; cases h
    | agg h hv =>
      rw [hu] at h; cases h
      have := rowsl_ok v k ps ts l π 0 _ hm hp hv (by simpa using hl)
      simpa [Pat.bind] using this
  | .lor a b, t, l, π, w, hm, ht, hv, hl => by
    rw [rowsof_lor]
    simp only [Pat.tame, Bool.and_eq_true] at hm
    have iha := rows_ok v a t l π w hm.1 ht.1 hv hl
    have ihb := rows_ok v b t l π w hm.2 ht.2 hv hl
    have hs : ({ e0 with hasor := true } : Row).sat v := by simp [Row.sat, e0]
    refine ⟨?_, ?_⟩
    · rw [outcome_map_id hs rfl, outcome_append, iha.1, ihb.1]
      simp only [Pat.bind]
      cases a.bind w <;> cases b.bind w <;> rfl
    · intro r hr
      obtain ⟨r', hr', rfl⟩ := List.mem_map.1 hr
      simp only [Row.app, e0, List.nil_append]
      rcases List.mem_append.1 hr' with h | h
      · exact iha.2 r' h
      · exact ihb.2 r' h

theorem rowsl_ok {Γ : Defs} (v : Val) (k : Agg) : ∀ (ps : Pats) (ts : List Ty) (l : Load) (π : List Nat) (i : Nat) (vs : List Val), ps.tame = true →
    ps.HasTys Γ ts → HasVals Γ vs ts → (∃ pre, pre.length = i ∧ l.eval v = some (.agg k (pre ++ vs))) → RowsOk v (rowsofl k ps l π i) (ps.bind vs)
  | .nil, ts, l, π, i, vs, _, ht, hv, _ => by
    cases hv with
    | nil =>
      rw [rowsofl_nil]
      refine ⟨?_, ?_⟩
      · rw [outcome_cons_pos (sat_e0 v)]; rfl
      · intro r hr
        simp only [List.mem_singleton] at hr; subst hr; trivial
    | cons _ _ => simp [Pats.HasTys] at ht
  | .cons p ps, ts, l, π, i, vs, hm, ht, hv, hl => by
    cases hv with
    | nil => simp [Pats.HasTys] at ht
    | @cons w ws t ts hv1 hv2 =>
      obtain ⟨pre, hpre, hl⟩ := hl
      simp only [Pats.HasTys] at ht
      simp only [Pats.tame, Bool.and_eq_true] at hm
      have ih := rows_ok v p t (.elt k l i) (π ++ [i]) w hm.1 ht.1 hv1 (by simp [Load.eval, hl, ← hpre])
      rw [rowsofl_cons]
      by_cases ho : p.orfree = true
      · rw [if_pos ho] at hm
        have h2 := (orfree_one p (.elt k l i) (π ++ [i]) ho).1
        have ihs := rowsl_ok v k ps ts l π (i + 1) ws hm.2 ht.2 hv2 ⟨pre ++ [w], by simp [hpre], by simpa using hl⟩
        rw [rowsof, h2] at ih
        rw [h2, List.append_nil]
        have ho := outcome_one ih.1
        refine ⟨?_, ?_⟩
        · by_cases hs : (addrec e0 p (.elt k l i) (π ++ [i])).1.sat v
          · rw [outcome_app_pos hs, ihs.1, (ho.1 hs).1]
            simp only [Pats.bind]
            have := (ho.1 hs).2
            cases e : p.bind w with
            | none => exact absurd e this
            | some x => cases ps.bind ws <;> simp [cat]
          · rw [outcome_app_neg hs]
            simp [Pats.bind, ho.2 hs]
        · intro r hr
          obtain ⟨r', hr', rfl⟩ := List.mem_map.1 hr
          simp only [Row.app, guard_append]
          exact ⟨ih.2 _ (by simp), fun _ => ihs.2 r' hr'⟩
      · rw [if_neg ho] at hm
        obtain ⟨g1, g2, g3⟩ := gaps_rows k ps hm.2 l π (i + 1)
        have hgs : (addlist e0 k ps l π (i + 1)).1.sat v := by
          intro s hs a ha; rw [g3 s hs] at ha; cases ha
        have hgg : Guard v (addlist e0 k ps l π (i + 1)).1.slots := by
          have : ∀ (ss : List Slot), (∀ s ∈ ss, s.pat = none) → Guard v ss := by
            intro ss
            induction ss with
            | nil => intro _; trivial
            | cons s ss ih => intro h; exact ⟨fun k => absurd (h s (by simp)) k, fun _ => ih fun s hs => h s (by simp [hs])⟩
          exact this _ g3
        simp only [rowsofl, g1, List.map_cons, List.map_nil, List.singleton_append]
        refine ⟨?_, ?_⟩
        · have e1 : outcome v ((addrec e0 p (.elt k l i) (π ++ [i])).1.app (addlist e0 k ps l π (i + 1)).1 :: (addrec e0 p (.elt k l i) (π ++ [i])).2)
              = outcome v (rowsof p (.elt k l i) (π ++ [i])) := by
            rw [rowsof]
            by_cases hs : (addrec e0 p (.elt k l i) (π ++ [i])).1.sat v
            · rw [outcome_cons_pos hs, outcome_cons_pos ((sat_app _ _ _).2 ⟨hs, hgs⟩)]
              simp [Row.app, g2]
            · rw [outcome_cons_neg hs, outcome_cons_neg (fun k => hs ((sat_app _ _ _).1 k).1)]
          rw [e1, ih.1]
          simp only [Pats.bind, gaps_bind ps ts ws hm.2 ht.2 hv2]
          cases p.bind w <;> simp
        · intro r hr
          simp only [List.mem_cons] at hr
          rcases hr with rfl | hr
          · simp only [Row.app, guard_append]
            exact ⟨ih.2 _ (by simp [rowsof]), fun _ => hgg⟩
          · exact ih.2 r (by simp [rowsof, hr])
end

end Verif.Match
