import Verif.Match.Cross

/-!
# Lemmas: the decision graph
-/

namespace Verif.Match

open Verif

/-! ## Frontiers -/

/-- What was tested on the way to a node: the path, what was read, and the literal found; `none` on a default edge. -/
abbrev Tests := List (List Nat × Load × Option Atom)

/-- The paths tested. -/
def Tests.paths (T : Tests) : List (List Nat) := T.map Prod.fst

/-- Rows as made from patterns of one type. -/
structure Good (R : List Row) : Prop where
  nodup : ∀ r ∈ R, (r.slots.map Slot.path).Nodup
  cross : ∀ r ∈ R, ∀ r' ∈ R, ∀ s ∈ r.slots, ∀ s' ∈ r'.slots, s.pat ≠ none → s'.pat ≠ none → s.path = s'.path →
    ∃ g g', Before g s r.slots ∧ Before g' s' r'.slots ∧ (∀ x ∈ g, x.pat ≠ none) ∧ (∀ y ∈ g', y.pat ≠ none) ∧ Agree g s g' s'

/-- The row `c` is what is left of `o` after the tests `T`. -/
structure Cur (T : Tests) (o c : Row) : Prop where
  final : c.final = o.final
  left : ∃ D : List (List Nat), (∀ d ∈ D, d ∈ T.paths) ∧ c.slots = o.slots.filter (fun s => !D.contains s.path) ∧
    ∀ s ∈ o.slots, s.pat ≠ none → s.path ∈ T.paths → s.path ∈ D ∧ (s.path, s.load, s.pat) ∈ T

/-- The rows are left of rows in `R` after the tests `T`. -/
def Inv (R : List Row) (T : Tests) (rows : List Row) : Prop := T.paths.Nodup ∧ ∀ c ∈ rows, ∃ o ∈ R, Cur T o c

/-- The value passes the tests. -/
def Passes (v : Val) (T : Tests) : Prop := ∀ x ∈ T, ∀ a, x.2.2 = some a → x.2.1.eval v = some (.atom a)

theorem Cur.mem {T : Tests} {o c : Row} (h : Cur T o c) {s : Slot} (hs : s ∈ c.slots) : s ∈ o.slots := by
  obtain ⟨D, _, h2, _⟩ := h.left
  rw [h2] at hs
  exact (List.mem_filter.1 hs).1

theorem Cur.fresh {T : Tests} {o c : Row} (h : Cur T o c) {s : Slot} (hs : s ∈ c.slots) (hc : s.pat ≠ none) : s.path ∉ T.paths := by
  obtain ⟨D, _, h2, h3⟩ := h.left
  intro k
  have := (h3 s (h.mem hs) hc k).1
  rw [h2] at hs
  simp [this] at hs

theorem Cur.keep {T : Tests} {o c : Row} (h : Cur T o c) {s : Slot} (hs : s ∈ o.slots) (hf : s.path ∉ T.paths) : s ∈ c.slots := by
  obtain ⟨D, h1, h2, h3⟩ := h.left
  rw [h2, List.mem_filter]
  refine ⟨hs, ?_⟩
  simp only [Bool.not_eq_true', List.contains_eq_mem, decide_eq_false_iff_not]
  exact fun k => hf (h1 _ k)

theorem Cur.tested {T : Tests} {o c : Row} (h : Cur T o c) {s : Slot} (hs : s ∈ o.slots) (hc : s.pat ≠ none) (hf : s.path ∈ T.paths) :
    (s.path, s.load, s.pat) ∈ T := by
  obtain ⟨D, _, _, h3⟩ := h.left
  exact (h3 s hs hc hf).2

theorem Cur.sat {v : Val} {T : Tests} (hv : Passes v T) {o c : Row} (h : Cur T o c) : c.sat v ↔ o.sat v := by
  constructor
  · intro k s hs
    by_cases hc : s.pat = none
    · intro a ha; rw [hc] at ha; cases ha
    · by_cases hf : s.path ∈ T.paths
      · intro a ha
        exact hv _ (h.tested hs hc hf) a ha
      · exact k s (h.keep hs hf)
  · intro k s hs
    exact k s (h.mem hs)

theorem Cur.nodup {T : Tests} {R : List Row} (hR : Good R) {o c : Row} (ho : o ∈ R) (h : Cur T o c) : (c.slots.map Slot.path).Nodup := by
  obtain ⟨D, _, h2, _⟩ := h.left
  rw [h2]
  exact (hR.nodup o ho).sublist (List.filter_sublist.map _)

theorem nodup_map_inj {α β : Type} {f : α → β} {l : List α} (h : (l.map f).Nodup) {x y : α} (hx : x ∈ l) (hy : y ∈ l) (e : f x = f y) : x = y := by
  induction l with
  | nil => cases hx
  | cons z zs ih =>
    rw [List.map_cons, List.nodup_cons] at h
    rcases List.mem_cons.1 hx with hx | hx
    · rcases List.mem_cons.1 hy with hy | hy
      · rw [hx, hy]
      · exact absurd (List.mem_map.2 ⟨y, hy, by rw [← e, hx]⟩) h.1
    · rcases List.mem_cons.1 hy with hy | hy
      · exact absurd (List.mem_map.2 ⟨x, hx, by rw [e, hy]⟩) h.1
      · exact ih h.2 hx hy

/-- The slot at a path. -/
theorem at_eq {r : Row} (hn : (r.slots.map Slot.path).Nodup) {s : Slot} (hs : s ∈ r.slots) : r.at s.path = some s := by
  unfold Row.at
  cases h : r.slots.reverse.find? fun x => decide (x.path = s.path) with
  | none =>
    rw [List.find?_eq_none] at h
    exact absurd (h s (by simpa using hs)) (by simp)
  | some x =>
    have h1 := List.find?_some h
    have h2 := List.mem_of_find?_eq_some h
    simp only [decide_eq_true_eq] at h1
    rw [List.mem_reverse] at h2
    exact congrArg some (nodup_map_inj hn h2 hs h1)

theorem at_mem {r : Row} {path : List Nat} {s : Slot} (h : r.at path = some s) : s ∈ r.slots ∧ s.path = path := by
  have h1 := List.find?_some h
  have h2 := List.mem_of_find?_eq_some h
  simp only [decide_eq_true_eq] at h1
  exact ⟨by simpa using h2, h1⟩

/-- The first test of a row: the tests before it were made. -/
theorem pick_spec {T : Tests} {o c : Row} (h : Cur T o c) {s : Slot} (hp : pick c = some s) :
    s ∈ c.slots ∧ s.pat ≠ none ∧ ∃ pre post, o.slots = pre ++ s :: post ∧ ∀ x ∈ pre, x.pat ≠ none → (x.path, x.load, x.pat) ∈ T := by
  have h1 := List.find?_some hp
  have h2 := List.mem_of_find?_eq_some hp
  refine ⟨h2, by intro e; simp [e] at h1, ?_⟩
  obtain ⟨D, hD, hl, hc⟩ := h.left
  unfold pick at hp
  rw [hl, List.find?_filter, List.find?_eq_some_iff_append] at hp
  obtain ⟨h3, pre, post, h4, h5⟩ := hp
  refine ⟨pre, post, h4, ?_⟩
  intro x hx hxc
  have := h5 x hx
  have hxs : x.pat.isSome = true := by cases e : x.pat with
    | none => exact absurd e hxc
    | some _ => rfl
  have : x.path ∈ D := by simpa [hxs] using this
  exact (hc x (by simp [h4, hx]) hxc (hD _ this)).2

theorem pick_none {r : Row} (h : pick r = none) : ∀ s ∈ r.slots, s.pat = none := by
  intro s hs
  have := List.find?_eq_none.1 h s hs
  cases e : s.pat with
  | none => rfl
  | some a => simp [e] at this

theorem mem_unique {T : Tests} (hn : T.paths.Nodup) {x y : List Nat × Load × Option Atom} (hx : x ∈ T) (hy : y ∈ T) (h : x.1 = y.1) : x = y :=
  nodup_map_inj hn hx hy h

/-- All tests of the frontier at the path chosen read the same. -/
theorem same_load {R : List Row} (hR : Good R) {T : Tests} (hT : T.paths.Nodup) {o c o' c' : Row} (ho : o ∈ R) (h : Cur T o c) (ho' : o' ∈ R)
    (h' : Cur T o' c') {s s' : Slot} (hp : pick c = some s) (hs' : s' ∈ o'.slots) (hc' : s'.pat ≠ none) (he : s'.path = s.path) : s'.load = s.load := by
  obtain ⟨h1, h2, pre, post, h3, h4⟩ := pick_spec h hp
  obtain ⟨g, g', b1, b2, q1, q2, ha⟩ := hR.cross o ho o' ho' s (h.mem h1) s' hs' h2 hc' he.symm
  rcases ha with e | ⟨x, hx, y, hy, e1, e2, e3⟩
  · exact e.symm
  · exfalso
    obtain ⟨pre', post', k1, k2⟩ := b1
    have hn := hR.nodup o ho
    have hpre : pre' = pre := by
      have hn' : o.slots.Nodup := List.Pairwise.of_map Slot.path (fun a b h e => h (by rw [e])) hn
      rw [h3] at k1 hn'
      -- split at the only occurrence of `s`
      have a1 : s ∉ pre := by
        intro k
        have := List.nodup_append.1 hn'
        exact this.2.2 s k s (by simp) rfl
      have a2 : s ∉ pre' := by
        intro k
        rw [k1] at hn'
        have := List.nodup_append.1 hn'
        exact this.2.2 s k s (by simp) rfl
      rcases List.append_eq_append_iff.1 k1 with ⟨w, hw1, hw2⟩ | ⟨w, hw1, hw2⟩
      · cases w with
        | nil => simpa using hw1
        | cons z zs =>
          simp only [List.cons_append, List.cons.injEq] at hw2
          exact absurd (by rw [hw1, ← hw2.1]; simp) a2
      · cases w with
        | nil => simpa using hw1.symm
        | cons z zs =>
          simp only [List.cons_append, List.cons.injEq] at hw2
          exact absurd (by rw [hw1, ← hw2.1]; simp) a1
    subst hpre
    have tx := h4 x (k2 x hx) (q1 x hx)
    obtain ⟨pre'', post'', k3, k4⟩ := b2
    have ty : (y.path, y.load, y.pat) ∈ T := by
      apply h'.tested (by rw [k3]; simp [k4 y hy]) (q2 y hy)
      rw [← e1]
      exact List.mem_map.2 ⟨_, tx, rfl⟩
    have := mem_unique hT tx ty e1
    simp only [Prod.mk.injEq] at this
    exact e3 this.2.2

/-! ## One test -/

/-- The rows which go along an edge. -/
theorem project_cur {R : List Row} (hR : Good R) {T : Tests} (hT : T.paths.Nodup) {o0 c0 o c c' : Row} {s : Slot} (ho0 : o0 ∈ R) (h0 : Cur T o0 c0)
    (hp : pick c0 = some s) (ho : o ∈ R) (h : Cur T o c) (b : Atom) (hc : project b s.path c = some c') : Cur ((s.path, s.load, some b) :: T) o c' := by
  have hfresh := h0.fresh (pick_spec h0 hp).1 (pick_spec h0 hp).2.1
  have e : c' = c.drop s.path := by
    unfold project at hc
    split at hc
    · exact (Option.some.inj hc).symm
    · split at hc
      · exact (Option.some.inj hc).symm
      · split at hc
        · exact (Option.some.inj hc).symm
        · cases hc
  subst e
  refine ⟨h.final, ?_⟩
  obtain ⟨D, hD, hl, hd⟩ := h.left
  refine ⟨s.path :: D, ?_, ?_, ?_⟩
  · intro d hd
    rcases List.mem_cons.1 hd with rfl | hd
    · simp [Tests.paths]
    · have := hD d hd
      simp only [Tests.paths, List.map_cons, List.mem_cons] at this ⊢
      exact .inr this
  · simp only [Row.drop, hl, List.filter_filter]
    congr 1
    funext x
    by_cases k : x.path = s.path
    · simp [k]
    · simp [k]
  · intro x hx hxc hxT
    by_cases k : x.path = s.path
    · refine ⟨by simp [k], ?_⟩
      have hxc' : x ∈ c.slots := h.keep hx (by rw [k]; exact hfresh)
      have hat := at_eq (h.nodup hR ho) hxc'
      rw [k] at hat
      have hld := same_load hR hT ho0 h0 ho h hp hx hxc k
      unfold project at hc
      rw [hat] at hc
      simp only at hc
      cases e : x.pat with
      | none => exact absurd e hxc
      | some a =>
        rw [e] at hc
        simp only at hc
        split at hc
        · rename_i hab
          subst hab
          simp [k, hld]
        · cases hc
    · have : x.path ∈ T.paths := by
        simp only [Tests.paths, List.map_cons, List.mem_cons] at hxT
        rcases hxT with q | q
        · exact absurd q k
        · exact q
      obtain ⟨q1, q2⟩ := hd x hx hxc this
      exact ⟨List.mem_cons_of_mem _ q1, List.mem_cons_of_mem _ q2⟩

/-- The rows which do not go along an edge do not fit. -/
theorem project_none {R : List Row} (hR : Good R) {T : Tests} (hT : T.paths.Nodup) {o0 c0 o c : Row} {s : Slot} (ho0 : o0 ∈ R) (h0 : Cur T o0 c0)
    (hp : pick c0 = some s) (ho : o ∈ R) (h : Cur T o c) {v : Val} {b : Atom} (hv : s.load.eval v = some (.atom b)) (hc : project b s.path c = none) :
    ¬ c.sat v := by
  unfold project at hc
  split at hc
  · cases hc
  · rename_i x hat
    obtain ⟨hx, hxp⟩ := at_mem hat
    split at hc
    · cases hc
    · rename_i a ha
      split at hc
      · cases hc
      · rename_i hab
        intro k
        have := k x hx a ha
        rw [same_load hR hT ho0 h0 ho h hp (h.mem hx) (by simp [ha]) hxp, hv] at this
        simp only [Option.some.injEq, Val.atom.injEq] at this
        exact hab this

theorem mem_conslot {path : List Nat} {cs : List Atom} {s : Slot} {a : Atom} :
    a ∈ conslot path cs s ↔ a ∈ cs ∨ (s.path = path ∧ s.pat = some a) := by
  unfold conslot
  split
  · rename_i b hb
    split
    · rename_i h
      simp only [Bool.and_eq_true, decide_eq_true_eq, Bool.not_eq_true', List.contains_eq_mem, decide_eq_false_iff_not] at h
      simp only [List.mem_append, List.mem_singleton, hb, Option.some.injEq, h.1, true_and]
      constructor
      · rintro (k | k)
        · exact .inl k
        · exact .inr k.symm
      · rintro (k | k)
        · exact .inl k
        · exact .inr k.symm
    · rename_i h
      simp only [Bool.and_eq_true, decide_eq_true_eq, Bool.not_eq_true', List.contains_eq_mem, decide_eq_false_iff_not, not_and, not_not] at h
      simp only [hb, Option.some.injEq]
      constructor
      · intro k; exact .inl k
      · rintro (k | ⟨k1, k2⟩)
        · exact k
        · exact k2 ▸ h k1
  · rename_i hb
    simp [hb]

theorem mem_consfold {path : List Nat} (ss : List Slot) (cs : List Atom) (a : Atom) :
    a ∈ ss.foldl (conslot path) cs ↔ a ∈ cs ∨ ∃ s ∈ ss, s.path = path ∧ s.pat = some a := by
  induction ss generalizing cs with
  | nil => simp
  | cons s ss ih => simp only [List.foldl_cons, ih, mem_conslot, List.mem_cons, exists_eq_or_imp, or_assoc]

theorem mem_consat {path : List Nat} (rows : List Row) (a : Atom) : a ∈ consat path rows ↔ ∃ r ∈ rows, ∃ s ∈ r.slots, s.path = path ∧ s.pat = some a := by
  have : ∀ (rows : List Row) (cs : List Atom), a ∈ rows.foldl (fun cs r => r.slots.foldl (conslot path) cs) cs ↔
      a ∈ cs ∨ ∃ r ∈ rows, ∃ s ∈ r.slots, s.path = path ∧ s.pat = some a := by
    intro rows
    induction rows with
    | nil => simp
    | cons r rs ih =>
      intro cs
      simp only [List.foldl_cons, ih, mem_consfold, List.mem_cons, exists_eq_or_imp, or_assoc]
  simp [consat, this]

/-- The rows of the default edge. -/
theorem dflt_cur {R : List Row} (hR : Good R) {T : Tests} {o0 c0 o c : Row} {s : Slot} (h0 : Cur T o0 c0)
    (hp : pick c0 = some s) (ho : o ∈ R) (h : Cur T o c) (hc : isdflt s.path c = true) : Cur ((s.path, s.load, none) :: T) o c := by
  have hfresh := h0.fresh (pick_spec h0 hp).1 (pick_spec h0 hp).2.1
  refine ⟨h.final, ?_⟩
  obtain ⟨D, hD, hl, hd⟩ := h.left
  refine ⟨D, ?_, hl, ?_⟩
  · intro d hd
    have := hD d hd
    simp only [Tests.paths, List.map_cons, List.mem_cons] at this ⊢
    exact .inr this
  · intro x hx hxc hxT
    by_cases k : x.path = s.path
    · exfalso
      have hxc' : x ∈ c.slots := h.keep hx (by rw [k]; exact hfresh)
      have hat := at_eq (h.nodup hR ho) hxc'
      rw [k] at hat
      unfold isdflt at hc
      rw [hat] at hc
      cases e : x.pat with
      | none => exact hxc e
      | some a => simp [e] at hc
    · have : x.path ∈ T.paths := by
        simp only [Tests.paths, List.map_cons, List.mem_cons] at hxT
        rcases hxT with q | q
        · exact absurd q k
        · exact q
      obtain ⟨q1, q2⟩ := hd x hx hxc this
      exact ⟨q1, List.mem_cons_of_mem _ q2⟩

theorem dflt_none {R : List Row} (hR : Good R) {T : Tests} (hT : T.paths.Nodup) {o0 c0 o c : Row} {s : Slot} (ho0 : o0 ∈ R) (h0 : Cur T o0 c0)
    (hp : pick c0 = some s) (ho : o ∈ R) (h : Cur T o c) {v : Val} {b : Atom} (hv : s.load.eval v = some (.atom b)) {rows : List Row} (hrows : c ∈ rows)
    (hb : b ∉ consat s.path rows) (hc : isdflt s.path c = false) : ¬ c.sat v := by
  unfold isdflt at hc
  split at hc
  · cases hc
  · rename_i x hat
    obtain ⟨hx, hxp⟩ := at_mem hat
    cases e : x.pat with
    | none => simp [e] at hc
    | some a =>
      intro k
      have := k x hx a e
      rw [same_load hR hT ho0 h0 ho h hp (h.mem hx) (by simp [e]) hxp, hv] at this
      simp only [Option.some.injEq, Val.atom.injEq] at this
      subst this
      exact hb ((mem_consat rows b).2 ⟨c, hrows, x, hx, hxp, e⟩)

/-- The number of the first row which fits. -/
noncomputable def res (v : Val) (rows : List Row) : Option Nat := (firstsat v rows).map Row.final

theorem res_cons_pos {v : Val} {r : Row} {rs : List Row} (h : r.sat v) : res v (r :: rs) = some r.final := by simp [res, firstsat_cons_pos h]
theorem res_cons_neg {v : Val} {r : Row} {rs : List Row} (h : ¬ r.sat v) : res v (r :: rs) = res v rs := by simp [res, firstsat_cons_neg h]

theorem res_filterMap {v : Val} (f : Row → Option Row) (rows : List Row) (h1 : ∀ c ∈ rows, ∀ c', f c = some c' → (c'.sat v ↔ c.sat v) ∧ c'.final = c.final)
    (h2 : ∀ c ∈ rows, f c = none → ¬ c.sat v) : res v (rows.filterMap f) = res v rows := by
  induction rows with
  | nil => rfl
  | cons r rs ih =>
    have ih := ih (fun c hc => h1 c (by simp [hc])) (fun c hc => h2 c (by simp [hc]))
    cases e : f r with
    | none => rw [List.filterMap_cons_none e, ih, res_cons_neg (h2 r (by simp) e)]
    | some r' =>
      obtain ⟨k1, k2⟩ := h1 r (by simp) r' e
      rw [List.filterMap_cons_some e]
      by_cases hs : r.sat v
      · rw [res_cons_pos hs, res_cons_pos (k1.2 hs), k2]
      · rw [res_cons_neg hs, res_cons_neg (fun k => hs (k1.1 k)), ih]

theorem res_filter {v : Val} (f : Row → Bool) (rows : List Row) (h2 : ∀ c ∈ rows, f c = false → ¬ c.sat v) : res v (rows.filter f) = res v rows := by
  induction rows with
  | nil => rfl
  | cons r rs ih =>
    have ih := ih (fun c hc => h2 c (by simp [hc]))
    cases e : f r with
    | false => rw [List.filter_cons_of_neg (by simp [e]), ih, res_cons_neg (h2 r (by simp) e)]
    | true =>
      rw [List.filter_cons_of_pos e]
      by_cases hs : r.sat v
      · rw [res_cons_pos hs, res_cons_pos hs]
      · rw [res_cons_neg hs, res_cons_neg hs, ih]

/-! ## Walking through the graph -/

/-- The way of a value through the graph: the final node reached, or `none`. -/
inductive Walk (nodes : List Node) (v : Val) : Nat → Option Nat → Prop
  | fin {i a c} : nodes[i]? = some (.fin a c) → Walk nodes v i (some i)
  | edge {i l es any nc b j r} : nodes[i]? = some (.test l es any nc) → l.eval v = some (.atom b) → es.find? (fun e => e.1 = b) = some (b, j) →
      Walk nodes v j r → Walk nodes v i r
  | dflt {i l es nc b j r} : nodes[i]? = some (.test l es (some j) nc) → l.eval v = some (.atom b) → es.find? (fun e => e.1 = b) = none →
      Walk nodes v j r → Walk nodes v i r
  | fail {i l es nc b} : nodes[i]? = some (.test l es none nc) → l.eval v = some (.atom b) → es.find? (fun e => e.1 = b) = none → Walk nodes v i none

theorem getElem?_of_prefix {α : Type} {a b : List α} (h : a <+: b) {i : Nat} {x : α} (hi : a[i]? = some x) : b[i]? = some x := by
  obtain ⟨t, rfl⟩ := h
  obtain ⟨h1, h2⟩ := List.getElem?_eq_some_iff.1 hi
  rw [List.getElem?_append_left h1, hi]

theorem Walk.mono {n n' : List Node} (h : n <+: n') {v : Val} {i : Nat} {r : Option Nat} (hw : Walk n v i r) : Walk n' v i r := by
  induction hw with
  | fin h1 => exact .fin (getElem?_of_prefix h h1)
  | edge h1 h2 h3 _ ih => exact .edge (getElem?_of_prefix h h1) h2 h3 ih
  | dflt h1 h2 h3 _ ih => exact .dflt (getElem?_of_prefix h h1) h2 h3 ih
  | fail h1 h2 h3 => exact .fail (getElem?_of_prefix h h1) h2 h3

/-- A target: there is such a node, and it is counted if it is final. -/
def Target (t : Tbl) (i : Nat) : Prop := ∃ n, t.nodes[i]? = some n ∧ ∀ a c, n = .fin a c → i ∈ t.hits

/-- Edges lead to nodes made before. -/
def TOk (t : Tbl) : Prop := ∀ i l es any nc, t.nodes[i]? = some (.test l es any nc) →
  (∀ e ∈ es, e.2 < i ∧ Target t e.2) ∧ ∀ j, any = some j → j < i ∧ Target t j

/-- The table grew. -/
def Ext (t t' : Tbl) : Prop := t.nodes <+: t'.nodes ∧ ∀ k ∈ t.hits, k ∈ t'.hits

theorem Ext.refl (t : Tbl) : Ext t t := ⟨List.prefix_refl _, fun _ h => h⟩
theorem Ext.trans {a b c : Tbl} (h : Ext a b) (h' : Ext b c) : Ext a c := ⟨h.1.trans h'.1, fun k hk => h'.2 k (h.2 k hk)⟩

theorem Target.mono {t t' : Tbl} (h : Ext t t') {i : Nat} (hi : Target t i) : Target t' i := by
  obtain ⟨n, h1, h2⟩ := hi
  exact ⟨n, getElem?_of_prefix h.1 h1, fun a c e => h.2 _ (h2 a c e)⟩

/-- Each row has its final node. -/
def FinOk (R : List Row) (t : Tbl) : Prop := ∀ r ∈ R, ∃ a c, t.nodes[r.final]? = some (.fin a c)

theorem FinOk.mono {R : List Row} {t t' : Tbl} (h : Ext t t') (hf : FinOk R t) : FinOk R t' := by
  intro r hr
  obtain ⟨a, c, h1⟩ := hf r hr
  exact ⟨a, c, getElem?_of_prefix h.1 h1⟩

/-- What is shown of `compile`. -/
def CompOk (R : List Row) (comp : List Row → Tbl → Res (Nat × Tbl)) : Prop :=
  ∀ rows t i t', comp rows t = .ok (i, t') → TOk t → FinOk R t → (∀ c ∈ rows, ∃ o ∈ R, c.final = o.final) →
    TOk t' ∧ Ext t t' ∧ Target t' i ∧
    ∀ v T, (∀ r ∈ R, Guard v r.slots) → Inv R T rows → Passes v T → Walk t'.nodes v i (res v rows)

theorem projrows_ok {a : Atom} {path : List Nat} {rows rs : List Row} (h : projrows a path rows = .ok rs) : rs = rows.filterMap (project a path) := by
  unfold projrows at h
  split at h
  · cases h
  · exact (Res.ok.inj h).symm

theorem project_final {a : Atom} {path : List Nat} {c c' : Row} (h : project a path c = some c') : c'.final = c.final := by
  unfold project at h
  split at h
  · rw [← Option.some.inj h]; rfl
  · split at h
    · rw [← Option.some.inj h]; rfl
    · split at h
      · rw [← Option.some.inj h]; rfl
      · cases h

theorem edges_ok {R : List Row} {comp : List Row → Tbl → Res (Nat × Tbl)} (hcomp : CompOk R comp) (path : List Nat) (rows : List Row)
    (hfin : ∀ c ∈ rows, ∃ o ∈ R, c.final = o.final) : ∀ (cs : List Atom) (t : Tbl) (es : List (Atom × Nat)) (t' : Tbl),
    edges comp path rows cs t = .ok (es, t') → TOk t → FinOk R t →
    TOk t' ∧ Ext t t' ∧ (∀ e ∈ es, e.1 ∈ cs ∧ Target t' e.2) ∧
    ∀ b ∈ cs, rows.filterMap (project b path) ≠ [] → ∃ j, es.find? (fun e => e.1 = b) = some (b, j) ∧
      ∀ v T, (∀ r ∈ R, Guard v r.slots) → Inv R T (rows.filterMap (project b path)) → Passes v T →
        Walk t'.nodes v j (res v (rows.filterMap (project b path))) := by
  intro cs
  induction cs with
  | nil =>
    intro t es t' h ht _
    simp only [edges, Res.ok.injEq, Prod.mk.injEq] at h
    obtain ⟨rfl, rfl⟩ := h
    exact ⟨ht, Ext.refl _, by simp, by simp⟩
  | cons c cs ih =>
    intro t es t' h ht hf
    simp only [edges] at h
    obtain ⟨row, h1, h2⟩ := Res.bind_eq_ok.1 h
    have hrow := projrows_ok h1
    split at h2
    · rename_i he
      obtain ⟨k1, k2, k3, k4⟩ := ih t es t' h2 ht hf
      refine ⟨k1, k2, fun e hh => ⟨by simp [(k3 e hh).1], (k3 e hh).2⟩, ?_⟩
      intro b hb hne
      rcases List.mem_cons.1 hb with rfl | hb
      · rw [hrow, List.isEmpty_iff] at he
        exact absurd he hne
      · exact k4 b hb hne
    · obtain ⟨x, h3, h4⟩ := Res.bind_eq_ok.1 h2
      obtain ⟨y, h5, h6⟩ := Res.bind_eq_ok.1 h4
      simp only [Res.ok.injEq, Prod.mk.injEq] at h6
      obtain ⟨rfl, rfl⟩ := h6
      have hfr : ∀ c ∈ row, ∃ o ∈ R, c.final = o.final := by
        intro r hr
        rw [hrow] at hr
        obtain ⟨r0, hr0, e⟩ := List.mem_filterMap.1 hr
        obtain ⟨o, ho, e'⟩ := hfin r0 hr0
        exact ⟨o, ho, by rw [project_final e, e']⟩
      obtain ⟨x1, x2⟩ := x
      obtain ⟨q1, q2, q3, q4⟩ := hcomp row t x1 x2 h3 ht hf hfr
      obtain ⟨k1, k2, k3, k4⟩ := ih x2 y.1 y.2 h5 q1 (hf.mono q2)
      refine ⟨k1, q2.trans k2, ?_, ?_⟩
      · intro e he
        rcases List.mem_cons.1 he with rfl | he
        · exact ⟨by simp, q3.mono k2⟩
        · exact ⟨by simp [(k3 e he).1], (k3 e he).2⟩
      · intro b hb hne
        by_cases e : c = b
        · subst e
          refine ⟨x1, by simp, ?_⟩
          intro v T hg hi hp
          rw [← hrow] at hi ⊢
          exact (q4 v T hg hi hp).mono k2.1
        · rcases List.mem_cons.1 hb with rfl | hb
          · exact absurd rfl e
          · obtain ⟨j, k5, k6⟩ := k4 b hb hne
            exact ⟨j, by simp [e, k5], k6⟩

theorem dflt_ok {R : List Row} {comp : List Row → Tbl → Res (Nat × Tbl)} (hcomp : CompOk R comp) (path : List Nat) (rows : List Row)
    (hfin : ∀ c ∈ rows, ∃ o ∈ R, c.final = o.final) (t : Tbl) (d : Option Nat) (t' : Tbl)
    (h : dflt comp path rows t = .ok (d, t')) (ht : TOk t) (hf : FinOk R t) :
    TOk t' ∧ Ext t t' ∧ (∀ j, d = some j → Target t' j) ∧ (d = none → rows.filter (isdflt path) = []) ∧
    ∀ j, d = some j → ∀ v T, (∀ r ∈ R, Guard v r.slots) → Inv R T (rows.filter (isdflt path)) → Passes v T →
        Walk t'.nodes v j (res v (rows.filter (isdflt path))) := by
  simp only [dflt] at h
  split at h
  · rename_i he
    simp only [Res.ok.injEq, Prod.mk.injEq] at h
    obtain ⟨rfl, rfl⟩ := h
    exact ⟨ht, Ext.refl _, by simp, fun _ => List.isEmpty_iff.1 he, by simp⟩
  · obtain ⟨x, h3, h4⟩ := Res.bind_eq_ok.1 h
    simp only [Res.ok.injEq, Prod.mk.injEq] at h4
    obtain ⟨rfl, rfl⟩ := h4
    obtain ⟨x1, x2⟩ := x
    obtain ⟨q1, q2, q3, q4⟩ := hcomp _ t x1 x2 h3 ht hf (fun c hc => hfin c (List.mem_filter.1 hc).1)
    refine ⟨q1, q2, ?_, by simp, ?_⟩
    · intro j hj; cases hj; exact q3
    · intro j hj; cases hj; exact q4

theorem usable_true {n : Node} {l : Load} {es : List (Atom × Nat)} {any : Option Nat} (h : usable n l es any = .ok true) :
    ∃ nc, n = .test l es any nc := by
  unfold usable at h
  split at h
  · cases h
  · split at h
    · cases h
    · rename_i h1
      split at h
      · cases h
      · rename_i h2
        simp only [ne_eq, not_not] at h1 h2
        subst h1; subst h2
        split at h
        · exact ⟨_, rfl⟩
        · simp only [Res.ok.injEq, beq_iff_eq] at h
          subst h; exact ⟨_, rfl⟩
        · cases h

theorem reuse_some {l : Load} {es : List (Atom × Nat)} {any : Option Nat} {ns : List Node} {i k : Nat} (h : reuse l es any i ns = .ok (some k)) :
    ∃ nc, i ≤ k ∧ ns[k - i]? = some (.test l es any nc) := by
  induction ns generalizing i with
  | nil => simp [reuse] at h
  | cons n ns ih =>
    simp only [reuse] at h
    obtain ⟨b, h1, h2⟩ := Res.bind_eq_ok.1 h
    split at h2
    · rename_i hb
      subst hb
      obtain ⟨nc, e⟩ := usable_true h1
      simp only [Res.ok.injEq, Option.some.injEq] at h2
      subst h2; subst e
      exact ⟨nc, Nat.le_refl _, by simp⟩
    · obtain ⟨nc, h3, h4⟩ := ih h2
      refine ⟨nc, by omega, ?_⟩
      rw [show k - i = (k - (i + 1)) + 1 by omega]
      simpa using h4

theorem mknode_ok {s : Slot} {es : List (Atom × Nat)} {any : Option Nat} {t : Tbl} {i : Nat} {t' : Tbl} (h : mknode s es any t = .ok (i, t'))
    (ht : TOk t) (he : ∀ e ∈ es, Target t e.2) (ha : ∀ j, any = some j → Target t j) :
    TOk t' ∧ Ext t t' ∧ ∃ nc, t'.nodes[i]? = some (.test s.load es any nc) := by
  simp only [mknode] at h
  obtain ⟨r, h1, h2⟩ := Res.bind_eq_ok.1 h
  cases r with
  | some k =>
    simp only [Res.ok.injEq, Prod.mk.injEq] at h2
    obtain ⟨rfl, rfl⟩ := h2
    obtain ⟨nc, _, h3⟩ := reuse_some h1
    exact ⟨ht, Ext.refl _, nc, by simpa using h3⟩
  | none =>
    simp only [Res.ok.injEq, Prod.mk.injEq] at h2
    obtain ⟨rfl, rfl⟩ := h2
    have hx : Ext t { t with nodes := t.nodes ++ [.test s.load es any s.ncons] } := ⟨List.prefix_append _ _, fun _ h => h⟩
    refine ⟨?_, hx, s.ncons, by simp⟩
    intro i l es' any' nc hi
    have hlt : ∀ {j}, Target t j → j < t.nodes.length := by
      rintro j ⟨n, hn, _⟩
      exact (List.getElem?_eq_some_iff.1 hn).1
    rcases Nat.lt_or_ge i t.nodes.length with k | k
    · rw [List.getElem?_append_left k] at hi
      obtain ⟨q1, q2⟩ := ht i l es' any' nc hi
      exact ⟨fun e h => ⟨(q1 e h).1, (q1 e h).2.mono hx⟩, fun j h => ⟨(q2 j h).1, (q2 j h).2.mono hx⟩⟩
    · rw [List.getElem?_append_right k] at hi
      have : i = t.nodes.length := by
        rcases Nat.eq_or_lt_of_le k with e | e
        · exact e.symm
        · rw [List.getElem?_eq_none (by simp; omega)] at hi; cases hi
      subst this
      simp only [Nat.sub_self, List.getElem?_cons_zero, Option.some.injEq, Node.test.injEq] at hi
      obtain ⟨_, rfl, rfl, _⟩ := hi
      exact ⟨fun e h => ⟨hlt (he e h), (he e h).mono hx⟩, fun j h => ⟨hlt (ha j h), (ha j h).mono hx⟩⟩

theorem inv_project {R : List Row} (hR : Good R) {T : Tests} {rows : List Row} (hi : Inv R T rows) {fs : Row} (hfs : fs ∈ rows) {s : Slot}
    (hp : pick fs = some s) (b : Atom) : Inv R ((s.path, s.load, some b) :: T) (rows.filterMap (project b s.path)) := by
  obtain ⟨o0, ho0, h0⟩ := hi.2 fs hfs
  refine ⟨?_, ?_⟩
  · simp only [Tests.paths, List.map_cons, List.nodup_cons]
    exact ⟨h0.fresh (pick_spec h0 hp).1 (pick_spec h0 hp).2.1, hi.1⟩
  · intro c' hc'
    obtain ⟨c, hc, e⟩ := List.mem_filterMap.1 hc'
    obtain ⟨o, ho, h⟩ := hi.2 c hc
    exact ⟨o, ho, project_cur hR hi.1 ho0 h0 hp ho h b e⟩

theorem inv_dflt {R : List Row} (hR : Good R) {T : Tests} {rows : List Row} (hi : Inv R T rows) {fs : Row} (hfs : fs ∈ rows) {s : Slot}
    (hp : pick fs = some s) : Inv R ((s.path, s.load, none) :: T) (rows.filter (isdflt s.path)) := by
  obtain ⟨o0, ho0, h0⟩ := hi.2 fs hfs
  refine ⟨?_, ?_⟩
  · simp only [Tests.paths, List.map_cons, List.nodup_cons]
    exact ⟨h0.fresh (pick_spec h0 hp).1 (pick_spec h0 hp).2.1, hi.1⟩
  · intro c hc
    obtain ⟨hc, e⟩ := List.mem_filter.1 hc
    obtain ⟨o, ho, h⟩ := hi.2 c hc
    exact ⟨o, ho, dflt_cur hR h0 hp ho h e⟩

theorem passes_cons {v : Val} {T : Tests} (h : Passes v T) {p : List Nat} {l : Load} {a : Option Atom} (ha : ∀ b, a = some b → l.eval v = some (.atom b)) :
    Passes v ((p, l, a) :: T) := by
  intro x hx b hb
  rcases List.mem_cons.1 hx with rfl | hx
  · exact ha b hb
  · exact h x hx b hb

theorem pick_eval {R : List Row} {T : Tests} {rows : List Row} (hi : Inv R T rows) {fs : Row} (hfs : fs ∈ rows) {s : Slot}
    (hp : pick fs = some s) {v : Val} (hg : ∀ r ∈ R, Guard v r.slots) (hv : Passes v T) : ∃ b, s.load.eval v = some (.atom b) := by
  obtain ⟨o0, ho0, h0⟩ := hi.2 fs hfs
  obtain ⟨h1, h2, pre, post, h3, h4⟩ := pick_spec h0 hp
  apply guard_sub (hg o0 ho0) s pre post h3 _ h2
  intro x hx a ha
  exact hv _ (h4 x hx (by simp [ha])) a ha

theorem consat_nonempty {R : List Row} (hR : Good R) {T : Tests} {rows : List Row} (hi : Inv R T rows) {path : List Nat} {b : Atom}
    (hb : b ∈ consat path rows) : rows.filterMap (project b path) ≠ [] := by
  obtain ⟨r, hr, s, hs, e1, e2⟩ := (mem_consat rows b).1 hb
  obtain ⟨o, ho, h⟩ := hi.2 r hr
  have hat := at_eq (h.nodup hR ho) hs
  rw [e1] at hat
  have : project b path r = some (r.drop path) := by simp [project, hat, e2]
  intro k
  have : r.drop path ∈ rows.filterMap (project b path) := List.mem_filterMap.2 ⟨r, hr, this⟩
  rw [k] at this
  cases this

theorem res_project {R : List Row} (hR : Good R) {T : Tests} {rows : List Row} (hi : Inv R T rows) {fs : Row} (hfs : fs ∈ rows) {s : Slot}
    (hp : pick fs = some s) {v : Val} (hv : Passes v T) {b : Atom} (hb : s.load.eval v = some (.atom b)) :
    res v (rows.filterMap (project b s.path)) = res v rows := by
  obtain ⟨o0, ho0, h0⟩ := hi.2 fs hfs
  apply res_filterMap
  · intro c hc c' e
    obtain ⟨o, ho, h⟩ := hi.2 c hc
    have h' := project_cur hR hi.1 ho0 h0 hp ho h b e
    refine ⟨?_, project_final e⟩
    rw [h'.sat (passes_cons hv (fun x hx => by cases hx; exact hb)), h.sat hv]
  · intro c hc e
    obtain ⟨o, ho, h⟩ := hi.2 c hc
    exact project_none hR hi.1 ho0 h0 hp ho h hb e

theorem res_dflt {R : List Row} (hR : Good R) {T : Tests} {rows : List Row} (hi : Inv R T rows) {fs : Row} (hfs : fs ∈ rows) {s : Slot}
    (hp : pick fs = some s) {v : Val} {b : Atom} (hb : s.load.eval v = some (.atom b)) (hn : b ∉ consat s.path rows) :
    res v (rows.filter (isdflt s.path)) = res v rows := by
  obtain ⟨o0, ho0, h0⟩ := hi.2 fs hfs
  apply res_filter
  intro c hc e
  obtain ⟨o, ho, h⟩ := hi.2 c hc
  exact dflt_none hR hi.1 ho0 h0 hp ho h hb hc hn e

theorem compile_ok {R : List Row} (hR : Good R) (f : Nat) : CompOk R (compile f) := by
  induction f with
  | zero => intro rows t i t' h; simp [compile] at h
  | succ f ih =>
    intro rows t i t' h ht hf hfin
    unfold compile at h
    cases rows with
    | nil => cases h
    | cons fs rs =>
      simp only at h
      cases hp : pick fs with
      | none =>
        rw [hp] at h
        simp only [Res.ok.injEq, Prod.mk.injEq] at h
        obtain ⟨rfl, rfl⟩ := h
        have hx : Ext t { t with hits := fs.final :: t.hits } := ⟨List.prefix_refl _, fun k hk => List.mem_cons_of_mem _ hk⟩
        obtain ⟨o, ho, e⟩ := hfin fs (by simp)
        obtain ⟨a, c, hn⟩ := hf o ho
        rw [← e] at hn
        refine ⟨?_, hx, ⟨_, hn, fun _ _ _ => by simp⟩, ?_⟩
        · intro i l es any nc hi
          obtain ⟨q1, q2⟩ := ht i l es any nc hi
          exact ⟨fun e h => ⟨(q1 e h).1, (q1 e h).2.mono hx⟩, fun j h => ⟨(q2 j h).1, (q2 j h).2.mono hx⟩⟩
        · intro v T _ _ _
          have : fs.sat v := by
            intro s hs a ha
            rw [pick_none hp s hs] at ha; cases ha
          rw [res_cons_pos this]
          exact .fin hn
      | some s =>
        rw [hp] at h
        simp only at h
        obtain ⟨e, h1, h2⟩ := Res.bind_eq_ok.1 h
        obtain ⟨d, h3, h4⟩ := Res.bind_eq_ok.1 h2
        obtain ⟨es, t1⟩ := e
        obtain ⟨any, t2⟩ := d
        obtain ⟨a1, a2, a3, a4⟩ := edges_ok ih s.path (fs :: rs) hfin _ t es t1 h1 ht hf
        obtain ⟨b1, b2, b3, b4, b5⟩ := dflt_ok ih s.path (fs :: rs) hfin t1 any t2 h3 a1 (hf.mono a2)
        obtain ⟨c1, c2, nc, c3⟩ := mknode_ok h4 b1 (fun e he => (a3 e he).2.mono b2) b3
        refine ⟨c1, (a2.trans b2).trans c2, ⟨_, c3, fun a c k => by cases k⟩, ?_⟩
        intro v T hg hi hv
        obtain ⟨b, hb⟩ := pick_eval hi (by simp) hp hg hv
        by_cases hbc : b ∈ consat s.path (fs :: rs)
        · obtain ⟨j, k1, k2⟩ := a4 b hbc (consat_nonempty hR hi hbc)
          refine .edge c3 hb k1 ?_
          have := k2 v _ hg (inv_project hR hi (by simp) hp b) (passes_cons hv (fun x hx => by cases hx; exact hb))
          rw [res_project hR hi (by simp) hp hv hb] at this
          exact this.mono (b2.trans c2).1
        · have hnf : es.find? (fun e => decide (e.1 = b)) = none := by
            rw [List.find?_eq_none]
            intro e he k
            simp only [decide_eq_true_eq] at k
            exact hbc (k ▸ (a3 e he).1)
          have hr := res_dflt hR hi (by simp) hp hb hbc
          cases any with
          | none =>
            rw [b4 rfl] at hr
            rw [← hr]
            exact .fail c3 hb hnf
          | some j =>
            refine .dflt c3 hb hnf ?_
            have := b5 j rfl v _ hg (inv_dflt hR hi (by simp) hp) (passes_cons hv (fun x hx => by cases hx))
            rw [hr] at this
            exact this.mono c2.1

/-- Final nodes reached are counted. -/
theorem Walk.hit {t : Tbl} (ht : TOk t) {v : Val} {i : Nat} {r : Option Nat} (hw : Walk t.nodes v i r) (hi : Target t i) {k : Nat} (hr : r = some k) : k ∈ t.hits := by
  induction hw with
  | fin h =>
    obtain ⟨n, h1, h2⟩ := hi
    rw [h] at h1
    cases hr
    exact h2 _ _ (Option.some.inj h1).symm
  | edge h _ h3 _ ih => exact ih ((ht _ _ _ _ _ h).1 _ (List.mem_of_find?_eq_some h3)).2 hr
  | dflt h _ _ _ ih => exact ih ((ht _ _ _ _ _ h).2 _ rfl).2 hr
  | fail _ _ _ => cases hr

/-! ## The rows of a match statement -/

theorem genfrontier_eq (arm : Nat) (p : Pat) : genfrontier arm p = (rowsof p .root [0]).map (Row.app ⟨arm, [], [], false, 0⟩) := by
  simp only [genfrontier, rowsof, List.map_cons]
  rw [addrec_app]

/-- A row of the arm `i`. -/
def OfArm (pats : List Pat) (r : Row) : Prop := ∃ p, pats[r.arm]? = some p ∧ ∃ r' ∈ rowsof p .root [0], r.slots = r'.slots ∧ r.cap = r'.cap ∧ r.hasor = r'.hasor

theorem genrows_arm (pats : List Pat) : ∀ (ps : List Pat) (i : Nat), (∀ j, ps[j]? = pats[i + j]?) → ∀ r ∈ genrows i ps, OfArm pats r := by
  intro ps
  induction ps with
  | nil => intro i _ r hr; simp [genrows] at hr
  | cons p ps ih =>
    intro i hj r hr
    simp only [genrows, List.mem_append] at hr
    rcases hr with hr | hr
    · rw [genfrontier_eq] at hr
      obtain ⟨r', hr', rfl⟩ := List.mem_map.1 hr
      refine ⟨p, ?_, r', hr', by simp [Row.app], by simp [Row.app], by simp [Row.app]⟩
      have := hj 0
      simpa [Row.app] using this.symm
    · refine ih (i + 1) ?_ r hr
      intro j
      have := hj (j + 1)
      rw [show i + 1 + j = i + (j + 1) by omega]
      simpa using this

theorem number_get (rs : List Row) (k i : Nat) : (number k rs)[i]? = (rs[i]?).map fun r => { r with final := k + i } := by
  induction rs generalizing k i with
  | nil => simp [number]
  | cons r rs ih =>
    cases i with
    | zero => simp [number]
    | succ i =>
      simp only [number, List.getElem?_cons_succ, ih]
      rw [show k + 1 + i = k + (i + 1) by omega]

theorem number_arm {pats : List Pat} {rs : List Row} {k : Nat} (h : ∀ r ∈ rs, OfArm pats r) : ∀ r ∈ number k rs, OfArm pats r := by
  intro r hr
  obtain ⟨i, hi⟩ := List.mem_iff_getElem?.1 hr
  rw [number_get] at hi
  cases e : rs[i]? with
  | none => rw [e] at hi; cases hi
  | some r' =>
    rw [e] at hi
    cases hi
    exact h r' (List.mem_of_getElem? e)

/-- The rows of a match statement. -/
def rowsall (pats : List Pat) : List Row := number 0 (genrows 0 pats)

theorem rowsall_arm (pats : List Pat) : ∀ r ∈ rowsall pats, OfArm pats r :=
  number_arm (genrows_arm pats pats 0 (by simp))

theorem good_rows {Γ : Defs} {pats : List Pat} {t : Ty} (ht : ∀ p ∈ pats, p.HasTy Γ t) (hm : ∀ p ∈ pats, p.tame = true) : Good (rowsall pats) := by
  constructor
  · intro r hr
    obtain ⟨p, _, r', h', e, _⟩ := rowsall_arm pats r hr
    rw [e]
    exact (rows_under p _ _ r' h').2
  · intro r hr r' hr' s hs s' hs' hc hc' he
    obtain ⟨p, hp, r1, h1, e1, _⟩ := rowsall_arm pats r hr
    obtain ⟨p', hp', r1', h1', e1', _⟩ := rowsall_arm pats r' hr'
    rw [e1] at hs ⊢
    rw [e1'] at hs' ⊢
    obtain ⟨g, i1, b1⟩ := rows_in p _ _ r1 h1 s hs hc
    obtain ⟨g', i1', b1'⟩ := rows_in p' _ _ r1' h1' s' hs' hc'
    have m1 := List.mem_of_getElem? hp
    have m2 := List.mem_of_getElem? hp'
    exact ⟨g, g', b1, b1', i1.pat.2, i1'.pat.2,
      cross _ p p' t _ _ g g' s s' (Nat.lt_succ_self _) (hm p m1) (hm p' m2) (ht p m1) (ht p' m2) i1 i1' he⟩

theorem guard_rows {Γ : Defs} {pats : List Pat} {t : Ty} (ht : ∀ p ∈ pats, p.HasTy Γ t) (hm : ∀ p ∈ pats, p.tame = true) {v : Val} (hv : HasVal Γ v t) :
    ∀ r ∈ rowsall pats, Guard v r.slots := by
  intro r hr
  obtain ⟨p, hp, r1, h1, e1, _⟩ := rowsall_arm pats r hr
  have m1 := List.mem_of_getElem? hp
  rw [e1]
  exact (rows_ok v p t .root [0] v (hm p m1) (ht p m1) hv rfl).2 r1 h1

theorem inv_start (R : List Row) : Inv R [] R := by
  refine ⟨by simp [Tests.paths], fun c hc => ⟨c, hc, rfl, [], by simp, (List.filter_eq_self.2 (by simp)).symm, ?_⟩⟩
  intro s _ _ h
  simp [Tests.paths] at h

theorem firstsat_number (v : Val) (rs : List Row) (k : Nat) : (firstsat v (number k rs)).map (fun r => (r.arm, r.cap)) = (firstsat v rs).map (fun r => (r.arm, r.cap)) := by
  induction rs generalizing k with
  | nil => rfl
  | cons r rs ih =>
    simp only [number]
    by_cases h : r.sat v
    · rw [firstsat_cons_pos h, firstsat_cons_pos (show Row.sat v { r with final := k } from h)]
      rfl
    · rw [firstsat_cons_neg h, firstsat_cons_neg (show ¬ Row.sat v { r with final := k } from h), ih]

/-- The first row which fits belongs to the first arm which matches. -/
theorem first_rows {Γ : Defs} {t : Ty} {v : Val} (hv : HasVal Γ v t) : ∀ (pats : List Pat) (i : Nat), (∀ p ∈ pats, p.HasTy Γ t) → (∀ p ∈ pats, p.tame = true) →
    (firstsat v (genrows i pats)).map (fun r => (r.arm, capval v r.cap)) = (first i pats v).map fun x => (x.1, some x.2) := by
  intro pats
  induction pats with
  | nil => intro i _ _; rfl
  | cons p ps ih =>
    intro i ht hm
    have hr := (rows_ok v p t .root [0] v (hm p (by simp)) (ht p (by simp)) hv rfl).1
    have ihp := ih (i + 1) (fun q hq => ht q (by simp [hq])) (fun q hq => hm q (by simp [hq]))
    have key : (firstsat v (genfrontier i p)).map (fun r => (r.arm, capval v r.cap)) = (outcome v (rowsof p .root [0])).map fun c => (i, c) := by
      rw [genfrontier_eq]
      generalize rowsof p .root [0] = rs
      induction rs with
      | nil => rfl
      | cons r rs ih =>
        have hs : (Row.app ⟨i, [], [], false, 0⟩ r).sat v ↔ r.sat v := by simp [Row.sat, Row.app]
        by_cases h : r.sat v
        · rw [List.map_cons, firstsat_cons_pos (hs.2 h), outcome_cons_pos h]
          simp [Row.app]
        · rw [List.map_cons, firstsat_cons_neg (fun k => h (hs.1 k)), outcome_cons_neg h, ih]
    simp only [genrows, first]
    have happ : firstsat v (genfrontier i p ++ genrows (i + 1) ps) = (firstsat v (genfrontier i p)).or (firstsat v (genrows (i + 1) ps)) := by
      simp [firstsat, List.find?_append]
    rw [happ, hr] at *
    cases e : p.bind v with
    | none =>
      rw [e] at key
      simp only [Option.map_none, Option.map_eq_none_iff] at key
      rw [key]
      simpa using ihp
    | some b =>
      rw [e] at key
      cases e' : firstsat v (genfrontier i p) with
      | none => rw [e'] at key; simp at key
      | some r =>
        rw [e'] at key
        simpa using key

end Verif.Match
