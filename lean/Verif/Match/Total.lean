import Verif.Match.Code

/-!
# Lemmas: the compiler ends, and when it does not crash
-/

namespace Verif.Match

open Verif

/-! ## Termination -/

/-- The tests left in a row. -/
def Row.weight (r : Row) : Nat := (r.slots.filter fun s => s.pat.isSome).length

/-- The tests left. -/
def weight (rows : List Row) : Nat := (rows.map Row.weight).sum

theorem drop_weight (r : Row) (path : List Nat) : (r.drop path).weight ≤ r.weight := by
  unfold Row.weight Row.drop
  exact List.Sublist.length_le (List.filter_sublist.filter _)

theorem drop_weight_lt {r : Row} {s : Slot} (hs : s ∈ r.slots) (hc : s.pat ≠ none) : (r.drop s.path).weight < r.weight := by
  unfold Row.weight Row.drop
  have h1 : s ∈ r.slots.filter fun s => s.pat.isSome := by
    rw [List.mem_filter]
    refine ⟨hs, ?_⟩
    cases e : s.pat with
    | none => exact absurd e hc
    | some a => rfl
  have h2 : s ∉ (r.slots.filter fun x => x.path ≠ s.path).filter fun s => s.pat.isSome := by simp
  rcases Nat.lt_or_ge ((r.slots.filter fun x => x.path ≠ s.path).filter fun s => s.pat.isSome).length (r.slots.filter fun s => s.pat.isSome).length with k | k
  · exact k
  · have := List.Sublist.eq_of_length_le (List.filter_sublist.filter _) k
    rw [this] at h2
    exact absurd h1 h2

theorem project_weight {a : Atom} {path : List Nat} {r r' : Row} (h : project a path r = some r') : r' = r.drop path := by
  unfold project at h
  split at h
  · exact (Option.some.inj h).symm
  · split at h
    · exact (Option.some.inj h).symm
    · split at h
      · exact (Option.some.inj h).symm
      · cases h

theorem weight_filterMap (a : Atom) (path : List Nat) (rows : List Row) : weight (rows.filterMap (project a path)) ≤ weight rows := by
  induction rows with
  | nil => simp [weight]
  | cons r rs ih =>
    cases e : project a path r with
    | none =>
      rw [List.filterMap_cons_none e]
      simp only [weight, List.map_cons, List.sum_cons] at ih ⊢
      omega
    | some r' =>
      rw [List.filterMap_cons_some e]
      have h1 := drop_weight r path
      rw [← project_weight e] at h1
      simp only [weight, List.map_cons, List.sum_cons] at ih ⊢
      omega

theorem weight_filter (f : Row → Bool) (rows : List Row) : weight (rows.filter f) ≤ weight rows := by
  induction rows with
  | nil => simp [weight]
  | cons r rs ih =>
    cases e : f r with
    | false =>
      rw [List.filter_cons_of_neg (by simp [e])]
      simp only [weight, List.map_cons, List.sum_cons] at ih ⊢
      omega
    | true =>
      rw [List.filter_cons_of_pos e]
      simp only [weight, List.map_cons, List.sum_cons] at ih ⊢
      omega

theorem pick_mem {r : Row} {s : Slot} (h : pick r = some s) : s ∈ r.slots ∧ s.pat ≠ none := by
  have h1 := List.find?_some h
  exact ⟨List.mem_of_find?_eq_some h, by intro e; simp [e] at h1⟩

theorem weight_project_lt {fs : Row} {rs : List Row} {s : Slot} (h : pick fs = some s) (a : Atom) :
    weight ((fs :: rs).filterMap (project a s.path)) < weight (fs :: rs) := by
  obtain ⟨h1, h2⟩ := pick_mem h
  have h3 := weight_filterMap a s.path rs
  have h4 := drop_weight_lt h1 h2
  cases e : project a s.path fs with
  | none =>
    rw [List.filterMap_cons_none e]
    simp only [weight, List.map_cons, List.sum_cons] at h3 ⊢
    omega
  | some r' =>
    rw [List.filterMap_cons_some e]
    rw [← project_weight e] at h4
    simp only [weight, List.map_cons, List.sum_cons] at h3 ⊢
    omega

theorem weight_dflt_lt {fs : Row} {rs : List Row} {s : Slot} (hn : (fs.slots.map Slot.path).Nodup) (h : pick fs = some s) :
    weight ((fs :: rs).filter (isdflt s.path)) < weight (fs :: rs) := by
  obtain ⟨h1, h2⟩ := pick_mem h
  have h3 := weight_filter (isdflt s.path) rs
  have h4 := drop_weight_lt h1 h2
  have e : isdflt s.path fs = false := by
    unfold isdflt
    rw [at_eq hn h1]
    cases e : s.pat with
    | none => exact absurd e h2
    | some a => simp [e]
  rw [List.filter_cons_of_neg (by simp [e])]
  simp only [weight, List.map_cons, List.sum_cons] at h3 ⊢
  omega

theorem usable_nospin (n : Node) (l : Load) (es : List (Atom × Nat)) (any : Option Nat) : usable n l es any ≠ .spin := by
  unfold usable
  split
  · simp
  · split
    · simp
    · split
      · simp
      · split <;> simp

theorem reuse_nospin (l : Load) (es : List (Atom × Nat)) (any : Option Nat) (ns : List Node) (i : Nat) : reuse l es any i ns ≠ .spin := by
  induction ns generalizing i with
  | nil => simp [reuse]
  | cons n ns ih =>
    simp only [reuse]
    cases h : usable n l es any with
    | ok b =>
      simp only [Res.bind_ok]
      split
      · simp
      · exact ih _
    | abort => simp
    | ub => simp
    | spin => exact absurd h (usable_nospin _ _ _ _)

theorem mknode_nospin (s : Slot) (es : List (Atom × Nat)) (any : Option Nat) (t : Tbl) : mknode s es any t ≠ .spin := by
  simp only [mknode]
  cases h : reuse s.load es any 0 t.nodes with
  | ok b => cases b <;> simp
  | abort => simp
  | ub => simp
  | spin => exact absurd h (reuse_nospin _ _ _ _ _)

/-- No path occurs twice in a row. -/
def Nodups (rows : List Row) : Prop := ∀ r ∈ rows, (r.slots.map Slot.path).Nodup

theorem nodups_project {rows : List Row} (h : Nodups rows) (a : Atom) (path : List Nat) : Nodups (rows.filterMap (project a path)) := by
  intro r hr
  obtain ⟨r0, h0, e⟩ := List.mem_filterMap.1 hr
  rw [project_weight e]
  exact (h r0 h0).sublist (List.filter_sublist.map _)

theorem compile_nospin (f : Nat) : ∀ (rows : List Row) (t : Tbl), Nodups rows → weight rows < f → compile f rows t ≠ .spin := by
  induction f with
  | zero => intro _ _ _ h; omega
  | succ f ih =>
    intro rows t hn hw
    cases rows with
    | nil => simp [compile]
    | cons fs rs =>
      simp only [compile]
      cases hp : pick fs with
      | none => simp
      | some s =>
        simp only
        have hedges : ∀ (cs : List Atom) (t : Tbl), edges (compile f) s.path (fs :: rs) cs t ≠ .spin := by
          intro cs
          induction cs with
          | nil => intro t; simp [edges]
          | cons c cs ihc =>
            intro t
            simp only [edges]
            cases h : projrows c s.path (fs :: rs) with
            | ok row =>
              have e := projrows_ok h
              simp only [Res.bind_ok]
              split
              · exact ihc t
              · have := ih row t (e ▸ nodups_project hn c s.path) (by rw [e]; have := weight_project_lt (rs := rs) hp c; omega)
                cases h' : compile f row t with
                | ok x =>
                  simp only [Res.bind_ok]
                  cases h2 : edges (compile f) s.path (fs :: rs) cs x.2 with
                  | ok y => simp
                  | abort => simp
                  | ub => simp
                  | spin => exact absurd h2 (ihc _)
                | abort => simp
                | ub => simp
                | spin => exact absurd h' this
            | abort => simp
            | ub => simp
            | spin => simp only [projrows] at h; split at h <;> cases h
        cases h1 : edges (compile f) s.path (fs :: rs) (consat s.path (fs :: rs)) t with
        | ok e =>
          simp only [Res.bind_ok]
          have hd : dflt (compile f) s.path (fs :: rs) e.2 ≠ .spin := by
            simp only [dflt]
            split
            · simp
            · have hn' : Nodups ((fs :: rs).filter (isdflt s.path)) := fun r hr => hn r (List.mem_filter.1 hr).1
              have := ih _ e.2 hn' (by have := weight_dflt_lt (rs := rs) (hn fs (by simp)) hp; omega)
              cases h' : compile f ((fs :: rs).filter (isdflt s.path)) e.2 with
              | ok x => simp
              | abort => simp
              | ub => simp
              | spin => exact absurd h' this
          cases h2 : dflt (compile f) s.path (fs :: rs) e.2 with
          | ok d => simpa using mknode_nospin _ _ _ _
          | abort => simp
          | ub => simp
          | spin => exact absurd h2 hd
        | abort => simp
        | ub => simp
        | spin => exact absurd h1 (hedges _ _)

theorem nodups_rowsall (pats : List Pat) : Nodups (rowsall pats) := by
  intro r hr
  obtain ⟨p, _, r', h', e, _⟩ := rowsall_arm pats r hr
  rw [e]
  exact (rows_under p _ _ r' h').2

/-! ## Checks and code are total -/

/-- Edges lead to nodes with smaller numbers. -/
def Down (nodes : List Node) : Prop := ∀ (i : Nat) (l : Load) (es : List (Atom × Nat)) (any : Option Nat) (nc : Nat), nodes[i]? = some (Node.test l es any nc) → (∀ e ∈ es, e.2 < i) ∧ ∀ j, any = some j → j < i

theorem TOk.down {t : Tbl} (h : TOk t) : Down t.nodes := by
  intro i l es any nc hi
  obtain ⟨h1, h2⟩ := h i l es any nc hi
  exact ⟨fun e he => (h1 e he).1, fun j hj => (h2 j hj).1⟩

theorem verify_total {nodes : List Node} (hd : Down nodes) (f : Nat) : ∀ i, i < f → i < nodes.length → ∃ b, verify nodes f i = .ok b := by
  induction f with
  | zero => intro i h; omega
  | succ f ih =>
    intro i hf hl
    simp only [verify, List.getElem?_eq_getElem hl]
    cases hn : nodes[i] with
    | fin a c => exact ⟨true, rfl⟩
    | test l es any nc =>
      have hes := (hd i l es any nc (by rw [List.getElem?_eq_getElem hl, hn])).1
      have : ∀ es : List (Atom × Nat), (∀ e ∈ es, e.2 < i) → ∃ b, verify.vedges (verify nodes f) es = .ok b := by
        intro es
        induction es with
        | nil => intro _; exact ⟨true, rfl⟩
        | cons e es ihe =>
          intro h
          obtain ⟨b, hb⟩ := ih e.2 (by have := h e (by simp); omega) (by have := h e (by simp); omega)
          obtain ⟨c, hc⟩ := ihe (fun x hx => h x (by simp [hx]))
          exact ⟨b && c, by simp only [verify.vedges, hb, hc, Res.bind_ok]⟩
      obtain ⟨b, hb⟩ := this es hes
      exact ⟨(es.length == nc || any.isSome) && b, by simp only [hb, Res.bind_ok]⟩

theorem gencode_total {nodes : List Node} (hd : Down nodes) (f : Nat) : ∀ i g, i < f → i < nodes.length → ∃ g', gencode nodes f i g = .ok g' := by
  induction f with
  | zero => intro i g h; omega
  | succ f ih =>
    intro i g hf hl
    simp only [gencode]
    split
    · exact ⟨_, rfl⟩
    · simp only [List.getElem?_eq_getElem hl]
      cases hn : nodes[i] with
      | fin a c => exact ⟨_, rfl⟩
      | test l es any nc =>
        obtain ⟨hes, hany⟩ := hd i l es any nc (by rw [List.getElem?_eq_getElem hl, hn])
        simp only
        obtain ⟨d, h1, h1'⟩ : ∃ d, anylbl nodes any = .ok d ∧ ∀ x, d = some x → any = some x.1 := by
          cases any with
          | none => exact ⟨none, rfl, by simp⟩
          | some j =>
            have := hany j rfl
            refine ⟨some (j, lblof j (nodes[j]'(by omega))), ?_, ?_⟩
            · simp only [anylbl]
              rw [List.getElem?_eq_getElem (show j < nodes.length by omega)]
            · intro x hx; cases hx; rfl
        rw [h1]
        simp only [Res.bind_ok]
        have : ∀ (es : List (Atom × Nat)) (g : G), (∀ e ∈ es, e.2 < i) → ∃ g', genedges (gencode nodes f) nodes l (d.map Prod.snd) es g = .ok g' := by
          intro es
          induction es with
          | nil => intro g _; exact ⟨g, rfl⟩
          | cons e es ihe =>
            intro g h
            obtain ⟨a, j⟩ := e
            have hj : j < i := h (a, j) (by simp)
            simp only [genedges]
            rw [List.getElem?_eq_getElem (show j < nodes.length by omega)]
            simp only
            split
            · exact ih j _ (by omega) (by omega)
            · obtain ⟨g1, k1⟩ := ih j (gentest { g with fresh := g.fresh + 1 } l a j nodes[j] (.gen g.fresh)) (by omega) (by omega)
              rw [k1]
              simp only [Res.bind_ok]
              exact ihe _ (fun x hx => h x (by simp [hx]))
        obtain ⟨g2, k2⟩ := this es _ hes
        rw [k2]
        simp only [Res.bind_ok]
        cases d with
        | none => exact ⟨_, rfl⟩
        | some x =>
          have := hany x.1 (h1' x rfl)
          exact ih x.1 _ (by omega) (by omega)

/-! ## No crash -/

/-- Two lists of slots disagree about a test. -/
def Apart (g g' : List Slot) : Prop := ∃ x ∈ g, ∃ y ∈ g', x.path = y.path ∧ x.load = y.load ∧ x.pat ≠ y.pat ∧ x.pat ≠ none ∧ y.pat ≠ none

theorem Apart.right {g g' h : List Slot} (k : Apart g g') (hs : ∀ y ∈ g', y ∈ h) : Apart g h := by
  obtain ⟨x, hx, y, hy, r⟩ := k
  exact ⟨x, hx, y, hs y hy, r⟩

theorem Apart.left {g g' h : List Slot} (k : Apart g g') (hs : ∀ y ∈ g, y ∈ h) : Apart h g' := by
  obtain ⟨x, hx, y, hy, r⟩ := k
  exact ⟨x, hs x hx, y, hy, r⟩

theorem plain_get : ∀ (ps : Pats) (i : Nat) (p : Pat), ps.plain = true → ps.get i = some p → p.plain = true
  | .nil, i, p, h1, h2 => by simp [Pats.get] at h2
  | .cons p0 ps, 0, p, h1, h2 => by
    simp only [Pats.get, Option.some.injEq] at h2; subst h2
    simp only [Pats.plain, Bool.and_eq_true] at h1
    exact h1.1
  | .cons p0 ps, i + 1, p, h1, h2 => by
    simp only [Pats.plain, Bool.and_eq_true] at h1
    exact plain_get ps i p h1.2 h2

/-- Both lists have an `i`-th pattern, of one type. -/
theorem get_other {Γ : Defs} : ∀ (ps qs : Pats) (ts : List Ty) (i : Nat) (p : Pat), ps.HasTys Γ ts → qs.HasTys Γ ts → ps.get i = some p →
    ∃ q, qs.get i = some q
  | .nil, qs, ts, i, p, h1, h2, g1 => by simp [Pats.get] at g1
  | .cons p0 ps, qs, [], i, p, h1, h2, g1 => by simp [Pats.HasTys] at h1
  | .cons p0 ps, .nil, t :: ts, i, p, h1, h2, g1 => by simp [Pats.HasTys] at h2
  | .cons p0 ps, .cons q0 qs, t :: ts, 0, p, h1, h2, g1 => ⟨q0, rfl⟩
  | .cons p0 ps, .cons q0 qs, t :: ts, i + 1, p, h1, h2, g1 => by
    simp only [Pats.HasTys] at h1 h2
    exact get_other ps qs ts i p h1.2 h2.2 g1

/-- The first row. -/
def row1 (p : Pat) (l : Load) (π : List Nat) : Row := (addrec e0 p l π).1

theorem row1_get (k : Agg) : ∀ (qs : Pats) (l : Load) (π : List Nat) (i j : Nat) (q : Pat), qs.get j = some q →
    ∀ s ∈ (row1 q (.elt k l (i + j)) (π ++ [i + j])).slots, s ∈ (addlist e0 k qs l π i).1.slots
  | .nil, l, π, i, j, q, h => by simp [Pats.get] at h
  | .cons p ps, l, π, i, 0, q, h => by
    simp only [Pats.get, Option.some.injEq] at h; subst h
    intro s hs
    simp only [addlist]
    rw [addlist_app]
    simp only [Row.app, List.mem_append]
    exact .inl hs
  | .cons p ps, l, π, i, j + 1, q, h => by
    intro s hs
    simp only [addlist]
    rw [addlist_app]
    simp only [Row.app, List.mem_append]
    right
    apply row1_get k ps l π (i + 1) j q h
    rw [show i + 1 + j = i + (j + 1) by omega]
    exact hs

/-- Each test of one pattern lies at or below a slot of any other, unless they disagree before. -/
theorem cover {Γ : Defs} {p : Pat} {l : Load} {π : List Nat} {g : List Slot} {s : Slot} (h : In p l π g s) : ∀ {q : Pat} {t : Ty}, p.plain = true → q.plain = true →
    p.HasTy Γ t → q.HasTy Γ t → (∃ s' ∈ (row1 q l π).slots, s'.path <+: s.path) ∨ Apart g (row1 q l π).slots := by
  have hgap : ∀ {p : Pat} {l : Load} {π : List Nat} {g : List Slot} {s : Slot}, In p l π g s → ∃ s' ∈ (row1 .gap l π).slots, s'.path <+: s.path := by
    intro p l π g s h
    exact ⟨⟨π, none, l, 0⟩, by simp [row1, addrec, Row.slot], h.prefix⟩
  have hvar : ∀ {p : Pat} {l : Load} {π : List Nat} {g : List Slot} {s : Slot} {d : Nat}, In p l π g s → ∃ s' ∈ (row1 (.var d) l π).slots, s'.path <+: s.path := by
    intro p l π g s d h
    exact ⟨⟨π, none, l, 0⟩, by simp [row1, addrec], h.prefix⟩
  induction h with
  | @lit a l π =>
    intro q t hp hq htp htq
    simp only [Pat.HasTy] at htp
    cases q with
    | gap => exact .inl (hgap (In.lit (a := a)))
    | var d => exact .inl (hvar (In.lit (a := a)))
    | cst p => simp [Pat.plain] at hq
    | lit b => exact .inl ⟨atslot π b l, by simp [row1, addrec, Row.slot], by simp [atslot]⟩
    | str b => simp only [Pat.HasTy] at htq; rw [htp.1] at htq; cases htq
    | addr p => obtain ⟨u, e, _⟩ := htq; rw [htp.1] at e; cases e
    | ucon0 n i => obtain ⟨cs, e, _⟩ := htq; rw [htp.1] at e; cases e
    | ucon n i p => obtain ⟨cs, u, e, _⟩ := htq; rw [htp.1] at e; cases e
    | agg k ps => obtain ⟨u, e, _⟩ := htq; rw [htp.1] at e; cases e
    | lor a b => simp [Pat.plain] at hq
  | @len b l π =>
    intro q t hp hq htp htq
    simp only [Pat.HasTy] at htp
    cases q with
    | gap => exact .inl (hgap (In.len (s := b)))
    | var d => exact .inl (hvar (In.len (s := b)))
    | cst p => simp [Pat.plain] at hq
    | lit b => simp only [Pat.HasTy] at htq; rw [htp] at htq; cases htq.1
    | str c =>
      refine .inl ⟨atslot (π ++ [0]) ⟨.int 64, c.length⟩ (.len l), ?_, by simp [atslot]⟩
      simp [row1, addrec, addbytes_eq, Row.slot]
    | addr p => obtain ⟨u, e, _⟩ := htq; rw [htp] at e; cases e
    | ucon0 n i => obtain ⟨cs, e, _⟩ := htq; rw [htp] at e; cases e
    | ucon n i p => obtain ⟨cs, u, e, _⟩ := htq; rw [htp] at e; cases e
    | agg k ps => obtain ⟨u, e, _⟩ := htq; rw [htp] at e; cases e
    | lor a b => simp [Pat.plain] at hq
  | @byte b l π j x hj =>
    intro q t hp hq htp htq
    simp only [Pat.HasTy] at htp
    cases q with
    | gap => exact .inl (hgap (In.byte (b := x) hj))
    | var d => exact .inl (hvar (In.byte (b := x) hj))
    | cst p => simp [Pat.plain] at hq
    | lit b => simp only [Pat.HasTy] at htq; rw [htp] at htq; cases htq.1
    | str c =>
      have hrow : (row1 (.str c) l π).slots = sslots l π c := by simp [row1, addrec, addbytes_eq, Row.slot, e0, sslots]
      rw [hrow]
      by_cases hlen : b.length = c.length
      · left
        have : ∀ (c : List Byte) (i j : Nat), i ≤ j → j - i < c.length → ∃ s' ∈ bslots l π i c, s'.path = π ++ [1 + j] := by
          intro c
          induction c with
          | nil => intro i j _ h; simp at h
          | cons y ys ih =>
            intro i j hij h
            by_cases e : i = j
            · subst e
              exact ⟨_, by simp [bslots]; exact .inl rfl, rfl⟩
            · obtain ⟨s', h1, h2⟩ := ih (i + 1) j (by omega) (by simp only [List.length_cons] at h; omega)
              exact ⟨s', by simp [bslots, h1], h2⟩
        obtain ⟨s', h1, h2⟩ := this c 0 j (by omega) (by omega)
        exact ⟨s', by simp [sslots, h1], by simp [h2, atslot]⟩
      · right
        exact ⟨atslot (π ++ [0]) ⟨.int 64, b.length⟩ (.len l), by simp, atslot (π ++ [0]) ⟨.int 64, c.length⟩ (.len l), by simp [sslots], rfl, rfl,
          by simpa [atslot] using hlen, by simp [atslot], by simp [atslot]⟩
    | addr p => obtain ⟨u, e, _⟩ := htq; rw [htp] at e; cases e
    | ucon0 n i => obtain ⟨cs, e, _⟩ := htq; rw [htp] at e; cases e
    | ucon n i p => obtain ⟨cs, u, e, _⟩ := htq; rw [htp] at e; cases e
    | agg k ps => obtain ⟨u, e, _⟩ := htq; rw [htp] at e; cases e
    | lor a b => simp [Pat.plain] at hq
  | @tag0 n i l π =>
    intro q t hp hq htp htq
    obtain ⟨cs, e1, _⟩ := htp
    cases q with
    | gap => exact .inl (hgap (In.tag0 (n := n) (t := i)))
    | var d => exact .inl (hvar (In.tag0 (n := n) (t := i)))
    | cst p => simp [Pat.plain] at hq
    | lit b => obtain ⟨e, _⟩ := htq; rw [e1] at e; cases e
    | str b => simp only [Pat.HasTy] at htq; rw [e1] at htq; cases htq
    | addr p => obtain ⟨u, e, _⟩ := htq; rw [e1] at e; cases e
    | ucon0 m j => exact .inl ⟨tagslot m j l π, by simp [row1, addrec, Row.slot, tagslot], by simp [tagslot]⟩
    | ucon m j p =>
      refine .inl ⟨tagslot m j l π, ?_, by simp [tagslot]⟩
      simp only [row1, addrec]; rw [addrec_app]; simp [Row.app, Row.slot, tagslot]
    | agg k ps => obtain ⟨u, e, _⟩ := htq; rw [e1] at e; cases e
    | lor a b => simp [Pat.plain] at hq
  | @tag n i p l π =>
    intro q t hp hq htp htq
    obtain ⟨cs, u, e1, _⟩ := htp
    cases q with
    | gap => exact .inl (hgap (In.tag (n := n) (t := i) (p := p)))
    | var d => exact .inl (hvar (In.tag (n := n) (t := i) (p := p)))
    | cst p => simp [Pat.plain] at hq
    | lit b => obtain ⟨e, _⟩ := htq; rw [e1] at e; cases e
    | str b => simp only [Pat.HasTy] at htq; rw [e1] at htq; cases htq
    | addr p => obtain ⟨u, e, _⟩ := htq; rw [e1] at e; cases e
    | ucon0 m j => exact .inl ⟨tagslot m j l π, by simp [row1, addrec, Row.slot, tagslot], by simp [tagslot]⟩
    | ucon m j p =>
      refine .inl ⟨tagslot m j l π, ?_, by simp [tagslot]⟩
      simp only [row1, addrec]; rw [addrec_app]; simp [Row.app, Row.slot, tagslot]
    | agg k ps => obtain ⟨u, e, _⟩ := htq; rw [e1] at e; cases e
    | lor a b => simp [Pat.plain] at hq
  | @data n i p l π g s h ih =>
    intro q t hp hq htp htq
    obtain ⟨cs, u, e1, e2, e3, e4⟩ := htp
    cases q with
    | gap => exact .inl (hgap (In.data (n := n) (t := i) h))
    | var d => exact .inl (hvar (In.data (n := n) (t := i) h))
    | cst p => simp [Pat.plain] at hq
    | lit b => obtain ⟨e, _⟩ := htq; rw [e1] at e; cases e
    | str b => simp only [Pat.HasTy] at htq; rw [e1] at htq; cases htq
    | addr p => obtain ⟨u, e, _⟩ := htq; rw [e1] at e; cases e
    | ucon0 m j =>
      obtain ⟨cs', f1, f2, f3⟩ := htq
      rw [e1] at f1; cases f1
      right
      refine ⟨tagslot n i l π, by simp, tagslot m j l π, by simp [row1, addrec, Row.slot, tagslot], rfl, rfl, ?_, by simp [tagslot], by simp [tagslot]⟩
      simp only [tagslot, ne_eq, Option.some.injEq, Atom.mk.injEq, true_and]
      rintro rfl
      rw [e3] at f3; cases f3
    | ucon m j p' =>
      obtain ⟨cs', u', f1, f2, f3, f4⟩ := htq
      rw [e1] at f1; cases f1
      have hrow : (row1 (.ucon m j p') l π).slots = tagslot m j l π :: (row1 p' (.udata l) (π ++ [1])).slots := by
        simp only [row1, addrec]; rw [addrec_app]; simp [Row.app, Row.slot, tagslot, e0]
      rw [hrow]
      by_cases e : i = j
      · subst e
        rw [e3] at f3; cases f3
        rcases ih (q := p') hp hq e4 f4 with ⟨s', k1, k2⟩ | k
        · exact .inl ⟨s', by simp [k1], k2⟩
        · exact .inr ((k.left (fun y hy => List.mem_cons_of_mem _ hy)).right (fun y hy => List.mem_cons_of_mem _ hy))
      · right
        exact ⟨tagslot n i l π, by simp, tagslot m j l π, by simp, rfl, rfl, by simp [tagslot, e], by simp [tagslot], by simp [tagslot]⟩
    | agg k ps => obtain ⟨u, e, _⟩ := htq; rw [e1] at e; cases e
    | lor a b => simp [Pat.plain] at hq
  | @addr p l π g s h ih =>
    intro q t hp hq htp htq
    obtain ⟨u, e1, e2⟩ := htp
    cases q with
    | gap => exact .inl (hgap (In.addr h))
    | var d => exact .inl (hvar (In.addr h))
    | cst p => simp [Pat.plain] at hq
    | lit b => obtain ⟨e, _⟩ := htq; rw [e1] at e; cases e
    | str b => simp only [Pat.HasTy] at htq; rw [e1] at htq; cases htq
    | addr p' =>
      obtain ⟨u', f1, f2⟩ := htq
      rw [e1] at f1; cases f1
      exact ih (q := p') hp hq e2 f2
    | ucon0 m j => obtain ⟨cs, e, _⟩ := htq; rw [e1] at e; cases e
    | ucon m j p => obtain ⟨cs, u, e, _⟩ := htq; rw [e1] at e; cases e
    | agg k ps => obtain ⟨u, e, _⟩ := htq; rw [e1] at e; cases e
    | lor a b => simp [Pat.plain] at hq
  | cst _ _ => intro q t hp; simp [Pat.plain] at hp
  | @elt k ps i p l π g s hg h ih =>
    intro q t hp hq htp htq
    obtain ⟨ts, e1, e2⟩ := htp
    cases q with
    | gap => exact .inl (hgap (In.elt hg h))
    | var d => exact .inl (hvar (In.elt hg h))
    | cst p => simp [Pat.plain] at hq
    | lit b => obtain ⟨e, _⟩ := htq; rw [e1] at e; cases e
    | str b => simp only [Pat.HasTy] at htq; rw [e1] at htq; cases htq
    | addr p' => obtain ⟨u, e, _⟩ := htq; rw [e1] at e; cases e
    | ucon0 m j => obtain ⟨cs, e, _⟩ := htq; rw [e1] at e; cases e
    | ucon m j p => obtain ⟨cs, u, e, _⟩ := htq; rw [e1] at e; cases e
    | agg k' qs =>
      obtain ⟨ts', f1, f2⟩ := htq
      rw [e1] at f1; cases f1
      obtain ⟨q', hq'⟩ := get_other ps qs ts i p e2 f2 hg
      obtain ⟨u, u1, u2⟩ := pats_get ps qs ts i p q' e2 f2 hg hq'
      have hsub : ∀ s ∈ (row1 q' (.elt k l i) (π ++ [i])).slots, s ∈ (row1 (.agg k qs) l π).slots := by
        have := row1_get k qs l π 0 i q' hq'
        simpa [row1, addrec] using this
      rcases ih (plain_get ps i p hp hg) (plain_get qs i q' hq hq') u1 u2 with ⟨s', k1, k2⟩ | kk
      · exact .inl ⟨s', hsub s' k1, k2⟩
      · exact .inr (kk.right hsub)
    | lor a b => simp [Pat.plain] at hq
  | orl _ _ => intro q t hp; simp [Pat.plain] at hp
  | orr _ _ => intro q t hp; simp [Pat.plain] at hp

theorem snoc_prefix_snoc {π p : List Nat} {i j : Nat} (h : π ++ [i] <+: p) (h' : p <+: π ++ [j]) : i = j :=
  prefix_snoc_inj (h.trans h') (List.prefix_refl _)

/-- No test lies below another, unless they disagree before. -/
theorem noext {Γ : Defs} {p : Pat} {l : Load} {π : List Nat} {g : List Slot} {s : Slot} (h : In p l π g s) : ∀ {q : Pat} {t : Ty} {g' : List Slot} {s' : Slot},
    p.plain = true → q.plain = true → p.HasTy Γ t → q.HasTy Γ t → In q l π g' s' → s.path <+: s'.path → s.path = s'.path ∨ Apart g g' := by
  induction h with
  | @lit a l π =>
    intro q t g' s' hp hq htp htq hi hpre
    simp only [Pat.HasTy] at htp
    cases hi with
    | lit => exact .inl rfl
    | len => simp only [Pat.HasTy] at htq; rw [htp.1] at htq; cases htq
    | byte _ => simp only [Pat.HasTy] at htq; rw [htp.1] at htq; cases htq
    | tag0 => obtain ⟨cs, e, _⟩ := htq; rw [htp.1] at e; cases e
    | tag => obtain ⟨cs, u, e, _⟩ := htq; rw [htp.1] at e; cases e
    | data h' => obtain ⟨cs, u, e, _⟩ := htq; rw [htp.1] at e; cases e
    | addr h' => obtain ⟨u, e, _⟩ := htq; rw [htp.1] at e; cases e
    | cst h' => simp [Pat.plain] at hq
    | elt _ h' => obtain ⟨u, e, _⟩ := htq; rw [htp.1] at e; cases e
    | orl h' => simp [Pat.plain] at hq
    | orr h' => simp [Pat.plain] at hq
  | @len b l π =>
    intro q t g' s' hp hq htp htq hi hpre
    simp only [Pat.HasTy] at htp
    cases hi with
    | lit => simp only [Pat.HasTy] at htq; rw [htp] at htq; cases htq.1
    | len => exact .inl rfl
    | byte _ =>
      have := snoc_prefix_snoc (List.prefix_refl _) hpre
      omega
    | tag0 => obtain ⟨cs, e, _⟩ := htq; rw [htp] at e; cases e
    | tag => obtain ⟨cs, u, e, _⟩ := htq; rw [htp] at e; cases e
    | data h' => obtain ⟨cs, u, e, _⟩ := htq; rw [htp] at e; cases e
    | addr h' => obtain ⟨u, e, _⟩ := htq; rw [htp] at e; cases e
    | cst h' => simp [Pat.plain] at hq
    | elt _ h' => obtain ⟨u, e, _⟩ := htq; rw [htp] at e; cases e
    | orl h' => simp [Pat.plain] at hq
    | orr h' => simp [Pat.plain] at hq
  | @byte b l π j x hj =>
    intro q t g' s' hp hq htp htq hi hpre
    simp only [Pat.HasTy] at htp
    cases hi with
    | lit => simp only [Pat.HasTy] at htq; rw [htp] at htq; cases htq.1
    | len =>
      have := snoc_prefix_snoc (List.prefix_refl _) hpre
      omega
    | byte _ =>
      have := snoc_prefix_snoc (List.prefix_refl _) hpre
      exact .inl (by simp only [atslot, this])
    | tag0 => obtain ⟨cs, e, _⟩ := htq; rw [htp] at e; cases e
    | tag => obtain ⟨cs, u, e, _⟩ := htq; rw [htp] at e; cases e
    | data h' => obtain ⟨cs, u, e, _⟩ := htq; rw [htp] at e; cases e
    | addr h' => obtain ⟨u, e, _⟩ := htq; rw [htp] at e; cases e
    | cst h' => simp [Pat.plain] at hq
    | elt _ h' => obtain ⟨u, e, _⟩ := htq; rw [htp] at e; cases e
    | orl h' => simp [Pat.plain] at hq
    | orr h' => simp [Pat.plain] at hq
  | @tag0 n i l π =>
    intro q t g' s' hp hq htp htq hi hpre
    obtain ⟨cs, e1, _⟩ := htp
    cases hi with
    | lit => obtain ⟨e, _⟩ := htq; rw [e1] at e; cases e
    | len => simp only [Pat.HasTy] at htq; rw [e1] at htq; cases htq
    | byte _ => simp only [Pat.HasTy] at htq; rw [e1] at htq; cases htq
    | tag0 => exact .inl rfl
    | tag => exact .inl rfl
    | data h' =>
      have := prefix_snoc_inj (show π ++ [0] <+: s'.path from hpre) h'.prefix
      omega
    | addr h' => obtain ⟨u, e, _⟩ := htq; rw [e1] at e; cases e
    | cst h' => simp [Pat.plain] at hq
    | elt _ h' => obtain ⟨u, e, _⟩ := htq; rw [e1] at e; cases e
    | orl h' => simp [Pat.plain] at hq
    | orr h' => simp [Pat.plain] at hq
  | @tag n i p l π =>
    intro q t g' s' hp hq htp htq hi hpre
    obtain ⟨cs, u, e1, _⟩ := htp
    cases hi with
    | lit => obtain ⟨e, _⟩ := htq; rw [e1] at e; cases e
    | len => simp only [Pat.HasTy] at htq; rw [e1] at htq; cases htq
    | byte _ => simp only [Pat.HasTy] at htq; rw [e1] at htq; cases htq
    | tag0 => exact .inl rfl
    | tag => exact .inl rfl
    | data h' =>
      have := prefix_snoc_inj (show π ++ [0] <+: s'.path from hpre) h'.prefix
      omega
    | addr h' => obtain ⟨u, e, _⟩ := htq; rw [e1] at e; cases e
    | cst h' => simp [Pat.plain] at hq
    | elt _ h' => obtain ⟨u, e, _⟩ := htq; rw [e1] at e; cases e
    | orl h' => simp [Pat.plain] at hq
    | orr h' => simp [Pat.plain] at hq
  | @data n i p l π g s h ih =>
    intro q t g' s' hp hq htp htq hi hpre
    obtain ⟨cs, u, e1, e2, e3, e4⟩ := htp
    cases hi with
    | lit => obtain ⟨e, _⟩ := htq; rw [e1] at e; cases e
    | len => simp only [Pat.HasTy] at htq; rw [e1] at htq; cases htq
    | byte _ => simp only [Pat.HasTy] at htq; rw [e1] at htq; cases htq
    | tag0 =>
      have := snoc_prefix_snoc h.prefix hpre
      omega
    | tag =>
      have := snoc_prefix_snoc h.prefix hpre
      omega
    | @data m j p' _ _ g' _ h' =>
      obtain ⟨cs', u', f1, f2, f3, f4⟩ := htq
      rw [e1] at f1; cases f1
      by_cases e : i = j
      · subst e
        rw [e3] at f3; cases f3
        rcases ih (q := p') hp hq e4 f4 h' hpre with k | k
        · exact .inl k
        · exact .inr ((k.left (fun y hy => List.mem_cons_of_mem _ hy)).right (fun y hy => List.mem_cons_of_mem _ hy))
      · right
        exact ⟨tagslot n i l π, by simp, tagslot m j l π, by simp, rfl, rfl, by simp [tagslot, e], by simp [tagslot], by simp [tagslot]⟩
    | addr h' => obtain ⟨u, e, _⟩ := htq; rw [e1] at e; cases e
    | cst h' => simp [Pat.plain] at hq
    | elt _ h' => obtain ⟨u, e, _⟩ := htq; rw [e1] at e; cases e
    | orl h' => simp [Pat.plain] at hq
    | orr h' => simp [Pat.plain] at hq
  | @addr p l π g s h ih =>
    intro q t g' s' hp hq htp htq hi hpre
    obtain ⟨u, e1, e2⟩ := htp
    cases hi with
    | lit => obtain ⟨e, _⟩ := htq; rw [e1] at e; cases e
    | len => simp only [Pat.HasTy] at htq; rw [e1] at htq; cases htq
    | byte _ => simp only [Pat.HasTy] at htq; rw [e1] at htq; cases htq
    | tag0 => obtain ⟨cs, e, _⟩ := htq; rw [e1] at e; cases e
    | tag => obtain ⟨cs, u, e, _⟩ := htq; rw [e1] at e; cases e
    | data h' => obtain ⟨cs, u, e, _⟩ := htq; rw [e1] at e; cases e
    | @addr p' _ _ _ _ h' =>
      obtain ⟨u', f1, f2⟩ := htq
      rw [e1] at f1; cases f1
      exact ih (q := p') hp hq e2 f2 h' hpre
    | cst h' => simp [Pat.plain] at hq
    | elt _ h' => obtain ⟨u, e, _⟩ := htq; rw [e1] at e; cases e
    | orl h' => simp [Pat.plain] at hq
    | orr h' => simp [Pat.plain] at hq
  | cst _ _ => intro q t g' s' hp; simp [Pat.plain] at hp
  | @elt k ps i p l π g s hg h ih =>
    intro q t g' s' hp hq htp htq hi hpre
    obtain ⟨ts, e1, e2⟩ := htp
    cases hi with
    | lit => obtain ⟨e, _⟩ := htq; rw [e1] at e; cases e
    | len => simp only [Pat.HasTy] at htq; rw [e1] at htq; cases htq
    | byte _ => simp only [Pat.HasTy] at htq; rw [e1] at htq; cases htq
    | tag0 => obtain ⟨cs, e, _⟩ := htq; rw [e1] at e; cases e
    | tag => obtain ⟨cs, u, e, _⟩ := htq; rw [e1] at e; cases e
    | data h' => obtain ⟨cs, u, e, _⟩ := htq; rw [e1] at e; cases e
    | addr h' => obtain ⟨u, e, _⟩ := htq; rw [e1] at e; cases e
    | cst h' => simp [Pat.plain] at hq
    | @elt k' qs j q' _ _ _ _ hg' h' =>
      obtain ⟨ts', f1, f2⟩ := htq
      rw [e1] at f1; cases f1
      have := prefix_snoc_inj (h.prefix.trans hpre) h'.prefix
      subst this
      obtain ⟨u, u1, u2⟩ := pats_get ps qs ts i p q' e2 f2 hg hg'
      exact ih (plain_get ps i p hp hg) (plain_get qs i q' hq hg') u1 u2 h' hpre
    | orl h' => simp [Pat.plain] at hq
    | orr h' => simp [Pat.plain] at hq
  | orl _ _ => intro q t g' s' hp; simp [Pat.plain] at hp
  | orr _ _ => intro q t g' s' hp; simp [Pat.plain] at hp

theorem split_unique {ss : List Slot} (hn : (ss.map Slot.path).Nodup) {s : Slot} {pre pre' post post' : List Slot} (h : ss = pre ++ s :: post)
    (h' : ss = pre' ++ s :: post') : pre' = pre := by
  have hn' : ss.Nodup := List.Pairwise.of_map Slot.path (fun a b h e => h (by rw [e])) hn
  have a1 : s ∉ pre := by
    intro k
    rw [h] at hn'
    exact (List.nodup_append.1 hn').2.2 s k s (by simp) rfl
  have a2 : s ∉ pre' := by
    intro k
    rw [h'] at hn'
    exact (List.nodup_append.1 hn').2.2 s k s (by simp) rfl
  rw [h] at h'
  rcases List.append_eq_append_iff.1 h' with ⟨w, hw1, hw2⟩ | ⟨w, hw1, hw2⟩
  · cases w with
    | nil => simpa using hw1
    | cons z zs =>
      simp only [List.cons_append, List.cons.injEq] at hw2
      exact absurd (by rw [hw1, ← hw2.1]; simp) a2
  · cases w with
    | nil => simpa using hw1.symm
    | cons z zs =>
      simp only [List.cons_append, List.cons.injEq] at hw2
      exact absurd (by rw [hw1, ← hw2.1]; simp) a1

/-- A test of a row, after all tests before it were made. -/
def Due (R : List Row) (T : Tests) (z : Slot) : Prop :=
  ∃ o ∈ R, z.pat ≠ none ∧ ∃ pre post, o.slots = pre ++ z :: post ∧ ∀ x ∈ pre, x.pat ≠ none → (x.path, x.load, x.pat) ∈ T

/-- Each test made was due. -/
def Prov (R : List Row) (T : Tests) : Prop := ∀ e ∈ T, ∃ z, z.path = e.1 ∧ Due R T z

theorem Due.mono {R : List Row} {T : Tests} {z : Slot} (h : Due R T z) (e : List Nat × Load × Option Atom) : Due R (e :: T) z := by
  obtain ⟨o, ho, hz, pre, post, h1, h2⟩ := h
  exact ⟨o, ho, hz, pre, post, h1, fun x hx hc => List.mem_cons_of_mem _ (h2 x hx hc)⟩

theorem Prov.cons {R : List Row} {T : Tests} (h : Prov R T) {s : Slot} (hs : Due R T s) (l : Load) (a : Option Atom) : Prov R ((s.path, l, a) :: T) := by
  intro e he
  rcases List.mem_cons.1 he with rfl | he
  · exact ⟨s, rfl, hs.mono _⟩
  · obtain ⟨z, h1, h2⟩ := h e he
    exact ⟨z, h1, h2.mono _⟩

theorem pick_due {R : List Row} {T : Tests} {o c : Row} (ho : o ∈ R) (h : Cur T o c) {s : Slot} (hp : pick c = some s) : Due R T s := by
  obtain ⟨_, h2, pre, post, h3, h4⟩ := pick_spec h hp
  exact ⟨o, ho, h2, pre, post, h3, h4⟩

/-- Rows as made from plain patterns of one type. -/
structure Neat (R : List Row) : Prop where
  cover : ∀ T z, Due R T z → ∃ g, (∀ x ∈ g, x.pat ≠ none ∧ (x.path, x.load, x.pat) ∈ T) ∧
    (∀ o ∈ R, (∃ s' ∈ o.slots, s'.path <+: z.path) ∨ Apart g o.slots) ∧
    ∀ T' z', Due R T' z' → z.path <+: z'.path → z.path = z'.path ∨ ∃ g', (∀ x ∈ g', (x.path, x.load, x.pat) ∈ T') ∧ Apart g g'

mutual
theorem plain_orfree : ∀ p : Pat, p.plain = true → p.orfree = true
  | .gap, _ => rfl
  | .var d, _ => rfl
  | .cst p, h => by simp [Pat.plain] at h
  | .lit a, _ => rfl
  | .str s, _ => rfl
  | .addr p, h => plain_orfree p h
  | .ucon0 n t, _ => rfl
  | .ucon n t p, h => plain_orfree p h
  | .agg k ps, h => plain_orfreel ps h
  | .lor a b, h => by simp [Pat.plain] at h

theorem plain_orfreel : ∀ ps : Pats, ps.plain = true → ps.orfree = true
  | .nil, _ => rfl
  | .cons p ps, h => by
    simp only [Pats.plain, Bool.and_eq_true] at h
    simp only [Pats.orfree, Bool.and_eq_true]
    exact ⟨plain_orfree p h.1, plain_orfreel ps h.2⟩
end

mutual
theorem plain_tame : ∀ p : Pat, p.plain = true → p.tame = true
  | .gap, _ => rfl
  | .var d, _ => rfl
  | .cst p, h => by simp [Pat.plain] at h
  | .lit a, _ => rfl
  | .str s, _ => rfl
  | .addr p, h => plain_tame p h
  | .ucon0 n t, _ => rfl
  | .ucon n t p, h => plain_tame p h
  | .agg k ps, h => plain_tamel ps h
  | .lor a b, h => by simp [Pat.plain] at h

theorem plain_tamel : ∀ ps : Pats, ps.plain = true → ps.tame = true
  | .nil, _ => rfl
  | .cons p ps, h => by
    simp only [Pats.plain, Bool.and_eq_true] at h
    simp only [Pats.tame, Bool.and_eq_true, plain_orfree p h.1, if_true]
    exact ⟨plain_tame p h.1, plain_tamel ps h.2⟩
end

theorem rowsof_plain (p : Pat) (l : Load) (π : List Nat) (h : p.plain = true) : rowsof p l π = [row1 p l π] := by
  simp only [rowsof, (orfree_one p l π (plain_orfree p h)).1, row1]

theorem neat_rows {Γ : Defs} {pats : List Pat} {t : Ty} (ht : ∀ p ∈ pats, p.HasTy Γ t) (hm : ∀ p ∈ pats, p.plain = true) : Neat (rowsall pats) := by
  have due : ∀ T z, Due (rowsall pats) T z → ∃ p ∈ pats, ∃ g, In p .root [0] g z ∧ ∀ x ∈ g, x.pat ≠ none ∧ (x.path, x.load, x.pat) ∈ T := by
    rintro T z ⟨o, ho, hz, pre, post, h1, h2⟩
    obtain ⟨p, hp, r, hr, e, _⟩ := rowsall_arm pats o ho
    have hp := List.mem_of_getElem? hp
    obtain ⟨g, i1, b1⟩ := rows_in p _ _ r hr z (by rw [← e, h1]; simp) hz
    refine ⟨p, hp, g, i1, ?_⟩
    obtain ⟨pre', post', k1, k2⟩ := b1
    have := split_unique (rows_under p _ _ r hr).2 (e ▸ h1) k1
    subst this
    exact fun x hx => ⟨i1.pat.2 x hx, h2 x (k2 x hx) (i1.pat.2 x hx)⟩
  refine ⟨fun T z hz => ?_⟩
  obtain ⟨p, hp, g, i1, hg⟩ := due T z hz
  refine ⟨g, hg, ?_, ?_⟩
  · intro o ho
    obtain ⟨q, hq, r, hr, e, _⟩ := rowsall_arm pats o ho
    have hq := List.mem_of_getElem? hq
    rw [rowsof_plain q _ _ (hm q hq), List.mem_singleton] at hr
    rw [e, hr]
    exact cover i1 (hm p hp) (hm q hq) (ht p hp) (ht q hq)
  · intro T' z' hz' hpre
    obtain ⟨q, hq, g', i2, hg'⟩ := due T' z' hz'
    rcases noext i1 (hm p hp) (hm q hq) (ht p hp) (ht q hq) i2 hpre with k | k
    · exact .inl k
    · exact .inr ⟨g', fun x hx => (hg' x hx).2, k⟩

/-- No row of a frontier with a test is empty. -/
theorem nonempty {R : List Row} (hN : Neat R) {T : Tests} {rows : List Row} (hi : Inv R T rows) (hv : Prov R T) {fs : Row} (hfs : fs ∈ rows) {s : Slot}
    (hp : pick fs = some s) {c : Row} (hc : c ∈ rows) : c.slots ≠ [] := by
  obtain ⟨o0, ho0, h0⟩ := hi.2 fs hfs
  obtain ⟨o, ho, h⟩ := hi.2 c hc
  have hdue := pick_due ho0 h0 hp
  have hfresh := h0.fresh (pick_spec h0 hp).1 (pick_spec h0 hp).2.1
  obtain ⟨g, hg, h1, _⟩ := hN.cover T s hdue
  rcases h1 o ho with ⟨s', hs', hpre⟩ | ⟨x, hx, y, hy, e1, e2, e3, _, e4⟩
  · by_cases hd : s'.path ∈ T.paths
    · exfalso
      obtain ⟨e, he, e1⟩ := List.mem_map.1 hd
      obtain ⟨z, hz1, hz2⟩ := hv e he
      obtain ⟨g1, hg1, _, h3⟩ := hN.cover T z hz2
      rcases h3 T s hdue (by rw [hz1, e1]; exact hpre) with k | ⟨g', hg', x, hx, y, hy, q1, q2, q3, _⟩
      · exact hfresh (by rw [← k, hz1, e1]; exact hd)
      · have := mem_unique hi.1 (hg1 x hx).2 (hg' y hy) q1
        simp only [Prod.mk.injEq] at this
        exact q3 this.2.2
    · intro k
      have := h.keep hs' hd
      rw [k] at this
      cases this
  · exfalso
    have t1 := (hg x hx).2
    have t2 := h.tested hy e4 (by rw [← e1]; exact List.mem_map.2 ⟨_, t1, rfl⟩)
    have := mem_unique hi.1 t1 t2 e1
    simp only [Prod.mk.injEq] at this
    exact e3 this.2.2

/-- Each test has a default edge. -/
def AnyOk (nodes : List Node) : Prop := ∀ (l : Load) (es : List (Atom × Nat)) (any : Option Nat) (nc : Nat), Node.test l es any nc ∈ nodes → any ≠ none

theorem usable_any {n : Node} {l : Load} {es : List (Atom × Nat)} {j : Nat} (h : ∀ l es any nc, n = .test l es any nc → any ≠ none) :
    ∃ b, usable n l es (some j) = .ok b := by
  unfold usable
  cases n with
  | fin a c => exact ⟨false, rfl⟩
  | test l' es' any' nc =>
    simp only
    split
    · exact ⟨_, rfl⟩
    · split
      · exact ⟨_, rfl⟩
      · cases any' with
        | none => exact absurd rfl (h _ _ _ _ rfl)
        | some k => exact ⟨_, rfl⟩

theorem reuse_any {l : Load} {es : List (Atom × Nat)} {j : Nat} (ns : List Node) (h : AnyOk ns) (i : Nat) : ∃ b, reuse l es (some j) i ns = .ok b := by
  induction ns generalizing i with
  | nil => exact ⟨none, rfl⟩
  | cons n ns ih =>
    obtain ⟨b, hb⟩ := usable_any (n := n) (l := l) (es := es) (j := j) (fun l' es' any' nc e => h l' es' any' nc (by rw [e]; simp))
    simp only [reuse, hb, Res.bind_ok]
    split
    · exact ⟨_, rfl⟩
    · exact ih (fun l es any nc hm => h l es any nc (by simp [hm])) _

theorem mknode_any {s : Slot} {es : List (Atom × Nat)} {j : Nat} {t : Tbl} (h : AnyOk t.nodes) : ∃ i t', mknode s es (some j) t = .ok (i, t') ∧ AnyOk t'.nodes := by
  obtain ⟨b, hb⟩ := reuse_any (l := s.load) (es := es) (j := j) t.nodes h 0
  simp only [mknode, hb, Res.bind_ok]
  cases b with
  | some k => exact ⟨k, t, rfl, h⟩
  | none =>
    refine ⟨_, _, rfl, ?_⟩
    intro l es' any nc hm
    rcases List.mem_append.1 hm with hm | hm
    · exact h l es' any nc hm
    · simp only [List.mem_singleton, Node.test.injEq] at hm
      rw [hm.2.2.1]
      simp

/-- The row fits all values. -/
def Open (r : Row) : Prop := ∀ s ∈ r.slots, s.pat = none

theorem open_project {r : Row} (h : Open r) (a : Atom) (path : List Nat) : project a path r = some (r.drop path) := by
  unfold project
  cases e : r.at path with
  | none => rfl
  | some s => simp only [h s (at_mem e).1]

theorem open_drop {r : Row} (h : Open r) (path : List Nat) : Open (r.drop path) := fun s hs => h s (List.mem_filter.1 hs).1

theorem open_dflt {r : Row} (h : Open r) (path : List Nat) : isdflt path r = true := by
  unfold isdflt
  cases e : r.at path with
  | none => rfl
  | some s => simp only [h s (at_mem e).1, Option.isNone_none]

theorem compile_total {R : List Row} (hR : Good R) (hN : Neat R) (f : Nat) : ∀ (rows : List Row) (t : Tbl) (T : Tests), Inv R T rows → Prov R T →
    (∃ w ∈ rows, Open w) → AnyOk t.nodes → weight rows < f → ∃ i t', compile f rows t = .ok (i, t') ∧ AnyOk t'.nodes := by
  induction f with
  | zero => intro _ _ _ _ _ _ _ h; omega
  | succ f ih =>
    intro rows t T hi hv hw ha hf
    cases rows with
    | nil => obtain ⟨w, hw, _⟩ := hw; cases hw
    | cons fs rs =>
      simp only [compile]
      cases hp : pick fs with
      | none => exact ⟨_, _, rfl, ha⟩
      | some s =>
        simp only
        obtain ⟨o0, ho0, h0⟩ := hi.2 fs (by simp)
        have hdue := pick_due ho0 h0 hp
        obtain ⟨w, hwm, hwo⟩ := hw
        have hne : (fs :: rs).any (fun r => r.slots.isEmpty) = false := by
          rw [List.any_eq_false]
          intro c hc k
          exact nonempty hN hi hv (by simp) hp hc (List.isEmpty_iff.1 k)
        have hproj : ∀ a, projrows a s.path (fs :: rs) = .ok ((fs :: rs).filterMap (project a s.path)) := by
          intro a
          simp only [projrows, hne, Bool.false_eq_true, if_false]
        have hpw : ∀ a, w.drop s.path ∈ (fs :: rs).filterMap (project a s.path) := fun a => List.mem_filterMap.2 ⟨w, hwm, open_project hwo a _⟩
        have hnd : Nodups (fs :: rs) := by
          intro r hr
          obtain ⟨o, ho, h⟩ := hi.2 r hr
          exact h.nodup hR ho
        have hedges : ∀ (cs : List Atom) (t : Tbl), AnyOk t.nodes → ∃ es t', edges (compile f) s.path (fs :: rs) cs t = .ok (es, t') ∧ AnyOk t'.nodes := by
          intro cs
          induction cs with
          | nil => intro t ht; exact ⟨[], t, rfl, ht⟩
          | cons c cs ihc =>
            intro t ht
            have hnil : ((fs :: rs).filterMap (project c s.path)).isEmpty = false := by
              rw [List.isEmpty_eq_false_iff]
              exact fun k => by have := hpw c; rw [k] at this; cases this
            obtain ⟨i, t1, k1, k2⟩ := ih ((fs :: rs).filterMap (project c s.path)) t _ (inv_project hR hi (by simp) hp c) (hv.cons hdue _ _)
              ⟨_, hpw c, open_drop hwo _⟩ ht (by have := weight_project_lt (rs := rs) hp c; omega)
            obtain ⟨es, t2, k3, k4⟩ := ihc t1 k2
            refine ⟨(c, i) :: es, t2, ?_, k4⟩
            simp only [edges, hproj, Res.bind_ok, hnil, k1, k3, Bool.false_eq_true, if_false]
        obtain ⟨es, t1, k1, k2⟩ := hedges (consat s.path (fs :: rs)) t ha
        have hdw : w ∈ (fs :: rs).filter (isdflt s.path) := List.mem_filter.2 ⟨hwm, open_dflt hwo _⟩
        have hnil : ((fs :: rs).filter (isdflt s.path)).isEmpty = false := by
          rw [List.isEmpty_eq_false_iff]
          exact fun k => by rw [k] at hdw; cases hdw
        obtain ⟨j, t2, k3, k4⟩ := ih ((fs :: rs).filter (isdflt s.path)) t1 _ (inv_dflt hR hi (by simp) hp) (hv.cons hdue _ _) ⟨w, hdw, hwo⟩ k2
          (by have := weight_dflt_lt (rs := rs) (hnd fs (by simp)) hp; omega)
        obtain ⟨i, t3, k5, k6⟩ := mknode_any (s := s) (es := es) (j := j) k4
        refine ⟨i, t3, ?_, k6⟩
        simp only [k1, Res.bind_ok, dflt, hnil, Bool.false_eq_true, if_false, k3, k5]

theorem verify_any {nodes : List Node} (ha : AnyOk nodes) (f : Nat) : ∀ i b, verify nodes f i = .ok b → b = true := by
  induction f with
  | zero => intro i b h; simp [verify] at h
  | succ f ih =>
    intro i b h
    simp only [verify] at h
    split at h
    · cases h
    · exact (Res.ok.inj h).symm
    · rename_i l es any nc hn
      obtain ⟨x, h1, h2⟩ := Res.bind_eq_ok.1 h
      have hany := ha l es any nc (List.mem_of_getElem? hn)
      have : ∀ (es : List (Atom × Nat)) (x : Bool), verify.vedges (verify nodes f) es = .ok x → x = true := by
        intro es
        induction es with
        | nil => intro x hx; exact (Res.ok.inj hx).symm
        | cons e es ihe =>
          intro x hx
          simp only [verify.vedges] at hx
          obtain ⟨y, k1, k2⟩ := Res.bind_eq_ok.1 hx
          obtain ⟨z, k3, k4⟩ := Res.bind_eq_ok.1 k2
          rw [← Res.ok.inj k4, ih _ _ k1, ihe _ k3]
          rfl
      rw [← Res.ok.inj h2, this es x h1]
      cases any with
      | none => exact absurd rfl hany
      | some j => simp

/-! ## The checks of captures -/

mutual
theorem row1_vars : ∀ (p : Pat) (l : Load) (π : List Nat), p.plain = true → (row1 p l π).cap.map Prod.fst = p.vars
  | .gap, l, π, _ => by simp [row1, addrec, Row.slot, e0, Pat.vars]
  | .var d, l, π, _ => by simp [row1, addrec, e0, Pat.vars]
  | .cst p, l, π, h => by simp [Pat.plain] at h
  | .lit a, l, π, _ => by simp [row1, addrec, Row.slot, e0, Pat.vars]
  | .str s, l, π, _ => by simp [row1, addrec, addbytes_eq, Row.slot, e0, Pat.vars]
  | .addr p, l, π, h => by
    simp only [row1, addrec, Pat.vars]
    exact row1_vars p _ _ h
  | .ucon0 n t, l, π, _ => by simp [row1, addrec, Row.slot, e0, Pat.vars]
  | .ucon n t p, l, π, h => by
    simp only [row1, addrec, Pat.vars]
    rw [addrec_app]
    have := row1_vars p (.udata l) (π ++ [1]) h
    simp only [Row.app, Row.slot]
    exact this
  | .agg k ps, l, π, h => by
    simp only [row1, addrec, Pat.vars]
    exact row1_varsl k ps l π 0 h
  | .lor a b, l, π, h => by simp [Pat.plain] at h

theorem row1_varsl : ∀ (k : Agg) (ps : Pats) (l : Load) (π : List Nat) (i : Nat), ps.plain = true → (addlist e0 k ps l π i).1.cap.map Prod.fst = ps.vars
  | k, .nil, l, π, i, _ => by simp [addlist, e0, Pats.vars]
  | k, .cons p ps, l, π, i, h => by
    simp only [Pats.plain, Bool.and_eq_true] at h
    simp only [addlist, Pats.vars]
    rw [addlist_app]
    simp only [Row.app, List.map_append]
    rw [row1_varsl k ps l π (i + 1) h.2]
    have := row1_vars p (.elt k l i) (π ++ [i]) h.1
    rw [row1] at this
    rw [this]
end

theorem genrows_plain : ∀ (pats : List Pat) (i : Nat), (∀ p ∈ pats, p.plain = true) → ∃ rs, genrows i pats = rs ∧ rs.length = pats.length ∧ ∀ (j : Nat) (r : Row), rs[j]? = some r → r.arm = i + j := by
  intro pats
  induction pats with
  | nil => intro i _; exact ⟨[], rfl, rfl, by simp⟩
  | cons p ps ih =>
    intro i h
    obtain ⟨rs, h1, h2, h3⟩ := ih (i + 1) (fun q hq => h q (by simp [hq]))
    refine ⟨Row.app ⟨i, [], [], false, 0⟩ (row1 p .root [0]) :: rs, ?_, by simp [h2], ?_⟩
    · simp only [genrows]
      rw [genfrontier_eq, rowsof_plain p _ _ (h p (by simp)), h1]
      rfl
    · intro j r hj
      cases j with
      | zero =>
        simp only [List.getElem?_cons_zero, Option.some.injEq] at hj
        subst hj; rfl
      | succ j =>
        have := h3 j r (by simpa using hj)
        omega

theorem capsok_plain (pats : List Pat) (h : ∀ p ∈ pats, p.plain = true) : capsok (rowsall pats) = true := by
  obtain ⟨rs, h1, _, h3⟩ := genrows_plain pats 0 h
  rw [rowsall, h1]
  have : ∀ (rs : List Row) (i k : Nat), (∀ (j : Nat) (r : Row), rs[j]? = some r → r.arm = i + j) → capsok (number k rs) = true := by
    intro rs
    induction rs with
    | nil => intro _ _ _; rfl
    | cons r rs ih =>
      intro i k hj
      cases rs with
      | nil => rfl
      | cons r' rs =>
        have a0 := hj 0 r rfl
        have a1 := hj 1 r' rfl
        have := ih (i + 1) (k + 1) (fun j x hx => by have := hj (j + 1) x (by simpa using hx); omega)
        simp only [number] at this ⊢
        simp only [capsok, Bool.and_eq_true, Bool.or_eq_true, bne_iff_ne, ne_eq]
        exact ⟨.inl (by omega), this⟩
  exact this rs 0 0 h3

theorem dupcap_plain (pats : List Pat) (h : ∀ p ∈ pats, p.plain = true) (hv : ∀ p ∈ pats, p.vars.Nodup) : (rowsall pats).any dupcap = false := by
  rw [List.any_eq_false]
  intro r hr k
  obtain ⟨p, hp, r', hr', e1, e2, e3⟩ := rowsall_arm pats r hr
  have hp := List.mem_of_getElem? hp
  rw [rowsof_plain p _ _ (h p hp), List.mem_singleton] at hr'
  simp only [dupcap, Bool.and_eq_true, Bool.not_eq_true', decide_eq_false_iff_not] at k
  apply k.2
  rw [e2, hr', row1_vars p _ _ (h p hp)]
  exact hv p hp

theorem open_wild {pats : List Pat} {p : Pat} (hp : p ∈ pats) (hw : p.wild = true) : ∃ w ∈ rowsall pats, Open w := by
  have hg : ∀ (pats : List Pat) (i : Nat), p ∈ pats → ∃ w ∈ genrows i pats, Open w := by
    intro pats
    induction pats with
    | nil => intro _ h; cases h
    | cons q qs ih =>
      intro i h
      simp only [genrows]
      rcases List.mem_cons.1 h with rfl | h
      · refine ⟨(addrec ⟨i, [], [], false, 0⟩ p .root [0]).1, by simp [genfrontier], ?_⟩
        cases p with
        | gap => intro s hs; simp [addrec, Row.slot] at hs; rw [hs]
        | var d => intro s hs; simp [addrec] at hs; rw [hs]
        | _ => cases hw
      · obtain ⟨w, h1, h2⟩ := ih (i + 1) h
        exact ⟨w, by simp [h1], h2⟩
  obtain ⟨w, h1, h2⟩ := hg pats 0 hp
  obtain ⟨i, hi⟩ := List.mem_iff_getElem?.1 h1
  refine ⟨{ w with final := 0 + i }, ?_, h2⟩
  apply List.mem_of_getElem? (i := i)
  rw [rowsall, number_get, hi]
  rfl

theorem anyok_finals (rows : List Row) : AnyOk (finals rows) := by
  intro l es any nc h
  obtain ⟨r, _, e⟩ := List.mem_map.1 h
  cases e

theorem tok_finals (rows : List Row) : TOk ⟨finals rows, []⟩ := by
  intro i l es any nc h
  obtain ⟨r, _, e⟩ := List.mem_map.1 (List.mem_of_getElem? h)
  cases e

theorem finok_finals (pats : List Pat) : FinOk (rowsall pats) ⟨finals (rowsall pats), []⟩ := by
  intro r hr
  obtain ⟨i, hi⟩ := List.mem_iff_getElem?.1 hr
  have hi' := hi
  rw [rowsall, number_get] at hi
  cases e : (genrows 0 pats)[i]? with
  | none => rw [e] at hi; cases hi
  | some r0 =>
    rw [e] at hi
    simp only [Option.map_some, Option.some.injEq, Nat.zero_add] at hi
    refine ⟨r.arm, if r.hasor then r.cap else [], ?_⟩
    have : r.final = i := by rw [← hi]
    rw [this]
    simp only [finals, List.getElem?_map, hi', Option.map_some]

end Verif.Match
