import Verif.Match.Exhaust

/-!
# Lemmas: the parts together
-/

namespace Verif.Match

open Verif

/-- What is known of a match statement accepted. -/
theorem genmatch_parts {fuel : Nat} {pats : List Pat} {c : List Ins} (h : genmatch fuel pats = .ok (.ok c)) :
    ∃ root tb g, compile fuel (rowsall pats) ⟨finals (rowsall pats), []⟩ = .ok (root, tb) ∧ verify tb.nodes (root + 1) root = .ok true ∧
      gencode tb.nodes (root + 1) root ⟨[], 0, []⟩ = .ok g ∧ c = g.out ++ genarms 0 pats.length ∧ ∀ r ∈ rowsall pats, r.final ∈ tb.hits := by
  simp only [genmatch] at h
  obtain ⟨x, h1, h2⟩ := Res.bind_eq_ok.1 h
  cases x with
  | error e => simp at h2
  | ok x =>
    obtain ⟨root, nodes⟩ := x
    simp only at h2
    obtain ⟨g, h3, h4⟩ := Res.bind_eq_ok.1 h2
    simp only [Res.ok.injEq, Except.ok.injEq] at h4
    unfold gendtree at h1
    simp only at h1
    split at h1
    · simp at h1
    · split at h1
      · cases h1
      · obtain ⟨⟨r, tb⟩, h5, h6⟩ := Res.bind_eq_ok.1 h1
        simp only at h6
        split at h6
        · simp at h6
        · rename_i hnone
          obtain ⟨b, h7, h8⟩ := Res.bind_eq_ok.1 h6
          cases b with
          | false => simp at h8
          | true =>
            simp only [if_true, Res.ok.injEq, Except.ok.injEq, Prod.mk.injEq] at h8
            obtain ⟨rfl, rfl⟩ := h8
            refine ⟨r, tb, g, h5, h7, h3, h4.symm, ?_⟩
            intro x hx
            have := List.find?_eq_none.1 hnone x hx
            simpa using this

theorem gencode_start {nodes : List Node} {f i : Nat} {g : G} (h : gencode nodes f i ⟨[], 0, []⟩ = .ok g) :
    (∃ a c, nodes[i]? = some (Node.fin a c) ∧ g.out = [Ins.jmp (.arm a)]) ∨ ∃ l es any nc, nodes[i]? = some (Node.test l es any nc) ∧ [Ins.lbl (.node i)] <+: g.out := by
  cases f with
  | zero => simp [gencode] at h
  | succ f =>
    simp only [gencode, List.contains_nil, Bool.false_eq_true, if_false] at h
    split at h
    · cases h
    · rename_i a c hn
      left
      refine ⟨a, c, hn, ?_⟩
      rw [← Res.ok.inj h]
      rfl
    · rename_i l es any nc hn
      right
      refine ⟨l, es, any, nc, hn, ?_⟩
      obtain ⟨d, h1, h2⟩ := Res.bind_eq_ok.1 h
      obtain ⟨g1, h3, h4⟩ := Res.bind_eq_ok.1 h2
      have hok : GOk (G.put { (⟨[], 0, []⟩ : G) with emit := [i] } [.lbl (.node i)]) := by
        intro L hL
        simp only [G.put, List.nil_append, List.mem_singleton, Ins.lbl.injEq] at hL
        exact .inr ⟨i, hL, by simp [G.put]⟩
      obtain ⟨k1, _, _⟩ := genedges_ok (gencode_ok nodes f) l any d h1 es _ _ h3 hok
      have k2 : g1.out <+: g.out := by
        cases d with
        | none => rw [← Res.ok.inj h4]; exact List.prefix_refl _
        | some x =>
          simp only [genany] at h4
          have hok2 : GOk (g1.put [.jmp x.2]) := by
            intro L hL
            simp only [G.put, List.mem_append, List.mem_singleton, reduceCtorEq, or_false] at hL
            exact k1.ok L hL
          exact (List.prefix_append _ _).trans (gencode_ok nodes f _ _ _ h4 hok2).1.out
      exact k1.out.trans k2

theorem prog_of {nodes : List Node} {f i n : Nat} {g : G} (h : gencode nodes f i ⟨[], 0, []⟩ = .ok g)
    (ha : ∀ (i a : Nat) (cap : List (Nat × Load)), nodes[i]? = some (Node.fin a cap) → a < n) : Prog nodes g.emit (g.out ++ genarms 0 n) ∧ i ∈ g.emit := by
  obtain ⟨h1, h2⟩ := gencode_ok nodes f i _ g h (by intro L hL; cases hL)
  refine ⟨⟨?_, ?_⟩, h2⟩
  · intro k hk
    exact (h1.coded k hk (by simp)).mono (List.prefix_append _ _) (fun _ h => h)
  · intro k a cap hk
    obtain ⟨p, q1, q2⟩ := genarms_find n 0 a (ha k a cap hk)
    rw [Nat.zero_add] at q1 q2
    refine ⟨_, find_arm h1.ok q1, ?_⟩
    rw [List.getElem?_append_right (by omega), show g.out.length + p + 1 - g.out.length = p + 1 by omega, q2]

theorem mapM_capval (v : Val) (cs : List (Nat × Load)) : cs.mapM (fun c => (c.2.eval v).map fun w => (c.1, w)) = capval v cs := by
  induction cs with
  | nil => rfl
  | cons c cs ih =>
    rw [List.mapM_cons, ih]
    simp only [capval]
    cases h1 : c.2.eval v with
    | none => rfl
    | some w => cases h2 : capval v cs <;> rfl

theorem rowsall_final {pats : List Pat} {r : Row} (hr : r ∈ rowsall pats) : (finals (rowsall pats))[r.final]? = some (.fin r.arm (if r.hasor then r.cap else [])) := by
  obtain ⟨i, hi⟩ := List.mem_iff_getElem?.1 hr
  have hi' := hi
  rw [rowsall, number_get] at hi
  cases e : (genrows 0 pats)[i]? with
  | none => rw [e] at hi; cases hi
  | some r0 =>
    rw [e] at hi
    simp only [Option.map_some, Option.some.injEq, Nat.zero_add] at hi
    have : r.final = i := by rw [← hi]
    rw [this]
    simp only [finals, List.getElem?_map, hi', Option.map_some]

/-- The nodes made by `compile`, and the way of a value. -/
theorem compile_walk {Γ : Defs} {t : Ty} {pats : List Pat} (ht : ∀ p ∈ pats, p.HasTy Γ t) (hm : ∀ p ∈ pats, p.tame = true) {fuel root : Nat} {tb : Tbl}
    (h : compile fuel (rowsall pats) ⟨finals (rowsall pats), []⟩ = .ok (root, tb)) :
    TOk tb ∧ Target tb root ∧ finals (rowsall pats) <+: tb.nodes ∧ ∀ v, HasVal Γ v t → Walk tb.nodes v root (res v (rowsall pats)) := by
  obtain ⟨h1, h2, h3, h4⟩ := compile_ok (good_rows ht hm) fuel _ _ _ _ h (tok_finals _) (finok_finals _) (fun c hc => ⟨c, hc, rfl⟩)
  exact ⟨h1, h3, h2.1, fun v hv => h4 v [] (guard_rows ht hm hv) (inv_start _) (by intro x hx; cases hx)⟩

/-- Only the final nodes of the rows are final. -/
theorem fins_only (fuel : Nat) : ∀ (rows : List Row) (tb : Tbl) (i : Nat) (tb' : Tbl), compile fuel rows tb = .ok (i, tb') →
    ∀ (n : Node), n ∈ tb'.nodes → n ∈ tb.nodes ∨ ∃ l es any nc, n = .test l es any nc := by
  induction fuel with
  | zero => intro rows tb i tb' h; simp [compile] at h
  | succ f ih =>
    intro rows tb i tb' h
    unfold compile at h
    cases rows with
    | nil => cases h
    | cons fs rs =>
      simp only at h
      cases hp : pick fs with
      | none =>
        rw [hp] at h
        simp only [Res.ok.injEq, Prod.mk.injEq] at h
        obtain ⟨rfl, rfl⟩ := h
        exact fun n hn => .inl hn
      | some s =>
        rw [hp] at h
        simp only at h
        obtain ⟨⟨es, t1⟩, h1, h2⟩ := Res.bind_eq_ok.1 h
        obtain ⟨⟨any, t2⟩, h3, h4⟩ := Res.bind_eq_ok.1 h2
        have hedges : ∀ (cs : List Atom) (tb : Tbl) (es : List (Atom × Nat)) (tb' : Tbl), edges (compile f) s.path (fs :: rs) cs tb = .ok (es, tb') →
            ∀ (n : Node), n ∈ tb'.nodes → n ∈ tb.nodes ∨ ∃ l es any nc, n = .test l es any nc := by
          intro cs
          induction cs with
          | nil =>
            intro tb es tb' h
            simp only [edges, Res.ok.injEq, Prod.mk.injEq] at h
            obtain ⟨rfl, rfl⟩ := h
            exact fun n hn => .inl hn
          | cons c cs ihc =>
            intro tb es tb' h n hn
            simp only [edges] at h
            obtain ⟨row, k1, k2⟩ := Res.bind_eq_ok.1 h
            split at k2
            · exact ihc tb es tb' k2 n hn
            · obtain ⟨⟨x1, x2⟩, k3, k4⟩ := Res.bind_eq_ok.1 k2
              obtain ⟨⟨y1, y2⟩, k5, k6⟩ := Res.bind_eq_ok.1 k4
              simp only [Res.ok.injEq, Prod.mk.injEq] at k6
              obtain ⟨rfl, rfl⟩ := k6
              rcases ihc x2 y1 y2 k5 n hn with k | k
              · exact ih _ _ _ _ k3 n k
              · exact .inr k
        intro n hn
        have hm : n ∈ t2.nodes ∨ ∃ l es any nc, n = .test l es any nc := by
          simp only [mknode] at h4
          obtain ⟨r, k1, k2⟩ := Res.bind_eq_ok.1 h4
          cases r with
          | some k =>
            simp only [Res.ok.injEq, Prod.mk.injEq] at k2
            obtain ⟨rfl, rfl⟩ := k2
            exact .inl hn
          | none =>
            simp only [Res.ok.injEq, Prod.mk.injEq] at k2
            obtain ⟨rfl, rfl⟩ := k2
            rcases List.mem_append.1 hn with k | k
            · exact .inl k
            · exact .inr ⟨_, _, _, _, List.mem_singleton.1 k⟩
        rcases hm with hm | hm
        · have hd : n ∈ t1.nodes ∨ ∃ l es any nc, n = .test l es any nc := by
            simp only [dflt] at h3
            split at h3
            · simp only [Res.ok.injEq, Prod.mk.injEq] at h3
              obtain ⟨rfl, rfl⟩ := h3
              exact .inl hm
            · obtain ⟨⟨x1, x2⟩, k3, k4⟩ := Res.bind_eq_ok.1 h3
              simp only [Res.ok.injEq, Prod.mk.injEq] at k4
              obtain ⟨rfl, rfl⟩ := k4
              exact ih _ _ _ _ k3 n hm
          rcases hd with hd | hd
          · exact hedges _ _ _ _ h1 n hd
          · exact .inr hd
        · exact .inr hm

theorem first_row {Γ : Defs} {t : Ty} {pats : List Pat} (ht : ∀ p ∈ pats, p.HasTy Γ t) (hm : ∀ p ∈ pats, p.tame = true) {v : Val} (hv : HasVal Γ v t) :
    (∀ i b, first 0 pats v = some (i, b) → ∃ r ∈ rowsall pats, res v (rowsall pats) = some r.final ∧ r.arm = i ∧ capval v r.cap = some b) ∧
    (first 0 pats v = none → res v (rowsall pats) = none) := by
  have h1 := first_rows hv pats 0 ht hm
  have h2 := firstsat_number v (genrows 0 pats) 0
  rw [← rowsall] at h2
  refine ⟨?_, ?_⟩
  · intro i b hf
    rw [hf] at h1
    cases e : firstsat v (rowsall pats) with
    | none =>
      rw [e] at h2
      simp only [Option.map_none] at h2
      rw [eq_comm, Option.map_eq_none_iff] at h2
      rw [h2] at h1
      simp at h1
    | some r =>
      rw [e] at h2
      cases e' : firstsat v (genrows 0 pats) with
      | none => rw [e'] at h2; simp at h2
      | some r' =>
        rw [e'] at h2 h1
        simp only [Option.map_some, Option.some.injEq, Prod.mk.injEq] at h1 h2
        refine ⟨r, List.mem_of_find?_eq_some e, by simp [res, e], by rw [h2.1, h1.1], by rw [h2.2, h1.2]⟩
  · intro hf
    rw [hf] at h1
    simp only [Option.map_none, Option.map_eq_none_iff] at h1
    rw [h1] at h2
    simp only [Option.map_none, Option.map_eq_none_iff] at h2
    simp [res, h2]

theorem rowsall_orfree {pats : List Pat} {r : Row} (hr : r ∈ rowsall pats) {p : Pat} (hp : pats[r.arm]? = some p) (ho : p.orfree = true) :
    r.hasor = false ∧ r.cap = (row1 p .root [0]).cap := by
  obtain ⟨q, hq, r', hr', _, e2, e3⟩ := rowsall_arm pats r hr
  rw [hp] at hq
  cases hq
  have h1 := orfree_one p .root [0] ho
  simp only [rowsof, h1.1, List.mem_singleton] at hr'
  subst hr'
  exact ⟨by rw [e3]; exact h1.2, e2⟩

mutual
theorem orfree_rows : ∀ (p : Pat) (l : Load) (π : List Nat), p.orfree = false → (addrec e0 p l π).2 ≠ []
  | .gap, l, π, h => by simp [Pat.orfree] at h
  | .var d, l, π, h => by simp [Pat.orfree] at h
  | .cst p, l, π, h => by simp only [addrec]; exact orfree_rows p _ _ h
  | .lit a, l, π, h => by simp [Pat.orfree] at h
  | .str s, l, π, h => by simp [Pat.orfree] at h
  | .addr p, l, π, h => by simp only [addrec]; exact orfree_rows p _ _ h
  | .ucon0 n t, l, π, h => by simp [Pat.orfree] at h
  | .ucon n t p, l, π, h => by
    simp only [addrec]
    rw [addrec_app]
    simp only [ne_eq, List.map_eq_nil_iff]
    exact orfree_rows p _ _ h
  | .agg k ps, l, π, h => by simp only [addrec]; exact orfree_rowsl k ps l π 0 h
  | .lor a b, l, π, h => by simp [addrec]

theorem orfree_rowsl : ∀ (k : Agg) (ps : Pats) (l : Load) (π : List Nat) (i : Nat), ps.orfree = false → (addlist e0 k ps l π i).2 ≠ []
  | k, .nil, l, π, i, h => by simp [Pats.orfree] at h
  | k, .cons p ps, l, π, i, h => by
    simp only [Pats.orfree, Bool.and_eq_false_iff] at h
    simp only [addlist]
    rcases h with h | h
    · have := orfree_rows p (.elt k l i) (π ++ [i]) h
      simp [this]
    · rw [addlist_app]
      have := orfree_rowsl k ps l π (i + 1) h
      simp [this]
end

theorem prologue_or {pats : List Pat} {v : Val} {i : Nat} {p : Pat} (hp : pats[i]? = some p) (ho : p.orfree = false) : prologue pats v i = some [] := by
  simp only [prologue, hp, Option.map_some]
  rw [genfrontier_eq]
  simp only [rowsof, List.map_cons]
  have := orfree_rows p .root [0] ho
  cases e : (addrec e0 p .root [0]).2 with
  | nil => exact absurd e this
  | cons x xs => rfl

theorem prologue_one {pats : List Pat} {v : Val} {i : Nat} {p : Pat} (hp : pats[i]? = some p) (ho : p.orfree = true) :
    prologue pats v i = capval v (row1 p .root [0]).cap := by
  simp only [prologue, hp, Option.map_some]
  rw [genfrontier_eq]
  simp only [rowsof, (orfree_one p .root [0] ho).1, List.map_cons, List.map_nil]
  rw [mapM_capval]
  simp [Row.app, row1]

/-- What happens to a value with a first arm. -/
theorem runs_first {Γ : Defs} {t : Ty} {pats : List Pat} (ht : ∀ p ∈ pats, p.HasTy Γ t) (hm : ∀ p ∈ pats, p.tame = true) {fuel : Nat} {c : List Ins}
    (h : genmatch fuel pats = .ok (.ok c)) {v : Val} (hv : HasVal Γ v t) {i : Nat} {b : List (Nat × Val)} (hf : first 0 pats v = some (i, b)) :
    ∃ f b', runmatch f pats c v = .ok (some i, b') ∧ ((∀ p, pats[i]? = some p → p.orfree = true) → b' = b) ∧ (b' = b ∨ b' = []) := by
  obtain ⟨root, tb, g, h1, h2, h3, rfl, h5⟩ := genmatch_parts h
  obtain ⟨w1, w2, w3, w4⟩ := compile_walk ht hm h1
  obtain ⟨r, hr, hres, harm, hcap⟩ := (first_row ht hm hv).1 i b hf
  have hwalk := w4 v hv
  rw [hres] at hwalk
  have hfin := getElem?_of_prefix w3 (rowsall_final hr)
  have harms : ∀ (k a : Nat) (cap : List (Nat × Load)), tb.nodes[k]? = some (Node.fin a cap) → a < pats.length := by
    intro k a cap hk
    rcases fins_only fuel _ _ _ _ h1 _ (List.mem_of_getElem? hk) with hmem | ⟨l, es, any, nc, e⟩
    · obtain ⟨r0, hr0, e⟩ := List.mem_map.1 hmem
      cases e
      obtain ⟨p, hp, _⟩ := rowsall_arm pats r0 hr0
      exact (List.getElem?_eq_some_iff.1 hp).1
    · cases e
  obtain ⟨hprog, hemit⟩ := prog_of h3 harms
  obtain ⟨wv, hwv, hwv2⟩ : ∃ w, capval v (if r.hasor then r.cap else []) = some w ∧ w = (if r.hasor then b else []) := by
    cases r.hasor with
    | true => exact ⟨b, hcap, rfl⟩
    | false => exact ⟨[], rfl, rfl⟩
  obtain ⟨n, hn, hrun⟩ := walk_runs hprog hwalk rfl hfin hwv
  obtain ⟨q, q1, q2⟩ := hrun hemit
  obtain ⟨u, u1, u2, _⟩ := q2 []
  rw [List.nil_append] at u1
  have hstart : Runs (g.out ++ genarms 0 pats.length) v 0 [] r.arm u := by
    rcases gencode_start h3 with ⟨a, cp, k1, k2⟩ | ⟨l, es, any, nc, k1, k2⟩
    · rw [hn] at k1
      cases k1
      refine runs_jmp (L := .arm a) ?_ q1 u1
      rw [k2]; rfl
    · rw [hn] at k1
      cases k1
      have : q = 0 := by
        obtain ⟨rest, hrest⟩ := k2
        rw [← hrest] at q1
        simp only [lblof, find, List.cons_append, List.findIdx?_cons, beq_self_eq_true, if_true, Option.some.injEq] at q1
        exact q1.symm
      subst this; exact u1
  obtain ⟨f, hf⟩ := hstart
  obtain ⟨p, hp, _⟩ := rowsall_arm pats r hr
  rw [harm] at hp hf
  cases ho : p.orfree with
  | true =>
    obtain ⟨o1, o2⟩ := rowsall_orfree hr (by rw [harm]; exact hp) ho
    rw [o1] at hwv2
    have hu : u = [] := by
      rcases u2 with u2 | u2
      · exact u2
      · rw [u2, hwv2]; rfl
    refine ⟨f, b, ?_, fun _ => rfl, .inl rfl⟩
    simp only [runmatch, hf, Res.bind_ok, prologue_one hp ho]
    rw [← o2, hcap, hu]
    rfl
  | false =>
    refine ⟨f, u, ?_, ?_, ?_⟩
    · simp only [runmatch, hf, Res.bind_ok, prologue_or hp ho, List.append_nil]
    · intro k
      rw [k p hp] at ho; cases ho
    · rcases u2 with u2 | u2
      · exact .inr u2
      · rw [u2, hwv2]
        cases r.hasor
        · exact .inr rfl
        · exact .inl rfl

end Verif.Match
