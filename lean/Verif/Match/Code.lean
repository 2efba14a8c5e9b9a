import Verif.Match.Tree

/-!
# Lemmas: the code of a decision graph
-/

namespace Verif.Match

open Verif

/-! ## Labels -/

theorem find_append {c d : List Ins} {l : Lbl} {p : Nat} (h : find c l = some p) : find (c ++ d) l = some p := by
  unfold find at h ⊢
  rw [List.findIdx?_append, h]
  rfl

theorem find_mono {c d : List Ins} (hd : c <+: d) {l : Lbl} {p : Nat} (h : find c l = some p) : find d l = some p := by
  obtain ⟨t, rfl⟩ := hd
  exact find_append h

theorem find_new {c d : List Ins} {l : Lbl} (h : Ins.lbl l ∉ c) : find (c ++ Ins.lbl l :: d) l = some c.length := by
  unfold find
  rw [List.findIdx?_append]
  have : List.findIdx? (fun i => i == Ins.lbl l) c = none := by
    rw [List.findIdx?_eq_none_iff]
    intro x hx
    simp only [beq_eq_false_iff_ne, ne_eq]
    rintro rfl
    exact h hx
  rw [this]
  simp [List.findIdx?_cons]

theorem find_get {c : List Ins} {l : Lbl} {p : Nat} (h : find c l = some p) : c[p]? = some (.lbl l) := by
  unfold find at h
  rw [List.findIdx?_eq_some_iff_getElem] at h
  obtain ⟨hp, h1, _⟩ := h
  rw [List.getElem?_eq_getElem hp]
  simp only [beq_iff_eq] at h1
  rw [h1]

/-! ## What is emitted -/

/-- The jump to a node, with the captures on the way. -/
def Goes (out : List Ins) (j : Nat) (n : Node) (T : Lbl) : Prop :=
  (capsof n = [] ∧ T = lblof j n) ∨
  ∃ q, find out T = some q ∧ (∀ k x, (capsof n)[k]? = some x → out[q + 1 + k]? = some (.asn x.1 x.2)) ∧
    out[q + 1 + (capsof n).length]? = some (.jmp (lblof j n))

/-- The tests of a node, from `pc` on; if all fail they end at `e`, or at the default. -/
def Tested (nodes : List Node) (out : List Ins) (l : Load) (any : Option Nat) (e : Nat) : List (Atom × Nat) → Nat → Prop
  | [], pc => pc = e
  | (a, j) :: es, pc => ∃ n T F, nodes[j]? = some n ∧ out[pc]? = some (.cjmp l a T F) ∧ Goes out j n T ∧
    ((∃ q, find out F = some q ∧ Tested nodes out l any e es (q + 1)) ∨
      (es = [] ∧ ∃ j' n', any = some j' ∧ nodes[j']? = some n' ∧ F = lblof j' n'))

/-- The code of a node. -/
def Coded (nodes : List Node) (out : List Ins) (emit : List Nat) (i : Nat) : Prop :=
  ∀ l es any nc, nodes[i]? = some (.test l es any nc) → ∃ p e, find out (.node i) = some p ∧ Tested nodes out l any e es (p + 1) ∧
    (∀ j n, any = some j → nodes[j]? = some n → out[e]? = some (.jmp (lblof j n))) ∧ (∀ x ∈ es, x.2 ∈ emit) ∧ ∀ j, any = some j → j ∈ emit

theorem Goes.mono {out out' : List Ins} (h : out <+: out') {j : Nat} {n : Node} {T : Lbl} (hg : Goes out j n T) : Goes out' j n T := by
  rcases hg with hg | ⟨q, h1, h2, h3⟩
  · exact .inl hg
  · exact .inr ⟨q, find_mono h h1, fun k x hx => getElem?_of_prefix h (h2 k x hx), getElem?_of_prefix h h3⟩

theorem Tested.mono {nodes : List Node} {out out' : List Ins} (h : out <+: out') {l : Load} {any : Option Nat} {e : Nat} {es : List (Atom × Nat)} {pc : Nat}
    (ht : Tested nodes out l any e es pc) : Tested nodes out' l any e es pc := by
  induction es generalizing pc with
  | nil => exact ht
  | cons x es ih =>
    obtain ⟨a, j⟩ := x
    obtain ⟨n, T, F, h1, h2, h3, h4⟩ := ht
    refine ⟨n, T, F, h1, getElem?_of_prefix h h2, h3.mono h, ?_⟩
    rcases h4 with ⟨q, k1, k2⟩ | k
    · exact .inl ⟨q, find_mono h k1, ih k2⟩
    · exact .inr k

theorem Coded.mono {nodes : List Node} {out out' : List Ins} (h : out <+: out') {emit emit' : List Nat} (he : ∀ k ∈ emit, k ∈ emit') {i : Nat}
    (hc : Coded nodes out emit i) : Coded nodes out' emit' i := by
  intro l es any nc hn
  obtain ⟨p, e, h1, h2, h3, h4, h5⟩ := hc l es any nc hn
  exact ⟨p, e, find_mono h h1, h2.mono h, fun j n a b => getElem?_of_prefix h (h3 j n a b), fun x hx => he _ (h4 x hx), fun j hj => he _ (h5 j hj)⟩

/-- Labels in the code so far. -/
def GOk (g : G) : Prop := ∀ L, Ins.lbl L ∈ g.out → (∃ k, L = .gen k ∧ k < g.fresh) ∨ ∃ i, L = .node i ∧ i ∈ g.emit

/-- The state grew; new nodes are coded; new labels are new. -/
structure Grow (nodes : List Node) (g g' : G) : Prop where
  out : g.out <+: g'.out
  fresh : g.fresh ≤ g'.fresh
  emit : ∀ k ∈ g.emit, k ∈ g'.emit
  ok : GOk g'
  new : ∀ L, Ins.lbl L ∈ g'.out → Ins.lbl L ∈ g.out ∨ (∃ k, L = .gen k ∧ g.fresh ≤ k) ∨ ∃ i, L = .node i ∧ i ∉ g.emit
  coded : ∀ i ∈ g'.emit, i ∉ g.emit → Coded nodes g'.out g'.emit i

theorem Grow.trans {nodes : List Node} {a b c : G} (h : Grow nodes a b) (h' : Grow nodes b c) : Grow nodes a c := by
  refine ⟨h.out.trans h'.out, Nat.le_trans h.fresh h'.fresh, fun k hk => h'.emit k (h.emit k hk), h'.ok, ?_, ?_⟩
  · intro L hL
    rcases h'.new L hL with k | ⟨k, e, hk⟩ | ⟨i, e, hi⟩
    · exact h.new L k
    · exact .inr (.inl ⟨k, e, Nat.le_trans h.fresh hk⟩)
    · exact .inr (.inr ⟨i, e, fun q => hi (h.emit i q)⟩)
  · intro i hi hn
    by_cases hb : i ∈ b.emit
    · exact (h.coded i hb hn).mono h'.out h'.emit
    · exact h'.coded i hi hb

theorem Grow.refl {nodes : List Node} {g : G} (h : GOk g) : Grow nodes g g :=
  ⟨List.prefix_refl _, Nat.le_refl _, fun _ h => h, h, fun _ h => .inl h, fun _ h1 h2 => absurd h1 h2⟩

/-- Code without labels. -/
theorem grow_put {nodes : List Node} {g : G} (h : GOk g) {is : List Ins} (his : ∀ L, Ins.lbl L ∉ is) : Grow nodes g (g.put is) := by
  have hl : ∀ L, Ins.lbl L ∈ (g.put is).out → Ins.lbl L ∈ g.out := by
    intro L hL
    simp only [G.put, List.mem_append] at hL
    rcases hL with k | k
    · exact k
    · exact absurd k (his L)
  exact ⟨List.prefix_append _ _, Nat.le_refl _, fun _ h => h, fun L hL => h L (hl L hL), fun L hL => .inl (hl L hL), fun _ h1 h2 => absurd h1 h2⟩

/-- A label made before, which was not placed. -/
theorem ok_lbl {g : G} (h : GOk g) {k : Nat} (hk : k < g.fresh) : GOk (g.put [.lbl (.gen k)]) := by
  intro L hL
  simp only [G.put, List.mem_append, List.mem_singleton, Ins.lbl.injEq] at hL
  rcases hL with hL | rfl
  · exact h L hL
  · exact .inl ⟨k, rfl, hk⟩

theorem gentest_ok {nodes : List Node} {g : G} (h : GOk g) (l : Load) (a : Atom) (j : Nat) (n : Node) (F : Lbl) :
    ∃ T, Grow nodes g (gentest g l a j n F) ∧ (gentest g l a j n F).out[g.out.length]? = some (.cjmp l a T F) ∧
      Goes (gentest g l a j n F).out j n T ∧ (gentest g l a j n F).emit = g.emit := by
  unfold gentest
  split
  · rename_i hc
    refine ⟨lblof j n, grow_put h (by simp), by simp [G.put], .inl ⟨hc, rfl⟩, rfl⟩
  · rename_i hc
    refine ⟨.gen g.fresh, ?_, ?_, ?_, rfl⟩
    · have hl : ∀ L, Ins.lbl L ∈ g.out ++ ([Ins.cjmp l a (.gen g.fresh) F, Ins.lbl (.gen g.fresh)] ++ (capsof n).map (fun x => Ins.asn x.1 x.2) ++ [Ins.jmp (lblof j n)]) →
          Ins.lbl L ∈ g.out ∨ L = .gen g.fresh := by
        intro L hL
        simpa using hL
      refine ⟨List.prefix_append _ _, Nat.le_succ _, fun _ h => h, ?_, ?_, fun _ h1 h2 => absurd h1 h2⟩
      · intro L hL
        rcases hl L hL with k | rfl
        · rcases h L k with ⟨x, e, hx⟩ | k
          · exact .inl ⟨x, e, Nat.lt_succ_of_lt hx⟩
          · exact .inr k
        · exact .inl ⟨_, rfl, Nat.lt_succ_self _⟩
      · intro L hL
        rcases hl L hL with k | rfl
        · exact .inl k
        · exact .inr (.inl ⟨_, rfl, Nat.le_refl _⟩)
    · simp [G.put]
    · right
      refine ⟨g.out.length + 1, ?_, ?_, ?_⟩
      · have hnot : Ins.lbl (.gen g.fresh) ∉ g.out ++ [Ins.cjmp l a (.gen g.fresh) F] := by
          intro k
          simp only [List.mem_append, List.mem_singleton, reduceCtorEq, or_false] at k
          rcases h _ k with ⟨x, e, hx⟩ | ⟨x, e, _⟩
          · cases e; omega
          · cases e
        have := find_new (d := (capsof n).map (fun x => Ins.asn x.1 x.2) ++ [Ins.jmp (lblof j n)]) hnot
        simpa [G.put] using this
      · intro k x hx
        obtain ⟨hk, hx'⟩ := List.getElem?_eq_some_iff.1 hx
        have e : g.out ++ ([Ins.cjmp l a (.gen g.fresh) F, Ins.lbl (.gen g.fresh)] ++ (capsof n).map (fun x => Ins.asn x.1 x.2) ++ [Ins.jmp (lblof j n)]) =
          (g.out ++ [Ins.cjmp l a (.gen g.fresh) F, Ins.lbl (.gen g.fresh)]) ++ ((capsof n).map (fun x => Ins.asn x.1 x.2) ++ [Ins.jmp (lblof j n)]) := by simp
        simp only [G.put]
        rw [e, List.getElem?_append_right (by simp only [List.length_append, List.length_cons, List.length_nil]; omega), List.getElem?_append_left (by simp only [List.length_append, List.length_map, List.length_cons, List.length_nil]; omega)]
        have : g.out.length + 1 + 1 + k - (g.out ++ [Ins.cjmp l a (.gen g.fresh) F, Ins.lbl (.gen g.fresh)]).length = k := by
          simp only [List.length_append, List.length_cons, List.length_nil]; omega
        rw [this]
        simp [hx]
      · have e : g.out ++ ([Ins.cjmp l a (.gen g.fresh) F, Ins.lbl (.gen g.fresh)] ++ (capsof n).map (fun x => Ins.asn x.1 x.2) ++ [Ins.jmp (lblof j n)]) =
          (g.out ++ [Ins.cjmp l a (.gen g.fresh) F, Ins.lbl (.gen g.fresh)] ++ (capsof n).map (fun x => Ins.asn x.1 x.2)) ++ [Ins.jmp (lblof j n)] := by simp
        simp only [G.put]
        rw [e, List.getElem?_append_right (by simp only [List.length_append, List.length_map, List.length_cons, List.length_nil]; omega)]
        have : g.out.length + 1 + 1 + (capsof n).length -
            (g.out ++ [Ins.cjmp l a (.gen g.fresh) F, Ins.lbl (.gen g.fresh)] ++ (capsof n).map (fun x => Ins.asn x.1 x.2)).length = 0 := by
          simp only [List.length_append, List.length_map, List.length_cons, List.length_nil]; omega
        rw [this]
        rfl

/-- What is shown of `gencode`. -/
def RclOk (nodes : List Node) (rcl : Nat → G → Res G) : Prop := ∀ i g g', rcl i g = .ok g' → GOk g → Grow nodes g g' ∧ i ∈ g'.emit

theorem genedges_ok {nodes : List Node} {rcl : Nat → G → Res G} (hr : RclOk nodes rcl) (l : Load) (any : Option Nat) (d : Option (Nat × Lbl))
    (hd : anylbl nodes any = .ok d) : ∀ (es : List (Atom × Nat)) (g g' : G), genedges rcl nodes l (d.map Prod.snd) es g = .ok g' → GOk g →
    Grow nodes g g' ∧ Tested nodes g'.out l any g'.out.length es g.out.length ∧ ∀ x ∈ es, x.2 ∈ g'.emit := by
  intro es
  induction es with
  | nil =>
    intro g g' h hg
    simp only [genedges, Res.ok.injEq] at h
    subst h
    exact ⟨Grow.refl hg, rfl, by simp⟩
  | cons x es ih =>
    obtain ⟨a, j⟩ := x
    intro g g' h hg
    simp only [genedges] at h
    cases hn : nodes[j]? with
    | none => rw [hn] at h; cases h
    | some n =>
      rw [hn] at h
      simp only at h
      split at h
      · -- the last edge, with a default
        rename_i _ _ D hD
        obtain ⟨T, t1, t2, t3, t4⟩ := gentest_ok (nodes := nodes) hg l a j n D
        obtain ⟨r1, r2⟩ := hr j _ g' h t1.ok
        refine ⟨t1.trans r1, ?_, by simpa using r2⟩
        refine ⟨n, T, D, hn, getElem?_of_prefix r1.out t2, t3.mono r1.out, .inr ⟨rfl, ?_⟩⟩
        cases any with
        | none => simp only [anylbl, Res.ok.injEq] at hd; subst hd; cases hD
        | some j' =>
          simp only [anylbl] at hd
          cases hn' : nodes[j']? with
          | none => rw [hn'] at hd; cases hd
          | some n' =>
            rw [hn'] at hd
            simp only [Res.ok.injEq] at hd
            subst hd
            exact ⟨j', n', rfl, hn', (Option.some.inj hD).symm⟩
      · obtain ⟨k, h1, h2⟩ := Res.bind_eq_ok.1 h
        have hg0 : GOk { g with fresh := g.fresh + 1 } := by
          intro L hL
          rcases hg L hL with ⟨x, e, hx⟩ | q
          · exact .inl ⟨x, e, Nat.lt_succ_of_lt hx⟩
          · exact .inr q
        obtain ⟨T, t1, t2, t3, t4⟩ := gentest_ok (nodes := nodes) hg0 l a j n (.gen g.fresh)
        obtain ⟨r1, r2⟩ := hr j _ k h1 t1.ok
        have t5 := t1.trans r1
        -- the label of the next test is new
        have hnot : Ins.lbl (.gen g.fresh) ∉ k.out := by
          intro q
          rcases t5.new _ q with q | ⟨x, e, hx⟩ | ⟨x, e, _⟩
          · rcases hg _ q with ⟨x, e, hx⟩ | ⟨x, e, _⟩
            · cases e; omega
            · cases e
          · cases e
            simp only at hx
            omega
          · cases e
        have hfr : g.fresh < k.fresh := by
          have := t5.fresh
          simp only at this
          omega
        have hg1 := ok_lbl t5.ok hfr
        have g1 : Grow nodes g (k.put [.lbl (.gen g.fresh)]) := by
          refine ⟨t5.out.trans (List.prefix_append _ _), by simp only [G.put]; omega, t5.emit, hg1, ?_, ?_⟩
          · intro L hL
            simp only [G.put, List.mem_append, List.mem_singleton, Ins.lbl.injEq] at hL
            rcases hL with hL | rfl
            · rcases t5.new L hL with q | ⟨x, e, hx⟩ | q
              · exact .inl q
              · exact .inr (.inl ⟨x, e, by simp only at hx; omega⟩)
              · exact .inr (.inr q)
            · exact .inr (.inl ⟨_, rfl, Nat.le_refl _⟩)
          · intro i hi hni
            exact (t5.coded i hi hni).mono (List.prefix_append _ _) (fun _ h => h)
        obtain ⟨i1, i2, i3⟩ := ih _ g' h2 hg1
        refine ⟨g1.trans i1, ?_, ?_⟩
        · have p1 : (gentest { g with fresh := g.fresh + 1 } l a j n (.gen g.fresh)).out <+: g'.out :=
            (r1.out.trans (List.prefix_append _ _)).trans i1.out
          refine ⟨n, T, .gen g.fresh, hn, getElem?_of_prefix p1 t2, t3.mono p1, .inl ⟨k.out.length, ?_, ?_⟩⟩
          · exact find_mono i1.out (find_new (d := []) hnot)
          · simpa [G.put] using i2
        · intro x hx
          rcases List.mem_cons.1 hx with rfl | hx
          · exact i1.emit _ r2
          · exact i3 x hx

theorem gencode_ok (nodes : List Node) (f : Nat) : RclOk nodes (gencode nodes f) := by
  induction f with
  | zero => intro i g g' h; simp [gencode] at h
  | succ f ih =>
    intro i g g' h hg
    simp only [gencode] at h
    split at h
    · rename_i hc
      simp only [Res.ok.injEq] at h
      subst h
      exact ⟨Grow.refl hg, by simpa using hc⟩
    · rename_i hc
      have hc : i ∉ g.emit := by simpa using hc
      have hg0 : GOk { g with emit := i :: g.emit } := by
        intro L hL
        rcases hg L hL with q | ⟨x, e, hx⟩
        · exact .inl q
        · exact .inr ⟨x, e, List.mem_cons_of_mem _ hx⟩
      split at h
      · cases h
      · rename_i arm cap hn
        simp only [Res.ok.injEq] at h
        subst h
        refine ⟨⟨List.prefix_append _ _, Nat.le_refl _, fun k hk => List.mem_cons_of_mem _ hk, ?_, ?_, ?_⟩, by simp [G.put]⟩
        · intro L hL
          simp only [G.put, List.mem_append, List.mem_singleton, reduceCtorEq, or_false] at hL
          exact hg0 L hL
        · intro L hL
          simp only [G.put, List.mem_append, List.mem_singleton, reduceCtorEq, or_false] at hL
          exact .inl hL
        · intro k hk hn'
          simp only [G.put, List.mem_cons] at hk
          rcases hk with rfl | hk
          · intro l es any nc e
            rw [hn] at e; cases e
          · exact absurd hk hn'
      · rename_i l es any nc hn
        obtain ⟨d, h1, h2⟩ := Res.bind_eq_ok.1 h
        obtain ⟨g2, h3, h4⟩ := Res.bind_eq_ok.1 h2
        have hg1 : GOk (G.put { g with emit := i :: g.emit } [.lbl (.node i)]) := by
          intro L hL
          simp only [G.put, List.mem_append, List.mem_singleton, Ins.lbl.injEq] at hL
          rcases hL with hL | rfl
          · exact hg0 L hL
          · exact .inr ⟨i, rfl, by simp [G.put]⟩
        have hnot : Ins.lbl (.node i) ∉ g.out := by
          intro q
          rcases hg _ q with ⟨x, e, _⟩ | ⟨x, e, hx⟩
          · cases e
          · cases e; exact hc hx
        obtain ⟨e1, e2, e3⟩ := genedges_ok ih l any d h1 es _ g2 h3 hg1
        -- the default
        have key : Grow nodes g2 g' ∧ (∀ j n, any = some j → nodes[j]? = some n → g'.out[g2.out.length]? = some (.jmp (lblof j n))) ∧ ∀ j, any = some j → j ∈ g'.emit := by
          cases any with
          | none =>
            simp only [anylbl, Res.ok.injEq] at h1
            subst h1
            simp only [genany, Res.ok.injEq] at h4
            subst h4
            exact ⟨Grow.refl e1.ok, by simp, by simp⟩
          | some j =>
            simp only [anylbl] at h1
            cases hn' : nodes[j]? with
            | none => rw [hn'] at h1; cases h1
            | some n' =>
              rw [hn'] at h1
              simp only [Res.ok.injEq] at h1
              subst h1
              simp only [genany] at h4
              have p1 : Grow nodes g2 (g2.put [.jmp (lblof j n')]) := grow_put e1.ok (by simp)
              obtain ⟨r1, r2⟩ := ih j _ g' h4 p1.ok
              refine ⟨p1.trans r1, ?_, ?_⟩
              · intro j2 n2 ej en
                cases ej
                rw [hn'] at en; cases en
                exact getElem?_of_prefix r1.out (by simp [G.put])
              · intro j2 ej; cases ej; exact r2
        obtain ⟨k1, k2, k3⟩ := key
        have all := e1.trans k1
        have hcoded : Coded nodes g'.out g'.emit i := by
          intro l' es' any' nc' hn'
          rw [hn] at hn'
          simp only [Option.some.injEq, Node.test.injEq] at hn'
          obtain ⟨rfl, rfl, rfl, rfl⟩ := hn'
          refine ⟨g.out.length, g2.out.length, ?_, ?_, k2, fun x hx => k1.emit _ (e3 x hx), k3⟩
          · exact find_mono all.out (find_new (d := []) hnot)
          · have := e2.mono k1.out
            simpa [G.put] using this
        refine ⟨⟨(List.prefix_append _ _).trans all.out, all.fresh, ?_, all.ok, ?_, ?_⟩, all.emit i (by simp [G.put])⟩
        · intro k hk
          exact all.emit k (List.mem_cons_of_mem _ hk)
        · intro L hL
          rcases all.new L hL with q | q | ⟨x, e, hx⟩
          · simp only [G.put, List.mem_append, List.mem_singleton, Ins.lbl.injEq] at q
            rcases q with q | rfl
            · exact .inl q
            · exact .inr (.inr ⟨i, rfl, hc⟩)
          · exact .inr (.inl q)
          · exact .inr (.inr ⟨x, e, fun q => hx (List.mem_cons_of_mem _ q)⟩)
        · intro k hk hnk
          by_cases e : k = i
          · subst e; exact hcoded
          · exact all.coded k hk (by simp [G.put, e, hnk])

/-! ## The arms -/

theorem genarms_find (n i k : Nat) (hk : k < n) : ∃ p, find (genarms i n) (.arm (i + k)) = some p ∧ (genarms i n)[p + 1]? = some (.block (i + k)) := by
  induction n generalizing i k with
  | zero => omega
  | succ n ih =>
    cases k with
    | zero => exact ⟨0, by simp [genarms, find, List.findIdx?_cons], by simp [genarms]⟩
    | succ k =>
      obtain ⟨p, h1, h2⟩ := ih (i + 1) k (by omega)
      have e : i + 1 + k = i + (k + 1) := by omega
      rw [e] at h1 h2
      refine ⟨p + 3, ?_, ?_⟩
      · unfold find at h1 ⊢
        simp only [genarms, List.findIdx?_cons]
        have : (Ins.lbl (.arm i) == Ins.lbl (.arm (i + (k + 1)))) = false := by simp
        simp only [this]
        simp [h1]
      · simpa [genarms] using h2

theorem find_arm {g : G} (hg : GOk g) {d : List Ins} {a p : Nat} (h : find d (.arm a) = some p) : find (g.out ++ d) (.arm a) = some (g.out.length + p) := by
  unfold find at h ⊢
  rw [List.findIdx?_append]
  have : List.findIdx? (fun i => i == Ins.lbl (.arm a)) g.out = none := by
    rw [List.findIdx?_eq_none_iff]
    intro x hx
    simp only [beq_eq_false_iff_ne, ne_eq]
    rintro rfl
    rcases hg _ hx with ⟨_, e, _⟩ | ⟨_, e, _⟩ <;> cases e
  rw [this, h]
  simp [Nat.add_comm]

/-! ## Running -/

/-- The code runs from `pc` to an arm. -/
def Runs (c : List Ins) (v : Val) (pc : Nat) (env : List (Nat × Val)) (arm : Nat) (env' : List (Nat × Val)) : Prop :=
  ∃ f, exec c v f pc env = .ok (some arm, env')

theorem runs_lbl {c : List Ins} {v : Val} {pc : Nat} {env env' : List (Nat × Val)} {arm : Nat} {L : Lbl} (h : c[pc]? = some (.lbl L))
    (hr : Runs c v (pc + 1) env arm env') : Runs c v pc env arm env' := by
  obtain ⟨f, hf⟩ := hr
  exact ⟨f + 1, by rw [exec, h]; exact hf⟩

theorem runs_jmp {c : List Ins} {v : Val} {pc q : Nat} {env env' : List (Nat × Val)} {arm : Nat} {L : Lbl} (h : c[pc]? = some (.jmp L))
    (hq : find c L = some q) (hr : Runs c v q env arm env') : Runs c v pc env arm env' := by
  obtain ⟨f, hf⟩ := hr
  exact ⟨f + 1, by rw [exec, h]; simp only [hq]; exact hf⟩

theorem runs_cjmp {c : List Ins} {v : Val} {pc q : Nat} {env env' : List (Nat × Val)} {arm : Nat} {l : Load} {a b : Atom} {T F : Lbl}
    (h : c[pc]? = some (.cjmp l a T F)) (hb : l.eval v = some (.atom b)) (hq : find c (if a = b then T else F) = some q)
    (hr : Runs c v q env arm env') : Runs c v pc env arm env' := by
  obtain ⟨f, hf⟩ := hr
  exact ⟨f + 1, by rw [exec, h]; simp only [hb, hq]; exact hf⟩

theorem runs_asns {c : List Ins} {v : Val} : ∀ (caps : List (Nat × Load)) (pc : Nat) (env env' w : List (Nat × Val)) (arm : Nat), capval v caps = some w →
    (∀ k x, caps[k]? = some x → c[pc + k]? = some (.asn x.1 x.2)) → Runs c v (pc + caps.length) (env ++ w) arm env' → Runs c v pc env arm env'
  | [], pc, env, env', w, arm, hw, _, hr => by
    simp only [capval, Option.some.injEq] at hw
    subst hw
    simpa using hr
  | x :: xs, pc, env, env', w, arm, hw, hc, hr => by
    simp only [capval] at hw
    split at hw
    · rename_i u ws hu hws
      simp only [Option.some.injEq] at hw
      subst hw
      have h0 := hc 0 x rfl
      have := runs_asns xs (pc + 1) (env ++ [(x.1, u)]) env' ws arm hws
        (fun k y hy => by have := hc (k + 1) y hy; rwa [show pc + 1 + k = pc + (k + 1) by omega])
        (by simpa [Nat.add_assoc, Nat.add_comm 1] using hr)
      obtain ⟨f, hf⟩ := this
      refine ⟨f + 1, ?_⟩
      simp only [Nat.add_zero] at h0
      rw [exec, h0]
      simp only [hu]
      exact hf
    · cases hw

theorem capval_get {v : Val} {caps : List (Nat × Load)} {w : List (Nat × Val)} (h : capval v caps = some w) : caps = [] → w = [] := by
  rintro rfl
  simpa [capval] using h.symm

/-- Code of a complete match statement. -/
structure Prog (nodes : List Node) (emit : List Nat) (c : List Ins) : Prop where
  coded : ∀ i ∈ emit, Coded nodes c emit i
  arms : ∀ (i a : Nat) (cap : List (Nat × Load)), nodes[i]? = some (Node.fin a cap) → ∃ p, find c (.arm a) = some p ∧ c[p + 1]? = some (.block a)

/-- From the jump to a node on. -/
theorem runs_goes {c : List Ins} {v : Val} {j : Nat} {n : Node} {T : Lbl} (hg : Goes c j n T) {q : Nat} (hq : find c T = some q) {env : List (Nat × Val)} {arm : Nat}
    {w : List (Nat × Val)} (hw : capval v (capsof n) = some w) (p : Nat) (hp : find c (lblof j n) = some p)
    (hr : ∀ env, ∃ u, Runs c v p env arm (env ++ u) ∧ (capsof n ≠ [] → u = [])) :
    ∃ u, Runs c v q env arm (env ++ u) ∧ (capsof n ≠ [] → u = w) := by
  rcases hg with ⟨h1, rfl⟩ | ⟨q', h1, h2, h3⟩
  · rw [hp] at hq
    cases hq
    obtain ⟨u, k1, _⟩ := hr env
    exact ⟨u, k1, fun k => absurd h1 k⟩
  · rw [h1] at hq
    cases hq
    obtain ⟨u, k1, k2⟩ := hr (env ++ w)
    refine ⟨w ++ u, ?_, fun k => by rw [k2 k]; simp⟩
    apply runs_lbl (find_get h1)
    apply runs_asns (capsof n) (q + 1) env _ w arm hw h2
    apply runs_jmp h3 hp
    simpa using k1

/-- The code follows the graph. Captures of arms with alternatives are assigned on some ways only. -/
theorem walk_runs {nodes : List Node} {emit : List Nat} {c : List Ins} (hp : Prog nodes emit c) {v : Val} {i : Nat} {r : Option Nat} (hw : Walk nodes v i r)
    {k a : Nat} {cap : List (Nat × Load)} {w : List (Nat × Val)} (hr : r = some k) (hk : nodes[k]? = some (.fin a cap)) (hcap : capval v cap = some w) :
    ∃ n, nodes[i]? = some n ∧ (i ∈ emit → ∃ q, find c (lblof i n) = some q ∧
      ∀ env, ∃ u, Runs c v q env a (env ++ u) ∧ (u = [] ∨ u = w) ∧ ((∃ b cp, n = .fin b cp) → u = [])) := by
  have hfin : ∀ (i b : Nat) (cp : List (Nat × Load)), nodes[i]? = some (.fin b cp) → ∃ q, find c (.arm b) = some q ∧ ∀ env, Runs c v q env b (env ++ []) := by
    intro i b cp h
    obtain ⟨p, h1, h2⟩ := hp.arms i b cp h
    refine ⟨p, h1, fun env => runs_lbl (find_get h1) ⟨1, ?_⟩⟩
    rw [exec, h2]
    simp
  induction hw with
  | @fin i b cp h =>
    cases hr
    rw [h] at hk
    cases hk
    refine ⟨_, h, fun _ => ?_⟩
    obtain ⟨q, h1, h2⟩ := hfin _ a cap h
    exact ⟨q, h1, fun env => ⟨[], h2 env, .inl rfl, fun _ => rfl⟩⟩
  | @edge i l es any nc b j r h hb hf hw ih =>
    obtain ⟨n, hn, ihn⟩ := ih hr
    refine ⟨_, h, fun hi => ?_⟩
    obtain ⟨p, e, c1, c2, c3, c4, c5⟩ := hp.coded i hi l es any nc h
    refine ⟨p, c1, fun env => ?_⟩
    obtain ⟨q, q1, q2⟩ := ihn (c4 _ (List.mem_of_find?_eq_some hf))
    -- captures of the target
    have hcn : ∃ w', capval v (capsof n) = some w' ∧ (capsof n ≠ [] → w' = w) := by
      cases n with
      | test => exact ⟨[], rfl, fun k => absurd rfl k⟩
      | fin b' cp' =>
        -- the walk ends there
        cases hw with
        | fin h' =>
          cases hr
          rw [hk] at hn
          cases hn
          exact ⟨w, hcap, fun _ => rfl⟩
        | edge h' => rw [hn] at h'; cases h'
        | dflt h' => rw [hn] at h'; cases h'
        | fail h' => cases hr
    obtain ⟨w', hw1, hw2⟩ := hcn
    have key : ∀ (es : List (Atom × Nat)) (pc : Nat), Tested nodes c l any e es pc → es.find? (fun e => decide (e.1 = b)) = some (b, j) →
        ∃ u, Runs c v pc env a (env ++ u) ∧ (u = [] ∨ u = w) := by
      intro es
      induction es with
      | nil => intro pc _ hf; cases hf
      | cons x es ihe =>
        obtain ⟨a', j'⟩ := x
        intro pc ht hf
        obtain ⟨n', T, F, t1, t2, t3, t4⟩ := ht
        by_cases ea : a' = b
        · subst ea
          simp only [List.find?_cons, decide_true, Option.some.injEq, Prod.mk.injEq, true_and] at hf
          subst hf
          rw [hn] at t1
          cases t1
          have hT : ∃ qT, find c T = some qT := by
            rcases t3 with ⟨_, rfl⟩ | ⟨q', k1, _⟩
            · exact ⟨q, q1⟩
            · exact ⟨q', k1⟩
          obtain ⟨qT, hT⟩ := hT
          rcases Classical.em (capsof n = []) with hcn | hcn
          · -- no captures: go on with the node
            obtain ⟨u, u1, u2, u3⟩ := q2 env
            refine ⟨u, runs_cjmp t2 hb (by simpa using hT) ?_, u2⟩
            rcases t3 with ⟨_, rfl⟩ | ⟨q', k1, k2, k3⟩
            · rw [q1] at hT; cases hT; exact u1
            · rw [k1] at hT; cases hT
              apply runs_lbl (find_get k1)
              rw [hcn] at k3
              exact runs_jmp k3 q1 u1
          · have hfinn : ∃ b' cp', n = .fin b' cp' := by
              cases n with
              | fin b' cp' => exact ⟨b', cp', rfl⟩
              | test => exact absurd rfl hcn
            obtain ⟨u, u1, u2⟩ := runs_goes (env := env) t3 hT hw1 q q1 (fun env => by
              obtain ⟨u, u1, _, u3⟩ := q2 env
              exact ⟨u, u1, fun _ => u3 hfinn⟩)
            refine ⟨u, runs_cjmp t2 hb (by simpa using hT) u1, .inr ?_⟩
            rw [u2 hcn, hw2 hcn]
        · have hf' : es.find? (fun e => decide (e.1 = b)) = some (b, j) := by simpa [List.find?_cons, ea] using hf
          rcases t4 with ⟨q', k1, k2⟩ | ⟨k1, _⟩
          · obtain ⟨u, u1, u2⟩ := ihe (q' + 1) k2 hf'
            refine ⟨u, runs_cjmp t2 hb (by simpa [ea] using k1) (runs_lbl (find_get k1) u1), u2⟩
          · rw [k1] at hf'; cases hf'
    obtain ⟨u, u1, u2⟩ := key es (p + 1) c2 hf
    exact ⟨u, runs_lbl (find_get c1) u1, u2, fun ⟨_, _, k⟩ => by cases k⟩
  | @dflt i l es nc b j r h hb hf hw ih =>
    obtain ⟨n, hn, ihn⟩ := ih hr
    refine ⟨_, h, fun hi => ?_⟩
    obtain ⟨p, e, c1, c2, c3, c4, c5⟩ := hp.coded i hi l es (some j) nc h
    refine ⟨p, c1, fun env => ?_⟩
    obtain ⟨q, q1, q2⟩ := ihn (c5 j rfl)
    obtain ⟨u, u1, u2, _⟩ := q2 env
    refine ⟨u, runs_lbl (find_get c1) ?_, u2, fun ⟨_, _, k⟩ => by cases k⟩
    have key : ∀ (es : List (Atom × Nat)) (pc : Nat), Tested nodes c l (some j) e es pc → es.find? (fun e => decide (e.1 = b)) = none → Runs c v pc env a (env ++ u) := by
      intro es
      induction es with
      | nil =>
        intro pc ht _
        simp only [Tested] at ht
        subst ht
        exact runs_jmp (c3 j n rfl hn) q1 u1
      | cons x es ihe =>
        obtain ⟨a', j'⟩ := x
        intro pc ht hf
        obtain ⟨n', T, F, t1, t2, t3, t4⟩ := ht
        have ea : a' ≠ b := by rintro rfl; simp at hf
        have hf' : es.find? (fun e => decide (e.1 = b)) = none := by simpa [List.find?_cons, ea] using hf
        rcases t4 with ⟨q', k1, k2⟩ | ⟨k1, j2, n2, k2, k3, k4⟩
        · exact runs_cjmp t2 hb (by simpa [ea] using k1) (runs_lbl (find_get k1) (ihe (q' + 1) k2 hf'))
        · cases k2
          rw [hn] at k3
          cases k3
          subst k4
          exact runs_cjmp t2 hb (by simpa [ea] using q1) u1
    exact key es (p + 1) c2 hf
  | fail _ _ _ => cases hr

end Verif.Match
