import Verif.Flow.Lemmas

/-! # Lemmas: reaching definitions and the checks -/

namespace Verif.Flow

open Verif

/-! ## The return check -/

theorem lbl_pos (P : List Stmt) : ∀ p ∈ (blocks P).lbl, 1 ≤ p.2 := by
  unfold blocks
  have h1 : ∀ (s : B) (n : Nd), Ok s → (∀ p ∈ s.lbl, 1 ≤ p.2) → ∀ p ∈ (B.step P.length s n).lbl, 1 ≤ p.2 := by
    intro s n o h
    have hd : 1 ≤ s.done.length := by
      rcases e : s.done with _ | _
      · exact absurd e o.ne
      · simp
    by_cases hl : ∃ l, n.2 = .label l
    · obtain ⟨l, hl⟩ := hl
      obtain ⟨i, st⟩ := n
      simp only at hl; subst hl
      rcases hf : s.falls with _ | _
      · rw [step_nofall hf (o.jmp hf)]
        intro p hp
        rcases List.mem_cons.1 hp with rfl | hp
        · exact hd
        · exact h p hp
      · rw [step_fall hf]
        intro p hp
        rcases List.mem_cons.1 hp with rfl | hp
        · simp
        · exact h p hp
    · rcases he : n.2.ends with _ | _
      · rw [step_plain (fun l h => hl ⟨l, h⟩) he]; exact h
      · rw [step_ends he]; exact h
  have : ∀ (l : List Nd) (s : B), Ok s → (∀ p ∈ s.lbl, 1 ≤ p.2) → ∀ p ∈ (l.foldl (B.step P.length) s).lbl, 1 ≤ p.2 := by
    intro l
    induction l with
    | nil => intro s _ h; exact h
    | cons n l ih => intro s o h; exact ih _ (ok_step o) (h1 s n o h)
  exact this _ _ ok_init (by simp [B.init])

theorem cfg_n {P : List Stmt} {h : G} (c : Cfg P h) : h.n = (pos P P.length).1 + 2 := by
  obtain ⟨g, r, w, t⟩ := c.raw; rw [t.n, r.n]

theorem cfg_nodes {P : List Stmt} {h : G} (c : Cfg P h) : h.nodes = nodesOf P := by
  obtain ⟨g, r, w, t⟩ := c.raw; rw [t.nodes, r.nodes]

theorem cfg_succ {P : List Stmt} {h : G} (c : Cfg P h) {b : Nat} (hb : h.live b = true) :
    h.succ b = succs (blocks P).lbl h.n (nodesOf P) b := by
  obtain ⟨g, r, w, t⟩ := c.raw; rw [t.succ b hb, r.succ b (t.lt b hb), t.n]

theorem cfg_lt {P : List Stmt} {h : G} (c : Cfg P h) {b : Nat} (hb : h.live b = true) : b < h.n := by
  obtain ⟨g, r, w, t⟩ := c.raw; rw [t.n]; exact t.lt b hb

theorem cfg_zero {P : List Stmt} {h : G} (c : Cfg P h) : h.live 0 = true := by
  obtain ⟨g, r, w, t⟩ := c.raw; exact t.zero

theorem cfg_last {P : List Stmt} {h : G} (c : Cfg P h) : h.live (h.n - 1) = true := by
  obtain ⟨g, r, w, t⟩ := c.raw; rw [t.n]; exact t.last

theorem pos_pos (P : List Stmt) : 1 ≤ (pos P P.length).1 := by
  have := (ok_St P P.length).ne
  unfold pos
  rcases hd : (St P P.length).done with _ | _
  · exact absurd hd this
  · simp

theorem zero_not_succ {P : List Stmt} {h : G} (c : Cfg P h) {b : Nat} (hb : h.live b = true) : 0 ∉ h.succ b := by
  rw [cfg_succ c hb]
  have := cfg_n c
  have := pos_pos P
  unfold succs
  intro hm
  simp only [List.mem_append] at hm
  rcases hm with (hm | hm) | hm
  · split at hm <;> simp at hm
  · split at hm
    · simp at hm; omega
    · simp at hm
  · rw [List.mem_flatMap] at hm
    obtain ⟨nd, _, hs⟩ := hm
    unfold tgts at hs
    split at hs
    · simp at hs; omega
    · rw [List.mem_filterMap] at hs
      obtain ⟨l, _, hf⟩ := hs
      obtain ⟨p, hp, e⟩ := find_mem hf
      have := lbl_pos P p hp
      omega

theorem succ_last {P : List Stmt} {h : G} (c : Cfg P h) : h.succ (h.n - 1) = [] := by
  rw [cfg_succ c (cfg_last c)]
  have h1 := cfg_n c
  have h2 := pos_pos P
  unfold succs
  have : nodesOf P (h.n - 1) = [] := by
    unfold nodesOf
    rw [List.getElem?_eq_none (by rw [(pos_end P).1]; omega)]
    rfl
  rw [this, if_neg (by omega), if_neg (by omega)]; rfl

/-- A block without nodes which is a predecessor is the entry or the last but one. -/
theorem empty_pred {P : List Stmt} {h : G} (c : Cfg P h) {b p : Nat} (hb : h.live b = true) (hp : p ∈ h.pred b) (he : nodesOf P p = []) :
    p = 0 ∨ (p = h.n - 2 ∧ b = h.n - 1) := by
  obtain ⟨h1, h2⟩ := (pred_iff c hb).1 hp
  have h3 := cfg_lt c h1
  have h4 := cfg_n c
  have h5 := pos_pos P
  rcases bbs_full P p with e | e | e | ⟨i, t, e, _⟩
  · exact Or.inl e
  · refine Or.inr ⟨by omega, ?_⟩
    rw [cfg_succ c h1] at h2
    unfold succs at h2
    rw [if_neg (by omega), if_pos (by omega), he] at h2
    simpa using h2
  · rw [(pos_end P).1] at e
    have : p = h.n - 1 := by omega
    rw [this, succ_last c] at h2; cases h2
  · rw [he] at e; simp at e

theorem predloop_total {g : G} {up : Nat → Res Bool} : ∀ l : List Nat, (∀ p ∈ l, g.live p = true) →
    (∀ p ∈ l, g.nodes p = [] → ∃ r, up p = .ok r) → ∃ r, predloop g up l = .ok r := by
  intro l
  induction l with
  | nil => intros; exact ⟨false, rfl⟩
  | cons p l ih =>
    intro h1 h2
    have ih' := ih (fun q hq => h1 q (List.mem_cons_of_mem _ hq)) (fun q hq => h2 q (List.mem_cons_of_mem _ hq))
    unfold predloop
    rw [if_neg (by rw [h1 p List.mem_cons_self]; simp)]
    split
    · rename_i hn
      rw [List.getLast?_eq_none_iff] at hn
      obtain ⟨r, hr⟩ := h2 p List.mem_cons_self hn
      rw [hr, Res.bind_ok]
      split
      · exact ⟨true, rfl⟩
      · exact ih'
    · split
      · exact ih'
      · exact ⟨true, rfl⟩

theorem predloop_false {g : G} {up : Nat → Res Bool} : ∀ l : List Nat, predloop g up l = .ok false → ∀ p ∈ l, g.live p = true ∧
    ((g.nodes p = [] ∧ up p = .ok false) ∨ ∃ n, (g.nodes p).getLast? = some n ∧ n.2.fin = true) := by
  intro l
  induction l with
  | nil => intro _ p hp; cases hp
  | cons q l ih =>
    intro h p hp
    unfold predloop at h
    split at h
    · cases h
    · rename_i hl
      have hl : g.live q = true := by simpa using hl
      split at h
      · rename_i hn
        rw [List.getLast?_eq_none_iff] at hn
        rw [Res.bind_eq_ok] at h
        obtain ⟨r, hr, h⟩ := h
        split at h
        · cases h
        · rename_i hf
          rcases List.mem_cons.1 hp with rfl | hp
          · refine ⟨hl, Or.inl ⟨hn, ?_⟩⟩
            rw [hr]; cases r
            · rfl
            · exact absurd rfl hf
          · exact ih h p hp
      · rename_i n hn
        split at h
        · rename_i hf
          rcases List.mem_cons.1 hp with rfl | hp
          · exact ⟨hl, Or.inr ⟨n, hn, hf⟩⟩
          · exact ih h p hp
        · cases h

theorem checkpredret_total {P : List Stmt} {h : G} (c : Cfg P h) (f : Nat) : ∃ r, checkpredret h (f + 3) (h.n - 1) = .ok r := by
  have live : ∀ b, h.live b = true → ∀ p ∈ h.pred b, h.live p = true := fun b hb p hp => ((pred_iff c hb).1 hp).1
  have zero : ∀ f, checkpredret h (f + 1) 0 = .ok false := by
    intro f
    unfold checkpredret
    have : h.pred 0 = [] := by
      rw [List.eq_nil_iff_forall_not_mem]
      intro p hp
      obtain ⟨h1, h2⟩ := (pred_iff c (cfg_zero c)).1 hp
      exact zero_not_succ c h1 h2
    rw [this]; rfl
  have hn := cfg_n c
  have hp := pos_pos P
  have mid : ∀ b, h.live b = true → b ≠ h.n - 1 → ∃ r, checkpredret h (f + 2) b = .ok r := by
    intro b hb hne
    rw [show f + 2 = (f + 1) + 1 from rfl]
    unfold checkpredret
    refine predloop_total _ (live b hb) fun p hp he => ?_
    rw [cfg_nodes c] at he
    rcases empty_pred c hb hp he with rfl | ⟨_, e⟩
    · exact ⟨false, zero f⟩
    · exact absurd e hne
  rw [show f + 3 = (f + 2) + 1 from rfl]
  unfold checkpredret
  refine predloop_total _ (live _ (cfg_last c)) fun p hp he => ?_
  rw [cfg_nodes c] at he
  refine mid p (live _ (cfg_last c) p hp) ?_
  rcases empty_pred c (cfg_last c) hp he with rfl | ⟨e, _⟩ <;> omega

theorem fin_ends {s : Stmt} (h : s.fin = true) : s.ends = true ∧ s.isjmp = false := by
  cases s <;> simp_all [Stmt.fin, Stmt.ends, Stmt.isjmp]

/-- A block entered at its start is block 1, or the target of a jump in a live block. -/
theorem entered {P : List Stmt} {h : G} (c : Cfg P h) (u : Unique P) {i : Nat} (hr : Runs P 0 i) (h0 : (pos P i).2 = 0) :
    (pos P i).1 = 1 ∨ ∃ a n, h.live a = true ∧ (pos P i).1 ∈ h.succ a ∧ (nodesOf P a).getLast? = some n ∧ n.2.isjmp = true := by
  induction hr with
  | refl => exact Or.inl rfl
  | @tail j k hr hs ih =>
    obtain ⟨s, _, m⟩ := move_of c u hs
    have hl := runs_live c u hr
    generalize pos P j = p at m ih hl
    generalize pos P k = q at m h0
    cases m with
    | stay => exact ih h0
    | next => cases h0
    | edge h1 h2 h3 _ hx =>
      refine Or.inr ⟨_, _, hl, hx hl, ?_, h3⟩
      rw [List.getLast?_eq_getElem?, h2]; exact h1

/-- The heart of C42. -/
theorem no_fall {P : List Stmt} {h : G} (c : Cfg P h) (u : Unique P) (hret : .ret ∈ P) {f : Nat}
    (hc : checkpredret h f (h.n - 1) = .ok false) : ¬ Runs P 0 P.length := by
  intro hr
  have hn := cfg_n c
  have hp := pos_pos P
  have hl := runs_live c u hr
  have e2 : (pos P P.length).1 = h.n - 2 := by omega
  have hpr : h.n - 2 ∈ h.pred (h.n - 1) := by
    rw [pred_iff c (cfg_last c)]
    rw [e2] at hl
    refine ⟨hl, ?_⟩
    rw [cfg_succ c hl]
    unfold succs
    simp
  rcases f with _ | f
  · cases hc
  unfold checkpredret at hc
  obtain ⟨_, hq⟩ := predloop_false _ hc _ hpr
  rw [cfg_nodes c] at hq
  have hnodes := (pos_end P).2
  rw [e2] at hnodes
  rcases hq with ⟨he, hup⟩ | ⟨n, hn', hf⟩
  · rcases f with _ | f
    · cases hup
    unfold checkpredret at hup
    have h0 : (pos P P.length).2 = 0 := by
      unfold pos; rw [← hnodes, he]; rfl
    rcases entered c u hr h0 with h1 | ⟨a, n, ha, hs, hla, hj⟩
    · obtain ⟨i, hi⟩ := List.mem_iff_getElem?.1 hret
      have h2 := (at_ends hi rfl).1
      have h3 : (pos P i).1 < (blocks P).bbs.length := by
        rcases Nat.lt_or_ge (pos P i).1 (blocks P).bbs.length with h | h
        · exact h
        · rw [nodesOf, List.getElem?_eq_none h] at h2; cases h2
      rw [(pos_end P).1] at h3
      have h4 : (pos P i).1 ≠ 0 := by
        intro e; rw [e, nodesOf_zero] at h2; cases h2
      have h5 : (pos P i).1 = h.n - 2 := by omega
      rw [h5, he] at h2; cases h2
    · rw [e2] at hs hl
      have hm := (pred_iff c hl).2 ⟨ha, hs⟩
      obtain ⟨_, hq⟩ := predloop_false _ hup _ hm
      rw [cfg_nodes c] at hq
      rcases hq with ⟨he', _⟩ | ⟨n', hn', hf⟩
      · rw [he'] at hla; cases hla
      · rw [hla] at hn'; cases hn'
        rw [(fin_ends hf).2] at hj; cases hj
  · rw [hnodes] at hn'
    have := (ok_St P P.length).cur n (List.mem_of_getLast? hn')
    rw [(fin_ends hf).1] at this; cases this

/-! ## Reaching definitions -/

/-- The effect of one node on the set of definitions. -/
def stepset (defs : Nat → List Nat) (X : Finset Nat) (n : Nd) : Finset Nat :=
  match assignee n.2 with
  | none => X
  | some a => insert n.1 (X \ (defs a.did).toFinset)

theorem genkill_trans (defs : Nat → List Nat) (ns : List Nd) (X : Finset Nat) :
    (X \ (genkill defs ns).2) ∪ (genkill defs ns).1 = ns.foldl (stepset defs) X := by
  induction ns using List.reverseRecOn with
  | nil => simp [genkill]
  | append_singleton ns n ih =>
    rw [List.foldl_append, ← ih]
    unfold genkill at ih ⊢
    rw [List.foldl_append]
    generalize ns.foldl (gk defs) (∅, ∅) = s
    simp only [List.foldl_cons, List.foldl_nil, gk, stepset]
    rcases assignee n.2 with _ | a
    · rfl
    · ext x
      simp only [Finset.mem_union, Finset.mem_sdiff, Finset.mem_erase, Finset.mem_insert]
      tauto

theorem stepset_mono {defs : Nat → List Nat} {X Y : Finset Nat} (h : X ⊆ Y) (n : Nd) : stepset defs X n ⊆ stepset defs Y n := by
  unfold stepset
  split
  · exact h
  · exact Finset.insert_subset_insert _ (Finset.sdiff_subset_sdiff h (Finset.Subset.refl _))

theorem foldl_mono {defs : Nat → List Nat} (ns : List Nd) : ∀ {X Y : Finset Nat}, X ⊆ Y → ns.foldl (stepset defs) X ⊆ ns.foldl (stepset defs) Y := by
  induction ns with
  | nil => intro X Y h; exact h
  | cons n ns ih => intro X Y h; exact ih (stepset_mono h n)

theorem mem_unions {f : Nat → Finset Nat} {l : List Nat} {x : Nat} : x ∈ unions f l ↔ ∃ j ∈ l, x ∈ f j := by
  induction l with
  | nil => simp [unions]
  | cons a l ih => simp [unions, ih]

/-- Pointwise inclusion. -/
def Le (x y : IO) : Prop := ∀ i, (x i).1 ⊆ (y i).1 ∧ (x i).2 ⊆ (y i).2

theorem reachval_eq (g : G) (x : IO) (i : Nat) : reachval g x i =
    (unions (fun j => (x j).2) (g.pred i), (g.nodes i).foldl (stepset (collectdefs g)) (unions (fun j => (x j).2) (g.pred i))) := by
  unfold reachval; simp only; rw [genkill_trans]

theorem unions_mono {f h : Nat → Finset Nat} (l : List Nat) (e : ∀ j, f j ⊆ h j) : unions f l ⊆ unions h l := by
  intro x hx
  rw [mem_unions] at hx ⊢
  obtain ⟨j, hj, hx⟩ := hx
  exact ⟨j, hj, e j hx⟩

theorem reachval_mono {g : G} {x y : IO} (h : Le x y) (i : Nat) : (reachval g x i).1 ⊆ (reachval g y i).1 ∧ (reachval g x i).2 ⊆ (reachval g y i).2 := by
  rw [reachval_eq, reachval_eq]
  have := unions_mono (g.pred i) fun j => (h j).2
  exact ⟨this, foldl_mono _ this⟩

/-- The invariant of the loop: the sets are below the values computed from them, and sound for `S`. -/
structure Inv (g : G) (S T : Nat → Nat → Prop) (x : IO) : Prop where
  le : ∀ i, g.live i = true → (x i).1 ⊆ (reachval g x i).1 ∧ (x i).2 ⊆ (reachval g x i).2
  dead : ∀ i, g.live i = false → x i = (∅, ∅)
  s : ∀ i u, u ∈ (x i).1 → S i u
  t : ∀ i u, u ∈ (x i).2 → T i u

/-- Closure of a pair of relations under the equations. -/
structure Closed (g : G) (S T : Nat → Nat → Prop) : Prop where
  inn : ∀ i j u, g.live i = true → j ∈ g.pred i → T j u → S i u
  out : ∀ i (X : Finset Nat), g.live i = true → (∀ u ∈ X, S i u) → ∀ u ∈ (g.nodes i).foldl (stepset (collectdefs g)) X, T i u

theorem inv_upd {g : G} {S T : Nat → Nat → Prop} (c : Closed g S T) {x : IO} (h : Inv g S T x) {i : Nat} (hl : g.live i = true) :
    Inv g S T (upd x i (reachval g x i)) ∧ Le x (upd x i (reachval g x i)) := by
  have le : Le x (upd x i (reachval g x i)) := by
    intro j; unfold upd; split
    · rename_i e; subst e; exact h.le j hl
    · exact ⟨Finset.Subset.refl _, Finset.Subset.refl _⟩
  have hs : ∀ u ∈ (reachval g x i).1, S i u := by
    intro u hu
    rw [reachval_eq] at hu
    obtain ⟨j, hj, hu⟩ := mem_unions.1 hu
    exact c.inn i j u hl hj (h.t j u hu)
  refine ⟨⟨?_, ?_, ?_, ?_⟩, le⟩
  · intro j hj
    have m := reachval_mono (g := g) le j
    by_cases e : j = i
    · subst e
      have : upd x j (reachval g x j) j = reachval g x j := by simp [upd]
      rw [this]; exact m
    · have : upd x i (reachval g x i) j = x j := by simp [upd, e]
      rw [this]
      have := h.le j hj
      exact ⟨this.1.trans m.1, this.2.trans m.2⟩
  · intro j hj
    have : j ≠ i := by rintro rfl; rw [hl] at hj; cases hj
    simp only [upd, this, if_false]; exact h.dead j hj
  · intro j u hu
    unfold upd at hu; split at hu
    · rename_i e; subst e; exact hs u hu
    · exact h.s j u hu
  · intro j u hu
    unfold upd at hu; split at hu
    · rename_i e; subst e
      refine c.out j _ hl hs u ?_
      rw [reachval_eq] at hu ⊢; exact hu
    · exact h.t j u hu

/-- The sum of the sizes of all sets. -/
def size (x : IO) : Nat → Nat
  | 0 => 0
  | n + 1 => size x n + ((x n).1.card + (x n).2.card)

theorem size_mono {x y : IO} (h : Le x y) (n : Nat) : size x n ≤ size y n := by
  induction n with
  | zero => exact Nat.le_refl _
  | succ n ih =>
    have h1 := Finset.card_le_card (h n).1
    have h2 := Finset.card_le_card (h n).2
    unfold size; omega

theorem size_lt {x y : IO} (h : Le x y) {n i : Nat} (hi : i < n) (hne : (x i).2 ≠ (y i).2 ∨ (x i).1 ≠ (y i).1) : size x n < size y n := by
  induction n with
  | zero => omega
  | succ n ih =>
    have h1 := Finset.card_le_card (h n).1
    have h2 := Finset.card_le_card (h n).2
    unfold size
    by_cases e : i = n
    · subst e
      have := size_mono h i
      rcases hne with hne | hne
      · have := Finset.card_lt_card (Finset.ssubset_iff_subset_ne.2 ⟨(h i).2, hne⟩); omega
      · have := Finset.card_lt_card (Finset.ssubset_iff_subset_ne.2 ⟨(h i).1, hne⟩); omega
    · have := ih (by omega); omega

theorem Le.refl (x : IO) : Le x x := fun _ => ⟨Finset.Subset.refl _, Finset.Subset.refl _⟩

theorem Le.trans {x y z : IO} (h : Le x y) (k : Le y z) : Le x z := fun i => ⟨(h i).1.trans (k i).1, (h i).2.trans (k i).2⟩

theorem reachround_ok {g : G} {S T : Nat → Nat → Prop} (c : Closed g S T) : ∀ (is : List Nat) (x : IO), Inv g S T x → (∀ i ∈ is, i < g.n) →
    Inv g S T (reachround g is x).1 ∧ Le x (reachround g is x).1 ∧
    ((reachround g is x).2 = true → size x g.n < size (reachround g is x).1 g.n) ∧
    ((reachround g is x).2 = false → (reachround g is x).1 = x ∧ ∀ i ∈ is, g.live i = true → x i = reachval g x i) := by
  intro is
  induction is with
  | nil => intro x h _; exact ⟨h, Le.refl x, (fun h => nomatch h), fun _ => ⟨rfl, by simp⟩⟩
  | cons i is ih =>
    intro x h hi
    have hi' : ∀ i ∈ is, i < g.n := fun j hj => hi j (List.mem_cons_of_mem _ hj)
    unfold reachround
    split
    · rename_i hl
      simp only
      split
      · rename_i hne
        obtain ⟨h1, l1⟩ := inv_upd c h hl
        obtain ⟨h2, l2, _, _⟩ := ih _ h1 hi'
        refine ⟨h2, l1.trans l2, fun _ => ?_, fun h => nomatch h⟩
        refine Nat.lt_of_lt_of_le (size_lt l1 (hi i List.mem_cons_self) ?_) (size_mono l2 _)
        simpa [upd] using hne
      · rename_i he
        obtain ⟨h2, l2, k2, e2⟩ := ih _ h hi'
        refine ⟨h2, l2, k2, fun hf => ?_⟩
        obtain ⟨e3, e4⟩ := e2 hf
        refine ⟨e3, ?_⟩
        intro j hj hlj
        rcases List.mem_cons.1 hj with rfl | hj
        · simp only [not_or, not_not] at he
          exact Prod.ext he.2 he.1
        · exact e4 j hj hlj
    · rename_i hl
      obtain ⟨h2, l2, k2, e2⟩ := ih _ h hi'
      refine ⟨h2, l2, k2, fun hf => ?_⟩
      obtain ⟨e3, e4⟩ := e2 hf
      refine ⟨e3, ?_⟩
      intro j hj hlj
      rcases List.mem_cons.1 hj with rfl | hj
      · exact absurd hlj hl
      · exact e4 j hj hlj

theorem reachloop_sound {g : G} {S T : Nat → Nat → Prop} (c : Closed g S T) : ∀ (fuel : Nat) (x r : IO), Inv g S T x → reachloop g fuel x = .ok r →
    Inv g S T r ∧ ∀ i, i < g.n → g.live i = true → r i = reachval g r i := by
  intro fuel
  induction fuel with
  | zero => intro x r _ h; cases h
  | succ f ih =>
    intro x r h e
    obtain ⟨h1, l1, k1, e1⟩ := reachround_ok c (List.range g.n) x h (fun i hi => List.mem_range.1 hi)
    unfold reachloop at e
    simp only at e
    split at e
    · exact ih _ _ h1 e
    · rename_i hf
      cases e
      obtain ⟨e2, e3⟩ := e1 (by simpa using hf)
      refine ⟨h1, ?_⟩
      rw [e2]
      exact fun i hi hl => e3 i (List.mem_range.2 hi) hl

theorem reachloop_stops {g : G} {S T : Nat → Nat → Prop} (c : Closed g S T) (M : Nat) (hM : ∀ x, Inv g S T x → size x g.n ≤ M) :
    ∀ (fuel : Nat) (x : IO), Inv g S T x → M < fuel + size x g.n → ∃ r, reachloop g fuel x = .ok r := by
  intro fuel
  induction fuel with
  | zero => intro x h hm; have := hM x h; omega
  | succ f ih =>
    intro x h hm
    obtain ⟨h1, l1, k1, e1⟩ := reachround_ok c (List.range g.n) x h (fun i hi => List.mem_range.1 hi)
    unfold reachloop
    simp only
    split
    · rename_i hf
      have := k1 hf
      exact ih _ h1 (by omega)
    · exact ⟨_, rfl⟩

theorem inv_empty (g : G) (S T : Nat → Nat → Prop) : Inv g S T fun _ => (∅, ∅) := by
  refine ⟨?_, fun _ _ => rfl, ?_, ?_⟩
  · intro i _; simp
  · intro i u h; simp at h
  · intro i u h; simp at h

theorem size_le {x : IO} {U : Finset Nat} (h : ∀ i, (x i).1 ⊆ U ∧ (x i).2 ⊆ U) (n : Nat) : size x n ≤ n * (2 * U.card) := by
  induction n with
  | zero => simp [size]
  | succ n ih =>
    have h1 := Finset.card_le_card (h n).1
    have h2 := Finset.card_le_card (h n).2
    unfold size
    rw [Nat.succ_mul]; omega

/-- The ids of all nodes. -/
def ids (g : G) : Finset Nat := (g.all.map Prod.fst).toFinset

theorem mem_all {g : G} {n : Nd} : n ∈ g.all ↔ ∃ b, b < g.n ∧ g.live b = true ∧ n ∈ g.nodes b := by
  unfold G.all
  rw [List.mem_flatMap]
  constructor
  · rintro ⟨b, hb, hn⟩
    rw [List.mem_filter, List.mem_range] at hb
    exact ⟨b, hb.1, hb.2, hn⟩
  · rintro ⟨b, h1, h2, hn⟩
    exact ⟨b, List.mem_filter.2 ⟨List.mem_range.2 h1, h2⟩, hn⟩

theorem stepset_sub {defs : Nat → List Nat} {X : Finset Nat} {n : Nd} {u : Nat} (h : u ∈ stepset defs X n) : u ∈ X ∨ u = n.1 := by
  unfold stepset at h
  split at h
  · exact Or.inl h
  · simp only [Finset.mem_insert, Finset.mem_sdiff] at h
    rcases h with h | ⟨h, _⟩
    · exact Or.inr h
    · exact Or.inl h

theorem foldl_sub {defs : Nat → List Nat} (ns : List Nd) : ∀ {X : Finset Nat} {u : Nat}, u ∈ ns.foldl (stepset defs) X → u ∈ X ∨ ∃ n ∈ ns, u = n.1 := by
  induction ns with
  | nil => intro X u h; exact Or.inl h
  | cons n ns ih =>
    intro X u h
    rcases ih h with h | ⟨m, hm, e⟩
    · rcases stepset_sub h with h | h
      · exact Or.inl h
      · exact Or.inr ⟨n, List.mem_cons_self, h⟩
    · exact Or.inr ⟨m, List.mem_cons_of_mem _ hm, e⟩

theorem closed_ids {g : G} (lt : ∀ b, g.live b = true → b < g.n) : Closed g (fun _ u => u ∈ ids g) (fun _ u => u ∈ ids g) := by
  refine ⟨fun _ _ _ _ _ h => h, ?_⟩
  intro i X hl hX u hu
  rcases foldl_sub _ hu with h | ⟨n, hn, rfl⟩
  · exact hX u h
  · exact List.mem_toFinset.2 (List.mem_map.2 ⟨n, mem_all.2 ⟨i, lt i hl, hl, hn⟩, rfl⟩)

/-- The loop always stops. -/
theorem reaching_stops {g : G} (lt : ∀ b, g.live b = true → b < g.n) (fuel : Nat) (hf : g.n * (2 * (ids g).card) < fuel) :
    ∃ r, reaching fuel g = .ok r := by
  unfold reaching
  refine reachloop_stops (closed_ids lt) (g.n * (2 * (ids g).card)) ?_ fuel _ (inv_empty _ _ _) (by omega)
  intro x h
  exact size_le (fun i => ⟨fun u hu => h.s i u hu, fun u hu => h.t i u hu⟩) _

/-! ## Exactness -/

theorem sets_iff {s : Stmt} {d : Nat} : s.sets d ↔ ∃ t, assignee s = some (.var d t) := by
  unfold Stmt.sets
  constructor
  · rintro (h | rfl)
    · unfold Stmt.assigns at h
      split at h <;> first | (subst h; exact ⟨_, rfl⟩) | exact h.elim
    · exact ⟨true, rfl⟩
  · rintro ⟨t, h⟩
    unfold assignee at h
    split at h <;> simp_all [Stmt.assigns]

theorem defvar_iff {s : Stmt} {d : Nat} : defvar s = some d ↔ s.sets d := by
  rw [sets_iff]
  unfold defvar
  rcases assignee s with _ | a
  · simp
  · cases a <;> simp

theorem sets_unique {s : Stmt} {d e : Nat} (h : s.sets d) (k : s.sets e) : d = e := by
  rw [← defvar_iff] at h k
  rw [h] at k; cases k; rfl

/-- Ids tell which statement a node is. -/
theorem node_of {P : List Stmt} {b : Nat} {n : Nd} (h : n ∈ nodesOf P b) : P[n.1]? = some n.2 ∨ (n.1 = P.length ∧ ∃ l, n.2 = .jmp l ∧ .label l ∈ P) := by
  have key : ∀ i, i ≤ P.length → ∀ blk ∈ (St P i).bbs, ∀ n ∈ blk, P[n.1]? = some n.2 ∨ (n.1 = P.length ∧ ∃ l, n.2 = .jmp l ∧ .label l ∈ P) := by
    intro i
    induction i with
    | zero =>
      intro _ blk hb n hn
      simp [St, B.init, B.bbs] at hb
      subst hb; cases hn
    | succ i ih =>
      intro hi blk hb n hn
      have ih := ih (by omega)
      have hg : P[i]? = some P[i] := List.getElem?_eq_getElem (by omega)
      have hold : ∀ blk ∈ (St P i).done, ∀ n ∈ blk, P[n.1]? = some n.2 ∨ (n.1 = P.length ∧ ∃ l, n.2 = .jmp l ∧ .label l ∈ P) :=
        fun blk hb => ih blk (List.mem_append_left _ hb)
      have hcur := ih (St P i).cur (by simp [B.bbs])
      have h1 := St_succ hg
      by_cases hl : ∃ l, P[i] = .label l
      · obtain ⟨l, hl⟩ := hl
        rw [hl] at h1
        rcases hf : (St P i).falls with _ | _
        · rw [step_nofall hf ((ok_St P i).jmp hf)] at h1
          rw [h1] at hb
          simp only [B.bbs, List.mem_append, List.mem_singleton] at hb
          rcases hb with hb | rfl
          · exact hold blk hb n hn
          · cases hn
        · rw [step_fall hf] at h1
          rw [h1] at hb
          simp only [B.bbs, List.mem_append, List.mem_singleton] at hb
          rcases hb with (hb | rfl) | rfl
          · exact hold blk hb n hn
          · rcases List.mem_append.1 hn with hn | hn
            · exact hcur n hn
            · rw [List.mem_singleton.1 hn]; exact Or.inr ⟨rfl, l, rfl, hl ▸ List.getElem_mem _⟩
          · cases hn
      · rcases he : P[i].ends with _ | _
        · rw [step_plain (fun l h => hl ⟨l, h⟩) he] at h1
          rw [h1] at hb
          simp only [B.bbs, List.mem_append, List.mem_singleton] at hb
          rcases hb with hb | rfl
          · exact hold blk hb n hn
          · rcases List.mem_append.1 hn with hn | hn
            · exact hcur n hn
            · rw [List.mem_singleton.1 hn]; exact Or.inl hg
        · rw [step_ends he] at h1
          rw [h1] at hb
          simp only [B.bbs, List.mem_append, List.mem_singleton] at hb
          rcases hb with (hb | rfl) | rfl
          · exact hold blk hb n hn
          · rcases List.mem_append.1 hn with hn | hn
            · exact hcur n hn
            · rw [List.mem_singleton.1 hn]; exact Or.inl hg
          · cases hn
  unfold nodesOf at h
  rcases hb : (blocks P).bbs[b]? with _ | blk
  · rw [hb] at h; cases h
  · rw [hb] at h
    refine key P.length (Nat.le_refl _) blk ?_ n h
    rw [St_end]; exact List.mem_of_getElem? hb

theorem jmp_not_sets {l d : Nat} : ¬ (Stmt.jmp l).sets d := by simp [Stmt.sets, Stmt.assigns]

/-- A node with the id of a statement of the list is that statement. -/
theorem node_stmt {P : List Stmt} {b u : Nat} {s s' : Stmt} (h : (u, s) ∈ nodesOf P b) (hs : P[u]? = some s') : s = s' := by
  rcases node_of h with h | ⟨h, _⟩
  · simp only at h; rw [hs] at h; cases h; rfl
  · simp only at h
    rw [h, List.getElem?_eq_none (Nat.le_refl _)] at hs; cases hs

theorem mem_collect {P : List Stmt} {g : G} (c : Cfg P g) {u d : Nat} :
    u ∈ collectdefs g d ↔ ∃ b s, g.live b = true ∧ (u, s) ∈ nodesOf P b ∧ s.sets d := by
  unfold collectdefs
  rw [List.mem_filterMap]
  constructor
  · rintro ⟨⟨v, s⟩, hn, h⟩
    split at h
    · rename_i hd
      cases h
      obtain ⟨b, _, hl, hm⟩ := mem_all.1 hn
      rw [cfg_nodes c] at hm
      exact ⟨b, s, hl, hm, defvar_iff.1 hd⟩
    · cases h
  · rintro ⟨b, s, hl, hm, hs⟩
    refine ⟨(u, s), mem_all.2 ⟨b, cfg_lt c hl, hl, by rw [cfg_nodes c]; exact hm⟩, ?_⟩
    simp [defvar_iff.2 hs]

theorem take_succ_foldl {defs : Nat → List Nat} {ns : List Nd} {k : Nat} {n : Nd} (h : ns[k]? = some n) (X : Finset Nat) :
    (ns.take (k + 1)).foldl (stepset defs) X = stepset defs ((ns.take k).foldl (stepset defs) X) n := by
  rw [List.take_add_one, h]; simp

theorem flows_node {P : List Stmt} {g : G} (c : Cfg P g) {u d b k : Nat} (h : Flows g u d b k) : ∃ b s, g.live b = true ∧ (u, s) ∈ nodesOf P b := by
  induction h with
  | gen hl hn => exact ⟨_, _, hl, by rw [cfg_nodes c] at hn; exact List.mem_of_getElem? hn⟩
  | pass _ _ _ ih => exact ih
  | edge _ _ ih => exact ih

/-- Everything in the sets flows there. -/
theorem closed_flows {P : List Stmt} {g : G} (c : Cfg P g) : Closed g
    (fun i v => ∀ d s, P[v]? = some s → s.sets d → Flows g v d i 0)
    (fun i v => ∀ d s, P[v]? = some s → s.sets d → Flows g v d i (g.nodes i).length) := by
  constructor
  · intro i j u hl hj h d s h1 h2
    exact Flows.edge (h d s h1 h2) ((pred_iff c hl).1 hj).2
  · intro i X hl hX u hu d s h1 h2
    have key : ∀ k, k ≤ (g.nodes i).length → u ∈ ((g.nodes i).take k).foldl (stepset (collectdefs g)) X → Flows g u d i k := by
      intro k
      induction k with
      | zero => intro _ h; exact hX u (by simpa using h) d s h1 h2
      | succ k ih =>
        intro hk h
        have hn : (g.nodes i)[k]? = some (g.nodes i)[k] := List.getElem?_eq_getElem (by omega)
        rw [take_succ_foldl hn] at h
        have ih := ih (by omega)
        generalize (g.nodes i)[k] = n at hn h
        unfold stepset at h
        split at h
        · rename_i ha
          refine Flows.pass (ih h) hn fun hs => ?_
          obtain ⟨t, ht⟩ := sets_iff.1 hs
          rw [ha] at ht; cases ht
        · rename_i a ha
          simp only [Finset.mem_insert, Finset.mem_sdiff, List.mem_toFinset] at h
          rcases h with h | ⟨h, hd⟩
          · obtain ⟨m, st⟩ := n
            simp only at h; subst h
            exact Flows.gen hl hn
          · refine Flows.pass (ih h) hn fun hs => ?_
            obtain ⟨t, ht⟩ := sets_iff.1 hs
            rw [ha] at ht; cases ht
            obtain ⟨b', s', hb', hm⟩ := flows_node c (ih h)
            have := node_stmt hm h1
            subst this
            exact hd ((mem_collect c).2 ⟨b', s', hb', hm, h2⟩)
    refine key _ (Nat.le_refl _) ?_
    rw [List.take_of_length_le (Nat.le_refl _)]; exact hu

theorem succ_sets {P : List Stmt} {g : G} (c : Cfg P g) {d u : Nat} (hd : d ≠ 0) {s : Stmt} (hs : P[u]? = some s) (h : s.sets d)
    {n : Nd} {X : Finset Nat} (hn : ¬ n.2.sets d) (hu : u ∈ X) : u ∈ stepset (collectdefs g) X n := by
  unfold stepset
  split
  · exact hu
  · rename_i a ha
    simp only [Finset.mem_insert, Finset.mem_sdiff, List.mem_toFinset]
    refine Or.inr ⟨hu, fun hm => hn ?_⟩
    obtain ⟨b, s', _, hm, hs'⟩ := (mem_collect c).1 hm
    have := node_stmt hm hs
    subst this
    have := sets_unique h hs'
    cases a with
    | var e t => simp only [Ex.did] at this; subst this; exact sets_iff.2 ⟨t, ha⟩
    | _ => simp only [Ex.did] at this; exact absurd this hd

theorem flows_live {P : List Stmt} {g : G} (c : Cfg P g) {u d b k : Nat} (h : Flows g u d b k) : g.live b = true := by
  induction h with
  | gen hl _ => exact hl
  | pass _ _ _ ih => exact ih
  | edge _ hc ih => exact succ_live c ih hc

/-- Everything which flows somewhere is in the sets. -/
theorem flows_mem {P : List Stmt} {g : G} (c : Cfg P g) {r : IO} (hr : ∀ i, i < g.n → g.live i = true → r i = reachval g r i)
    {u d : Nat} {s : Stmt} (hd : d ≠ 0) (hs : P[u]? = some s) (h : s.sets d) {b k : Nat} (hf : Flows g u d b k) :
    u ∈ ((g.nodes b).take k).foldl (stepset (collectdefs g)) (r b).1 := by
  induction hf with
  | @gen b k s' hl hn =>
    rw [take_succ_foldl hn]
    unfold stepset
    have hm := List.mem_of_getElem? hn
    rw [cfg_nodes c] at hm
    have := node_stmt hm hs
    subst this
    obtain ⟨t, ht⟩ := sets_iff.1 h
    simp only [ht]
    exact Finset.mem_insert_self _ _
  | pass _ hn hns ih =>
    rw [take_succ_foldl hn]
    exact succ_sets c hd hs h hns ih
  | @edge b k hf hk ih =>
    have hl := flows_live c hf
    have hlk := succ_live c hl hk
    simp only [List.take_zero, List.foldl_nil]
    rw [hr k (cfg_lt c hlk) hlk, reachval_eq]
    refine mem_unions.2 ⟨b, (pred_iff c hlk).2 ⟨hl, hk⟩, ?_⟩
    rw [hr b (cfg_lt c hl) hl, reachval_eq]
    rw [List.take_of_length_le (Nat.le_refl _), hr b (cfg_lt c hl) hl, reachval_eq] at ih
    exact ih

/-! ## The check for undefined variables -/

/-- Ids grow within a block. -/
theorem ids_sorted (P : List Stmt) (b : Nat) : (nodesOf P b).Pairwise fun m n => m.1 < n.1 := by
  have key : ∀ i, i ≤ P.length → (∀ blk ∈ (St P i).bbs, blk.Pairwise fun m n : Nd => m.1 < n.1) ∧ ∀ n ∈ (St P i).cur, n.1 < i := by
    intro i
    induction i with
    | zero =>
      intro _
      refine ⟨?_, by simp [St, B.init]⟩
      intro blk hb
      simp [St, B.init, B.bbs] at hb
      subst hb; exact List.Pairwise.nil
    | succ i ih =>
      intro hi
      obtain ⟨ih1, ih2⟩ := ih (by omega)
      have hg : P[i]? = some P[i] := List.getElem?_eq_getElem (by omega)
      have hold : ∀ blk ∈ (St P i).done, blk.Pairwise fun m n : Nd => m.1 < n.1 := fun blk hb => ih1 blk (List.mem_append_left _ hb)
      have hcur := ih1 (St P i).cur (by simp [B.bbs])
      have ext : ∀ n : Nd, i ≤ n.1 → ((St P i).cur ++ [n]).Pairwise fun m n : Nd => m.1 < n.1 := by
        intro n hn
        refine List.pairwise_append.2 ⟨hcur, List.pairwise_singleton _ _, ?_⟩
        intro m hm k hk
        rw [List.mem_singleton.1 hk]
        exact Nat.lt_of_lt_of_le (ih2 m hm) hn
      have h1 := St_succ hg
      by_cases hl : ∃ l, P[i] = .label l
      · obtain ⟨l, hl⟩ := hl
        rw [hl] at h1
        rcases hf : (St P i).falls with _ | _
        · rw [step_nofall hf ((ok_St P i).jmp hf)] at h1
          rw [h1]
          refine ⟨?_, by simp⟩
          intro blk hb
          simp only [B.bbs, List.mem_append, List.mem_singleton] at hb
          rcases hb with hb | rfl
          · exact hold blk hb
          · exact List.Pairwise.nil
        · rw [step_fall hf] at h1
          rw [h1]
          refine ⟨?_, by simp⟩
          intro blk hb
          simp only [B.bbs, List.mem_append, List.mem_singleton] at hb
          rcases hb with (hb | rfl) | rfl
          · exact hold blk hb
          · exact ext _ (by simp only; omega)
          · exact List.Pairwise.nil
      · rcases he : P[i].ends with _ | _
        · rw [step_plain (fun l h => hl ⟨l, h⟩) he] at h1
          rw [h1]
          refine ⟨?_, ?_⟩
          · intro blk hb
            simp only [B.bbs, List.mem_append, List.mem_singleton] at hb
            rcases hb with hb | rfl
            · exact hold blk hb
            · exact ext _ (Nat.le_refl _)
          · intro n hn
            rcases List.mem_append.1 hn with hn | hn
            · have := ih2 n hn; omega
            · rw [List.mem_singleton.1 hn]; exact Nat.lt_succ_self i
        · rw [step_ends he] at h1
          rw [h1]
          refine ⟨?_, by simp⟩
          intro blk hb
          simp only [B.bbs, List.mem_append, List.mem_singleton] at hb
          rcases hb with (hb | rfl) | rfl
          · exact hold blk hb
          · exact ext _ (Nat.le_refl _)
          · exact List.Pairwise.nil
  unfold nodesOf
  rcases hb : (blocks P).bbs[b]? with _ | blk
  · exact List.Pairwise.nil
  · refine (key P.length (Nat.le_refl _)).1 blk ?_
    rw [St_end]; exact List.mem_of_getElem? hb

theorem flows_inv {g : G} {u d b k : Nat} (h : Flows g u d b k) :
    (Flows g u d b 0 ∧ ∀ j n, j < k → (g.nodes b)[j]? = some n → ¬ n.2.sets d) ∨
    ∃ j s, j < k ∧ (g.nodes b)[j]? = some (u, s) ∧ ∀ j' n, j < j' → j' < k → (g.nodes b)[j']? = some n → ¬ n.2.sets d := by
  induction h with
  | @gen b k s hl hn => exact Or.inr ⟨k, s, by omega, hn, fun j' n h1 h2 => by omega⟩
  | @pass b k n hf hn hs ih =>
    rcases ih with ⟨h1, h2⟩ | ⟨j, s, h1, h2, h3⟩
    · refine Or.inl ⟨h1, ?_⟩
      intro j m hj hm
      rcases Nat.lt_succ_iff_lt_or_eq.1 hj with hj | rfl
      · exact h2 j m hj hm
      · rw [hn] at hm; cases hm; exact hs
    · refine Or.inr ⟨j, s, by omega, h2, ?_⟩
      intro j' m hj1 hj2 hm
      rcases Nat.lt_succ_iff_lt_or_eq.1 hj2 with hj | rfl
      · exact h3 j' m hj1 hj hm
      · rw [hn] at hm; cases hm; exact hs
  | edge hf hc ih => exact Or.inl ⟨Flows.edge hf hc, fun j n h => by omega⟩

/-- The declaration still reaches statement `m` in the graph. -/
theorem without_flows {P : List Stmt} {g : G} (c : Cfg P g) (q : Unique P) {u d m : Nat} (hr : Runs P 0 u) (hu : P[u]? = some (.undef d))
    (hw : Without P d (u + 1) m) : ∃ v, P[v]? = some (.undef d) ∧ Flows g v d (pos P m).1 (pos P m).2 := by
  generalize hz : u + 1 = z at hw
  induction hw with
  | refl =>
    subst hz
    obtain ⟨h1, h2⟩ := at_plain hu (by simp) rfl
    rw [h2]
    exact ⟨u, hu, Flows.gen (runs_live c q hr) (by rw [cfg_nodes c]; exact h1)⟩
  | @tail i j s hw hs ha st ih =>
    obtain ⟨v, hv, hf⟩ := ih
    obtain ⟨s', hs', mv⟩ := move_of c q st
    rw [hs] at hs'; cases hs'
    have hl := flows_live c hf
    generalize pos P i = p at mv hf hl
    generalize pos P j = p' at mv
    cases mv with
    | stay => exact ⟨v, hv, hf⟩
    | next he hn =>
      by_cases hd : s = .undef d
      · subst hd
        exact ⟨i, hs, Flows.gen hl (by rw [cfg_nodes c]; exact hn)⟩
      · exact ⟨v, hv, Flows.pass hf (by rw [cfg_nodes c]; exact hn) fun h => h.elim ha hd⟩
    | edge h1 h2 h3 h4 hx =>
      refine ⟨v, hv, Flows.edge (b := _) ?_ (hx hl)⟩
      rw [cfg_nodes c, h2]
      refine Flows.pass hf (by rw [cfg_nodes c]; exact h1) ?_
      intro hs
      rw [sets_iff] at hs
      obtain ⟨t, ht⟩ := hs
      generalize (_ : Nd).2 = st at h3 ht
      cases st <;> simp_all [Stmt.isjmp, assignee]

/-- A statement which is not `Oundef`. -/
def Stmt.isundef : Stmt → Bool
  | .undef _ => true
  | _ => false

theorem checkblk_cons {g : G} {n : Nd} {t : List Nd} {R K : Finset Nat} (h : n.2.isundef = false) : checkblk g (n :: t) R K =
    ((slooks n.2).any (varbad g R (match assignee n.2 with | none => K | some m => K ∪ (collectdefs g m.did).toFinset)) ||
      checkblk g t R (match assignee n.2 with | none => K | some m => K ∪ (collectdefs g m.did).toFinset)) := by
  obtain ⟨i, s⟩ := n
  cases s <;> first | rfl | (simp [Stmt.isundef] at h)

theorem checkblk_hit {g : G} {u d : Nat} {n : Nd} (hc : u ∈ collectdefs g d) (hi : isundef g u = true) (hn : n.2.isundef = false)
    (hl : d ∈ slooks n.2) : ∀ (ns : List Nd) (k : Nat) (R K : Finset Nat), ns[k]? = some n → u ∉ K →
    (∀ j m, j ≤ k → ns[j]? = some m → m.2.isundef = true ∨ ∀ a, assignee m.2 = some a → u ∉ collectdefs g a.did) →
    (u ∈ R ∨ ∃ j m, j < k ∧ ns[j]? = some m ∧ m.1 = u ∧ m.2.isundef = true) → checkblk g ns R K = true := by
  intro ns
  induction ns with
  | nil => intro k R K h; cases h
  | cons m ns ih =>
    intro k R K hk hK hno hre
    rcases hm : m.2.isundef with _ | _
    · rw [checkblk_cons hm]
      have hK' : u ∉ (match assignee m.2 with | none => K | some a => K ∪ (collectdefs g a.did).toFinset) := by
        split
        · exact hK
        · rename_i a ha
          rcases hno 0 m (by omega) rfl with h | h
          · rw [hm] at h; cases h
          · simp only [Finset.mem_union, List.mem_toFinset, not_or]
            exact ⟨hK, h a ha⟩
      rcases k with _ | k
      · cases hk
        rcases hre with hre | ⟨j, _, hj, _⟩
        · rw [Bool.or_eq_true]
          left
          rw [List.any_eq_true]
          refine ⟨d, hl, ?_⟩
          unfold varbad
          rw [List.any_eq_true]
          refine ⟨u, hc, ?_⟩
          simp only [Bool.and_eq_true, Bool.not_eq_true', decide_eq_false_iff_not, decide_eq_true_eq]
          exact ⟨⟨hK', hre⟩, hi⟩
        · omega
      · rw [Bool.or_eq_true]
        right
        refine ih k R _ (by simpa using hk) hK' (fun j m' hj h => hno (j + 1) m' (by omega) (by simpa using h)) ?_
        rcases hre with hre | ⟨j, m', hj, h1, h2, h3⟩
        · exact Or.inl hre
        · rcases j with _ | j
          · simp only [List.getElem?_cons_zero, Option.some.injEq] at h1
            subst h1; rw [hm] at h3; cases h3
          · exact Or.inr ⟨j, m', by omega, by simpa using h1, h2, h3⟩
    · obtain ⟨i, s⟩ := m
      cases s with
      | undef e =>
        rcases k with _ | k
        · cases hk; rw [hm] at hn; cases hn
        · have : checkblk g ((i, .undef e) :: ns) R K = checkblk g ns (insert i R) K := rfl
          rw [this]
          refine ih k _ K (by simpa using hk) hK (fun j m' hj h => hno (j + 1) m' (by omega) (by simpa using h)) ?_
          rcases hre with hre | ⟨j, m', hj, h1, h2, h3⟩
          · exact Or.inl (Finset.mem_insert_of_mem hre)
          · rcases j with _ | j
            · simp only [List.getElem?_cons_zero, Option.some.injEq] at h1
              subst h1; simp only at h2; subst h2
              exact Or.inl (Finset.mem_insert_self _ _)
            · exact Or.inr ⟨j, m', by omega, by simpa using h1, h2, h3⟩
      | _ => simp [Stmt.isundef] at hm

theorem slooks_nolabel {s : Stmt} {d : Nat} (h : d ∈ slooks s) : (∀ l, s ≠ .label l) ∧ s.isundef = false := by
  cases s <;> simp_all [slooks, Stmt.isundef]

theorem at_any {P : List Stmt} {i : Nat} {s : Stmt} (h : P[i]? = some s) (hl : ∀ l, s ≠ .label l) :
    (nodesOf P (pos P i).1)[(pos P i).2]? = some (i, s) := by
  rcases he : s.ends with _ | _
  · exact (at_plain h hl he).1
  · exact (at_ends h he).1

/-- The heart of C41. -/
theorem undef_found {P : List Stmt} {g : G} (c : Cfg P g) (q : Unique P) {d m : Nat} {s : Stmt} (hd : d ≠ 0)
    (hfirst : ∀ (i j : Nat) (t : Stmt), P[j]? = some (Stmt.undef d) → i < j → P[i]? = some t → ¬ t.assigns d)
    (hm : P[m]? = some s) (hl : d ∈ slooks s) (ha : ¬ s.assigns d) (hu : Undefined P d m)
    {fuel : Nat} {r : IO} (hr : reaching fuel g = .ok r) :
    (((List.range g.n).filter g.live).any fun i => checkblk g (g.nodes i) (r i).1 ∅) = true := by
  obtain ⟨u, h1, h2, h3⟩ := hu
  obtain ⟨v, hv, hf⟩ := without_flows c q h1 h2 h3
  have hfix := (reachloop_sound (closed_ids fun b hb => cfg_lt c hb) fuel _ _ (inv_empty _ _ _) hr).2
  have hlive := flows_live c hf
  rw [List.any_eq_true]
  refine ⟨(pos P m).1, List.mem_filter.2 ⟨List.mem_range.2 (cfg_lt c hlive), hlive⟩, ?_⟩
  obtain ⟨hnl, hnu⟩ := slooks_nolabel hl
  have hat := at_any hm hnl
  obtain ⟨bv, sv, hbv, hmv⟩ := flows_node c hf
  have := node_stmt hmv hv
  subst this
  have hcol : v ∈ collectdefs g d := (mem_collect c).2 ⟨bv, _, hbv, hmv, Or.inr rfl⟩
  have hisu : isundef g v = true := by
    unfold isundef
    rw [List.any_eq_true]
    refine ⟨(v, .undef d), mem_all.2 ⟨bv, cfg_lt c hbv, hbv, by rw [cfg_nodes c]; exact hmv⟩, by simp⟩
  -- a node which does not assign `d` does not kill the declaration
  have nokill : ∀ n : Nd, ¬ n.2.assigns d → n.2.isundef = true ∨ ∀ a, assignee n.2 = some a → v ∉ collectdefs g a.did := by
    intro n hn
    rcases hnu : n.2.isundef with _ | _
    · right
      intro a ha hmem
      obtain ⟨b', s', _, hm', hs'⟩ := (mem_collect c).1 hmem
      have := node_stmt hm' hv
      subst this
      have hdd := sets_unique (d := d) (Or.inr rfl) hs'
      cases a with
      | var e t =>
        simp only [Ex.did] at hdd; subst hdd
        rcases sets_iff.2 ⟨t, ha⟩ with h | h
        · exact hn h
        · rw [h] at hnu; cases hnu
      | _ => simp only [Ex.did] at hdd; exact absurd hdd hd
    · exact Or.inl rfl
  rw [← cfg_nodes c] at hat
  refine checkblk_hit hcol hisu hnu hl _ _ _ _ hat (by simp) ?_ ?_
  · intro j n hj hn
    rcases Nat.lt_or_eq_of_le hj with hj | rfl
    · refine nokill n ?_
      rcases flows_inv hf with ⟨_, h⟩ | ⟨j0, s0, hj0, hn0, h⟩
      · exact fun h' => h j n hj hn (Or.inl h')
      · rcases Nat.lt_trichotomy j j0 with hlt | rfl | hgt
        · -- before the declaration
          rw [cfg_nodes c] at hn hn0
          have hso := List.pairwise_iff_getElem.1 (ids_sorted P (pos P m).1)
          obtain ⟨hb1, e1⟩ := List.getElem?_eq_some_iff.1 hn
          obtain ⟨hb0, e0⟩ := List.getElem?_eq_some_iff.1 hn0
          have hlt' := hso j j0 hb1 hb0 hlt
          rw [e1, e0] at hlt'
          rcases node_of (List.mem_of_getElem? hn) with hp | ⟨_, l, hp, _⟩
          · exact hfirst _ _ _ hv hlt' hp
          · rw [hp]; simp [Stmt.assigns]
        · rw [hn0] at hn; cases hn
          have hm0 := List.mem_of_getElem? hn0
          rw [cfg_nodes c] at hm0
          have := node_stmt hm0 hv
          subst this
          simp [Stmt.assigns]
        · exact fun h' => h j n hgt hj hn (Or.inl h')
    · rw [hat] at hn; cases hn
      exact nokill _ ha
  · rcases flows_inv hf with ⟨h, _⟩ | ⟨j0, s0, hj0, hn0, _⟩
    · left
      have := flows_mem c hfix hd hv (Or.inr rfl) h
      simpa using this
    · right
      have hm0 := List.mem_of_getElem? hn0
      rw [cfg_nodes c] at hm0
      have := node_stmt hm0 hv
      subst this
      exact ⟨j0, _, hj0, hn0, rfl, rfl⟩

/-- What is reported has a reason: a declaration without value reaches the use along a path of the graph. -/
theorem checkblk_why {P : List Stmt} {g : G} (c : Cfg P g) {b : Nat} (hb : g.live b = true) {R K : Finset Nat} :
    ∀ (ns : List Nd) (k : Nat), (g.nodes b).drop k = ns →
    (∀ v d, v ∈ R → v ∉ K → P[v]? = some (.undef d) → v ∈ collectdefs g d ∧ ∃ w, P[w]? = some (.undef d) ∧ Flows g w d b k) →
    checkblk g ns R K = true → ∃ j n d w, (g.nodes b)[j]? = some n ∧ d ∈ slooks n.2 ∧ P[w]? = some (.undef d) ∧ Flows g w d b j := by
  intro ns
  induction ns generalizing R K with
  | nil => intro k _ _ h; cases h
  | cons m ns ih =>
    intro k hk hinv h
    have hm : (g.nodes b)[k]? = some m := by
      have := congrArg (fun l => l[0]?) hk
      simpa [List.getElem?_drop] using this
    have hk' : (g.nodes b).drop (k + 1) = ns := by
      rw [← List.tail_drop, hk]; rfl
    rcases hmu : m.2.isundef with _ | _
    · rw [checkblk_cons hmu] at h
      generalize hK' : (match assignee m.2 with | none => K | some a => K ∪ (collectdefs g a.did).toFinset) = K' at h
      have hsub : ∀ v, v ∉ K' → v ∉ K := by
        intro v hv hvk
        subst hK'
        apply hv
        split
        · exact hvk
        · exact Finset.mem_union_left _ hvk
      rw [Bool.or_eq_true] at h
      rcases h with h | h
      · rw [List.any_eq_true] at h
        obtain ⟨d, hd, h⟩ := h
        unfold varbad at h
        rw [List.any_eq_true] at h
        obtain ⟨v, hv, h⟩ := h
        simp only [Bool.and_eq_true, Bool.not_eq_true', decide_eq_false_iff_not, decide_eq_true_eq] at h
        obtain ⟨⟨h1, h2⟩, h3⟩ := h
        obtain ⟨b', s', _, hm', hs'⟩ := (mem_collect c).1 hv
        unfold isundef at h3
        rw [List.any_eq_true] at h3
        obtain ⟨⟨v', s''⟩, hall, h3⟩ := h3
        simp only [Bool.and_eq_true, beq_iff_eq] at h3
        obtain ⟨rfl, h3⟩ := h3
        obtain ⟨b'', _, _, hm''⟩ := mem_all.1 hall
        rw [cfg_nodes c] at hm''
        cases s'' with
        | undef e =>
          have hP : P[v']? = some (.undef e) := by
            rcases node_of hm'' with h | ⟨_, l, h, _⟩
            · exact h
            · cases h
          have := node_stmt hm' hP
          subst this
          rcases hs' with hs' | hs'
          · simp [Stmt.assigns] at hs'
          · cases hs'
            obtain ⟨_, w, hw, hf⟩ := hinv v' d h2 (hsub _ h1) hP
            exact ⟨k, m, d, w, hm, hd, hw, hf⟩
        | _ => simp at h3
      · refine ih (k + 1) hk' ?_ h
        intro v d hv hvk hvP
        obtain ⟨hcol, w, hw, hf⟩ := hinv v d hv (hsub v hvk) hvP
        refine ⟨hcol, w, hw, Flows.pass hf hm fun hs => ?_⟩
        obtain ⟨t, ht⟩ := sets_iff.1 hs
        apply hvk
        subst hK'
        simp only [ht, Ex.did]
        exact Finset.mem_union_right _ (List.mem_toFinset.2 hcol)
    · obtain ⟨i, st⟩ := m
      cases st with
      | undef e =>
        have h' : checkblk g ns (insert i R) K = true := h
        have hin : (i, Stmt.undef e) ∈ nodesOf P b := by rw [← cfg_nodes c]; exact List.mem_of_getElem? hm
        refine ih (k + 1) hk' ?_ h'
        intro v d hv hvk hvP
        by_cases hde : e = d
        · subst hde
          have hP : P[i]? = some (.undef e) := by
            rcases node_of hin with h | ⟨_, l, h, _⟩
            · exact h
            · cases h
          refine ⟨?_, i, hP, Flows.gen hb hm⟩
          rcases Finset.mem_insert.1 hv with rfl | hv
          · exact (mem_collect c).2 ⟨b, _, hb, hin, Or.inr rfl⟩
          · exact (hinv v e hv hvk hvP).1
        · rcases Finset.mem_insert.1 hv with rfl | hv
          · have := node_stmt hin hvP
            cases this; exact absurd rfl hde
          · obtain ⟨hcol, w, hw, hf⟩ := hinv v d hv hvk hvP
            refine ⟨hcol, w, hw, Flows.pass hf hm fun hs => ?_⟩
            rcases hs with hs | hs
            · simp [Stmt.assigns] at hs
            · cases hs; exact hde rfl
      | _ => simp [Stmt.isundef] at hmu

end Verif.Flow
