import Verif.Ra.Colour

/-!
# Coalescing, freezing and spilling keep the invariant
-/

namespace Verif.Ra

open Verif

/-- No pairs and no moves are left out. -/
abbrev NoP : Nat → Nat → Prop := fun _ _ => False
/-- No moves are left out. -/
abbrev NoE : Nat → Prop := fun _ => False

/-! ## Frames -/

/-- The parts `decdegree` leaves alone. -/
def Same (s s' : S) : Prop := s'.gb = s.gb ∧ s'.gadj = s.gadj ∧ s'.al = s.al ∧ s'.stk = s.stk ∧ s'.rmoves = s.rmoves

theorem Same.rfl' (s : S) : Same s s := ⟨rfl, rfl, rfl, rfl, rfl⟩

theorem Same.trans {a b c : S} (h : Same a b) (h' : Same b c) : Same a c :=
  ⟨h'.1.trans h.1, h'.2.1.trans h.2.1, h'.2.2.1.trans h.2.2.1, h'.2.2.2.1.trans h.2.2.2.1, h'.2.2.2.2.trans h.2.2.2.2⟩

theorem enable1_same (s : S) (m : Nat) : Same s (enable1 s m) := by unfold enable1; split <;> exact ⟨rfl, rfl, rfl, rfl, rfl⟩

theorem enables_same (l : List Nat) (s : S) : Same s (l.foldl enable1 s) := by
  induction l generalizing s with
  | nil => exact Same.rfl' s
  | cons m l ih => exact (enable1_same s m).trans (ih _)

theorem enableadjs_same (l : List Nat) (s : S) : Same s (l.foldl enableadj s) := by
  induction l generalizing s with
  | nil => exact Same.rfl' s
  | cons m l ih =>
    refine Same.trans ?_ (ih _)
    unfold enableadj
    split
    · exact enables_same _ _
    · exact Same.rfl' s

theorem relist_same {s s' : S} {m : Nat} (h : relist s m = .ok s') : Same s s' := by
  unfold relist at h
  split at h
  · cases h; split <;> exact ⟨rfl, rfl, rfl, rfl, rfl⟩
  · split at h
    · split at h
      · cases h; exact Same.rfl' s
      · cases h
    · split at h
      · cases h; exact Same.rfl' s
      · cases h

theorem decdegree_same {e : Env} {s s' : S} {m : Nat} (h : decdegree e s m = .ok s') : Same s s' := by
  unfold decdegree at h
  simp only at h
  split at h
  · cases h; exact ⟨rfl, rfl, rfl, rfl, rfl⟩
  · have h1 : Same s { s with degree := upd s.degree m (s.degree m - 1) } := ⟨rfl, rfl, rfl, rfl, rfl⟩
    exact h1.trans ((enables_same _ _).trans ((enableadjs_same _ _).trans (relist_same h)))

/-! ## Combining -/

/-- The pairs `combine` has still to join: `u` with the registers `ts` which are not in `K`. -/
def Pd (u : Nat) (K ts : List Nat) (x y : Nat) : Prop := (x = u ∧ y ∈ ts ∧ y ∉ K) ∨ (y = u ∧ x ∈ ts ∧ x ∉ K)

theorem Ord.gmono {gb gb' : Nat → Nat → Bool} {al : Nat → Option Nat} {si stk : List Nat} {x y : Nat}
    (h : ∀ a b, gb a b = true → gb' a b = true) (o : Ord gb al si stk x y) : Ord gb' al si stk x y := by
  obtain ⟨h1, h2, ⟨n, h3, h4⟩, h5⟩ := o
  exact ⟨h1, h2, ⟨n, h _ _ h3, h4⟩, h5⟩

section
variable {e : Env} {seen : List Nat} {Ex : Nat → Prop} {s : S}

theorem Inv.weaken {P P' : Nat → Nat → Prop} {Ex' : Nat → Prop} (h : Inv e seen P Ex s) (hP : ∀ x y, P x y → P' x y) (hE : ∀ m, Ex m → Ex' m) :
    Inv e seen P' Ex' s := by
  refine ⟨h.gr, ?_, h.alr, h.ls, fun m hm hx => h.mv m hm fun hx' => hx (hE m hx'), h.nd, ?_, h.all⟩
  · intro a p h0 h1 h2
    obtain ⟨q, h3, h4, h5⟩ := h.cov a p h0 h1 h2
    exact ⟨q, h3, h4, h5.imp id (hP _ _)⟩
  · intro a b x y h1 h2 h3
    obtain ⟨h4, h5⟩ := h.ed a b x y h1 h2 h3
    exact ⟨h4, h5.imp id fun h => h.imp id fun h => h.imp id fun h => h.imp id (hP _ _)⟩

/-- What is known of a neighbour `t` of the register merged into `u`. -/
def Nb (e : Env) (u t : Nat) : Prop := e.cls t = e.cls u ∧ fixed t = false ∧ t ≠ u ∧ (t < Nreg → u < Nreg → ¬ Overlap t u)

theorem usable_self {p : Nat} (h : Usable p) : Overlap p p := (usable_overlap p p h h).2 rfl

/-- The machine registers among the neighbours are covered. -/
def Cv (gb : Nat → Nat → Bool) (u : Nat) (ts : List Nat) : Prop :=
  ∀ t, t ∈ ts → t < Nreg → Nreg ≤ u → ∃ q, Usable q ∧ Overlap t q ∧ (q ∈ ts ∨ gb u q = true)

theorem join_new (h : Gr e s.gb s.gadj) {u t : Nat} (hf : fixed u = false) (ht : Nb e u t) (hp : ¬ (t < Nreg ∧ u < Nreg)) :
    (addedge e s t u).gb t u = true ∧ (addedge e s t u).gb u t = true := by
  have : Adds e t u := ⟨ht.2.2.1, ht.2.1, hf, ht.1, hp⟩
  exact ⟨(addedge_gb h t u t u).2 (.inr ⟨this, .inl ⟨rfl, rfl⟩⟩), (addedge_gb h t u u t).2 (.inr ⟨this, .inr ⟨rfl, rfl⟩⟩)⟩

theorem Inv.join1 {u t : Nat} {ts : List Nat} (h : Inv e seen (Pd u s.stk (t :: ts)) Ex s) (hu : s.al u = none) (hf : fixed u = false)
    (hU : u < Nreg → Usable u) (ht : Nb e u t) (hC : Cv s.gb u (t :: ts)) (ha : adjavail s t = true) :
    Inv e seen (Pd u s.stk ts) Ex (addedge e s t u) ∧ Cv (addedge e s t u).gb u ts := by
  obtain ⟨f1, f2, f3, f4, f5, f6, f7, f8, f9⟩ := addedge_frame e s t u
  have hg : ∀ a b, s.gb a b = true → (addedge e s t u).gb a b = true := fun a b hab => (addedge_gb h.gr t u a b).2 (.inl hab)
  simp only [adjavail, Bool.and_eq_true, bne_iff_ne, ne_eq, Option.isNone_iff_eq_none] at ha
  have hnew := join_new h.gr hf ht
  have pk : ∀ q, Usable q → q ∉ s.stk := by
    intro q hq hs
    have h1 := h.ls.np q (by rw [(h.ls.hstk q).1 hs]; simp)
    have := (usable_row q hq).1
    omega
  have hC' : Cv (addedge e s t u).gb u ts := by
    intro t' h1 h2 h3
    obtain ⟨q, h4, h5, h6⟩ := hC t' (List.mem_cons_of_mem _ h1) h2 h3
    refine ⟨q, h4, h5, ?_⟩
    rcases h6 with h6 | h6
    · rcases List.mem_cons.1 h6 with h6 | h6
      · subst h6; exact .inr (hnew (by omega)).2
      · exact .inl h6
    · exact .inr (hg _ _ h6)
  refine ⟨⟨addedge_gr h.gr t u, ?_, ?_, ?_, ?_, ?_, ?_, ?_⟩, hC'⟩
  · rw [f1]
    intro a p h0 h1 h2
    have h1' := h1
    rw [addedge_gb h.gr] at h1
    rcases h1 with h1 | ⟨h1, ⟨h3, h4⟩ | ⟨h3, h4⟩⟩
    · obtain ⟨q, h3, h4, h5⟩ := h.cov a p h0 h1 h2
      refine ⟨q, h3, h4, ?_⟩
      rcases h5 with h5 | ⟨h5, h6, h7⟩ | ⟨h5, h6, h7⟩
      · exact .inl (hg _ _ h5)
      · subst h5
        rcases List.mem_cons.1 h6 with h6 | h6
        · subst h6
          exact .inl (hnew fun hh => (addedge_gr h.gr q a).np _ _ h1' ⟨hh.2, h2⟩).2
        · exact .inr (.inl ⟨rfl, h6, h7⟩)
      · subst h5
        rcases List.mem_cons.1 h6 with h6 | h6
        · subst h6
          exact .inl (hnew fun hh => (addedge_gr h.gr a q).np _ _ h1' ⟨hh.1, h2⟩).1
        · exact .inr (.inr ⟨rfl, h6, h7⟩)
    · subst h3 h4
      exact ⟨p, hU h2, usable_self (hU h2), .inl h1'⟩
    · subst h3 h4
      obtain ⟨q, h4, h5, h6⟩ := hC p (by simp) h2 (by have := h1.2.2.2.2; omega)
      refine ⟨q, h4, h5, ?_⟩
      rcases h6 with h6 | h6
      · rcases List.mem_cons.1 h6 with h6 | h6
        · subst h6; exact .inl h1'
        · exact .inr (.inl ⟨rfl, h6, pk q h4⟩)
      · exact .inl (hg _ _ h6)
  · rw [f1]; exact h.alr
  · rw [f1, f2, f3, f4, f5, f6]; exact h.ls
  · rw [f1, f2, f7, f8, f9]; exact h.mv
  · rw [f7, f8]; exact h.nd
  · rw [f1, f3, f6]
    intro a b x y h1 h2 h3
    rw [addedge_gb h.gr] at h1
    rcases h1 with h1 | ⟨h1, ⟨h4, h5⟩ | ⟨h4, h5⟩⟩
    · obtain ⟨h4, h5⟩ := h.ed a b x y h1 h2 h3
      refine ⟨h4, ?_⟩
      rcases h5 with h5 | h5 | h5 | h5 | ⟨h5, h6, h7⟩ | ⟨h5, h6, h7⟩
      · exact .inl (hg _ _ h5)
      · exact .inr (.inl (h5.gmono hg))
      · exact .inr (.inr (.inl (h5.gmono hg)))
      · exact .inr (.inr (.inr (.inl h5)))
      · subst h5
        rcases List.mem_cons.1 h6 with h6 | h6
        · subst h6
          by_cases hp : y < Nreg ∧ x < Nreg
          · exact .inr (.inr (.inr (.inl ⟨hp.2, hp.1, fun ho => ht.2.2.2 hp.1 hp.2 ho.symm⟩)))
          · exact .inl (hnew hp).2
        · exact .inr (.inr (.inr (.inr (.inl ⟨rfl, h6, h7⟩))))
      · subst h5
        rcases List.mem_cons.1 h6 with h6 | h6
        · subst h6
          by_cases hp : x < Nreg ∧ y < Nreg
          · exact .inr (.inr (.inr (.inl ⟨hp.1, hp.2, ht.2.2.2 hp.1 hp.2⟩)))
          · exact .inl (hnew hp).1
        · exact .inr (.inr (.inr (.inr (.inr ⟨rfl, h6, h7⟩))))
    · subst h4 h5
      have := h2.of_none ha.2; subst this
      have := h3.of_none hu; subst this
      exact ⟨h1.1, .inl (hnew h1.2.2.2.2).1⟩
    · subst h4 h5
      have := h3.of_none ha.2; subst this
      have := h2.of_none hu; subst this
      exact ⟨h1.1.symm, .inl (hnew h1.2.2.2.2).2⟩
  · rw [f1, f2]; exact h.all

theorem Inv.skip1 {u t : Nat} {ts : List Nat} (h : Inv e seen (Pd u s.stk (t :: ts)) Ex s) (hC : Cv s.gb u (t :: ts))
    (ha : ¬ adjavail s t = true) : Inv e seen (Pd u s.stk ts) Ex s ∧ Cv s.gb u ts := by
  have hn : Nreg ≤ t := by
    simp only [adjavail, Bool.and_eq_true, bne_iff_ne, ne_eq, Option.isNone_iff_eq_none, not_and_or, not_not] at ha
    rcases ha with ha | ha
    · exact h.ls.np t (by rw [ha]; simp)
    · exact h.ls.np t (by rw [(h.ls.co t).1 ha]; simp)
  have hne : ∀ q, Usable q → q ≠ t := fun q hq hh => by have := (usable_row q hq).1; omega
  have hroot : ∀ a z, Root s.al a z → z ∉ s.stk → z ≠ t := by
    intro a z hz hk hh
    subst hh
    apply ha
    have h1 := hz.none
    simp only [adjavail, Bool.and_eq_true, bne_iff_ne, ne_eq, Option.isNone_iff_eq_none]
    exact ⟨fun h2 => hk ((h.ls.hstk _).2 h2), h1⟩
  refine ⟨⟨h.gr, ?_, h.alr, h.ls, h.mv, h.nd, ?_, h.all⟩, ?_⟩
  · intro a p h0 h1 h2
    obtain ⟨q, h3, h4, h5⟩ := h.cov a p h0 h1 h2
    refine ⟨q, h3, h4, ?_⟩
    rcases h5 with h5 | ⟨h5, h6, h7⟩ | ⟨h5, h6, h7⟩
    · exact .inl h5
    · exact .inr (.inl ⟨h5, (List.mem_cons.1 h6).resolve_left (hne q h3), h7⟩)
    · rcases List.mem_cons.1 h6 with h6 | h6
      · -- a = t is joined to a machine register, and would be joined to u = q
        subst h6
        exact absurd rfl (hroot a a (.here h0) h7)
      · exact .inr (.inr ⟨h5, h6, h7⟩)
  · intro a b x y h1 h2 h3
    obtain ⟨h4, h5⟩ := h.ed a b x y h1 h2 h3
    refine ⟨h4, ?_⟩
    rcases h5 with h5 | h5 | h5 | h5 | ⟨h5, h6, h7⟩ | ⟨h5, h6, h7⟩
    · exact .inl h5
    · exact .inr (.inl h5)
    · exact .inr (.inr (.inl h5))
    · exact .inr (.inr (.inr (.inl h5)))
    · exact .inr (.inr (.inr (.inr (.inl ⟨h5, (List.mem_cons.1 h6).resolve_left (hroot _ _ h3 h7), h7⟩))))
    · exact .inr (.inr (.inr (.inr (.inr ⟨h5, (List.mem_cons.1 h6).resolve_left (hroot _ _ h2 h7), h7⟩))))
  · intro t' h1 h2 h3
    obtain ⟨q, h4, h5, h6⟩ := hC t' (List.mem_cons_of_mem _ h1) h2 h3
    refine ⟨q, h4, h5, ?_⟩
    rcases h6 with h6 | h6
    · exact .inl ((List.mem_cons.1 h6).resolve_left (hne q h4))
    · exact .inr h6

theorem Inv.joinadj {u : Nat} {ts : List Nat} {s' : S} (h : Inv e seen (Pd u s.stk ts) Ex s) (hu : s.al u = none) (hf : fixed u = false)
    (hU : u < Nreg → Usable u) (ht : ∀ t, t ∈ ts → Nb e u t) (hC : Cv s.gb u ts) (hr : joinadj e u ts s = .ok s') :
    Inv e seen NoP Ex s' := by
  induction ts generalizing s with
  | nil =>
    cases hr
    exact h.weaken (by rintro x y (⟨_, h, _⟩ | ⟨_, h, _⟩) <;> cases h) (fun _ h => h)
  | cons t ts ih =>
    rw [Ra.joinadj] at hr
    split at hr
    · next ha =>
      obtain ⟨s1, h1, h2⟩ := Res.bind_eq_ok.1 hr
      obtain ⟨h3, h4⟩ := h.join1 hu hf hU (ht t (by simp)) hC ha
      obtain ⟨g1, g2, g3, g4, g5⟩ := decdegree_same h1
      obtain ⟨f1, f2, f3, f4, f5, f6, f7, f8, f9⟩ := addedge_frame e s t u
      have h5 := h3.decdegree h1
      refine ih (s := s1) ?_ ?_ ?_ ?_ h2
      · rw [g4, f6]; exact h5
      · rw [g3, f1]; exact hu
      · exact fun t h => ht t (List.mem_cons_of_mem _ h)
      · rw [g1]; exact h4
    · next ha =>
      obtain ⟨h3, h4⟩ := h.skip1 hC ha
      exact ih h3 hu (fun t h => ht t (List.mem_cons_of_mem _ h)) h4 hr

/-- When `u` and `v` may be merged. -/
structure Can (e : Env) (s : S) (u v : Nat) : Prop where
  ne : u ≠ v
  alu : s.al u = none
  alv : s.al v = none
  vv : Nreg ≤ v
  uu : u < Nreg → Usable u
  tv : s.tag v = .freeze ∨ s.tag v = .spill
  tu : u < Nreg ∨ s.tag u = .freeze ∨ s.tag u = .spill
  con : constrained s u v = false
  mode : e.mode v = e.mode u

theorem unlist_frame (s : S) (v : Nat) : (unlist s v).gb = s.gb ∧ (unlist s v).gadj = s.gadj ∧ (unlist s v).al = s.al ∧
    (unlist s v).wsimp = s.wsimp ∧ (unlist s v).stk = s.stk ∧ (unlist s v).wlmove = s.wlmove ∧ (unlist s v).mactive = s.mactive ∧
    (unlist s v).rmoves = s.rmoves ∧ (∀ x, x ≠ v → (unlist s v).tag x = s.tag x) := by
  unfold unlist
  split
  · exact ⟨rfl, rfl, rfl, rfl, rfl, rfl, rfl, rfl, fun x hx => by simp [delfreeze, upd, hx]⟩
  · split
    · exact ⟨rfl, rfl, rfl, rfl, rfl, rfl, rfl, rfl, fun x hx => by simp [delspill, upd, hx]⟩
    · exact ⟨rfl, rfl, rfl, rfl, rfl, rfl, rfl, rfl, fun _ _ => rfl⟩

theorem unlist_lists {s : S} {v : Nat} (h : Ls s.al s.tag s.wsimp s.wfreeze s.wspill s.stk) (hv : s.tag v = .freeze ∨ s.tag v = .spill) :
    (∀ x, x ∈ (unlist s v).wfreeze ↔ x ≠ v ∧ x ∈ s.wfreeze) ∧ (∀ x, x ∈ (unlist s v).wspill ↔ x ≠ v ∧ x ∈ s.wspill) ∧
    (unlist s v).wfreeze.Nodup ∧ (unlist s v).wspill.Nodup := by
  unfold unlist
  split
  · next hc =>
    have hc' : v ∈ s.wfreeze := by simpa using hc
    have ht := (h.hfr v).1 hc'
    refine ⟨fun x => mem_erase_nodup h.fnd v x, fun x => ?_, h.fnd.erase v, h.snd⟩
    constructor
    · intro hx
      refine ⟨fun he => ?_, hx⟩
      subst he
      have hx' : x ∈ s.wspill := hx
      rw [h.hsp, ht] at hx'; cases hx'
    · exact fun hx => hx.2
  · next hc =>
    have hc' : v ∉ s.wfreeze := by simpa using hc
    have ht : s.tag v = .spill := hv.resolve_left fun h1 => hc' ((h.hfr v).2 h1)
    have h2 := (h.hsp v).2 ht
    have h3 : s.wspill.contains v = true := by simpa using h2
    rw [if_pos h3]
    refine ⟨fun x => ?_, fun x => mem_erase_nodup h.snd v x, h.fnd, h.snd.erase v⟩
    constructor
    · intro hx
      exact ⟨fun he => hc' (he ▸ hx), hx⟩
    · exact fun hx => hx.2

theorem con_gb {s : S} {u v : Nat} (h : constrained s u v = false) (hu : u < Nreg → Usable u) :
    s.gb u v = false ∧ ∀ q, u < Nreg → Usable q → Overlap u q → s.gb q v = false := by
  unfold constrained at h
  simp only [Bool.or_eq_false_iff] at h
  refine ⟨h.2, fun q h1 h2 h3 => ?_⟩
  have h4 := h.1.2
  simp only [h1, decide_true, Bool.true_and, List.any_eq_false, List.mem_range] at h4
  obtain ⟨_, h5, _, i, h6, h7⟩ := usable_row q h2
  have h8 := (usable_overlap u q (hu h1) h2).1 h3
  have := h4 i h6
  rw [h8, h7] at this
  simpa [h5] using this

theorem Inv.setalias (h : Inv e seen NoP Ex s) {u v : Nat} (c : Can e s u v) (hw : s.wsimp = []) :
    Inv e seen (Pd u s.stk (s.gadj v)) Ex (setalias (unlist s v) u v) := by
  obtain ⟨g1, g2, g3, g4, g5, g6, g7, g8, g9⟩ := unlist_frame s v
  obtain ⟨l1, l2, l3, l4⟩ := unlist_lists h.ls c.tv
  obtain ⟨c1, c2⟩ := con_gb c.con c.uu
  have hus : u ∉ s.stk := by
    intro hs
    have h1 := (h.ls.hstk u).1 hs
    have h2 := h.ls.np u (by rw [h1]; simp)
    rcases c.tu with h3 | h3 | h3
    · omega
    · rw [h1] at h3; cases h3
    · rw [h1] at h3; cases h3
  have hvs : v ∉ s.stk := by
    intro hs
    have h1 := (h.ls.hstk v).1 hs
    rcases c.tv with h3 | h3
    · rw [h1] at h3; cases h3
    · rw [h1] at h3; cases h3
  have htv : s.tag v ≠ .stk ∧ s.tag v ≠ .simp := by rcases c.tv with h | h <;> simp [h]
  have hne := c.ne
  have tg : ∀ x, x ≠ v → (Ra.setalias (unlist s v) u v).tag x = s.tag x := by
    intro x hx
    simp [Ra.setalias, upd, hx, g9]
  have tgv : (Ra.setalias (unlist s v) u v).tag v = .coal := by simp [Ra.setalias, upd]
  refine ⟨?_, ?_, ?_, ?_, ?_, ?_, ?_, ?_⟩
  · show Gr e (unlist s v).gb (unlist s v).gadj
    rw [g1, g2]; exact h.gr
  · show Cov (unlist s v).gb (upd (unlist s v).al v (some u)) _
    rw [g1, g3]
    intro a p h0 h1 h2
    have : s.al a = none := by
      by_cases ha : a = v
      · subst ha; exact c.alv
      · simpa [upd, ha] using h0
    obtain ⟨q, h3, h4, h5⟩ := h.cov a p this h1 h2
    exact ⟨q, h3, h4, h5.imp id False.elim⟩
  · show Al e (upd (unlist s v).al v (some u))
    rw [g3]
    exact h.alr.upd c.alu c.alv c.ne c.vv c.uu c.mode
  · refine ⟨?_, ?_, ?_, ?_, ?_, l3, l4, ?_, ?_⟩
    · intro x hx
      have : x ∈ s.wsimp := by rw [← g4]; exact hx
      rw [hw] at this; cases this
    · intro x hx
      by_cases hxv : x = v
      · subst hxv; rw [tgv] at hx; cases hx
      · rw [tg x hxv] at hx
        have := h.ls.si2 x hx
        rw [hw] at this; cases this
    · intro x
      refine (l1 x).trans ?_
      by_cases hxv : x = v
      · subst hxv; rw [tgv]; simp
      · rw [tg x hxv, h.ls.hfr]; simp [hxv]
    · intro x
      refine (l2 x).trans ?_
      by_cases hxv : x = v
      · subst hxv; rw [tgv]; simp
      · rw [tg x hxv, h.ls.hsp]; simp [hxv]
    · intro x
      show x ∈ (unlist s v).stk ↔ _
      rw [g5]
      by_cases hxv : x = v
      · subst hxv; rw [tgv]; simp [hvs]
      · rw [tg x hxv, h.ls.hstk]
    · intro x
      show upd (unlist s v).al v (some u) x ≠ none ↔ _
      rw [g3]
      by_cases hxv : x = v
      · subst hxv; rw [tgv]; simp [upd]
      · rw [tg x hxv, ← h.ls.co]; simp [upd, hxv]
    · intro x hx
      by_cases hxv : x = v
      · subst hxv; exact c.vv
      · rw [tg x hxv] at hx; exact h.ls.np x hx
  · intro m hm hx
    obtain ⟨p, h1, h2, h3⟩ := h.mv m (by rw [← g6, ← g7]; exact hm) hx
    have key : ∀ r, Held s.al s.rmoves s.tag m r → Held (Ra.setalias (unlist s v) u v).al (Ra.setalias (unlist s v) u v).rmoves
        (Ra.setalias (unlist s v) u v).tag m r := by
      rintro r ⟨z, h4, h5, h6⟩
      have h7 := root_upd c.alu c.alv c.ne h4
      have e1 : (Ra.setalias (unlist s v) u v).al = upd s.al v (some u) := by simp [Ra.setalias, g3]
      have e2 : (Ra.setalias (unlist s v) u v).rmoves = upd s.rmoves u (mergemoves (s.rmoves u) (s.rmoves v)) := by
        simp [Ra.setalias, g8]
      rw [e1, e2]
      refine ⟨_, h7, ?_, ?_⟩
      · by_cases hz : z = v
        · subst hz
          simp only [if_true, upd, mergemoves, List.mem_append, List.mem_filter]
          by_cases hmu : m ∈ s.rmoves u
          · exact .inl hmu
          · exact .inr ⟨h5, by simpa using hmu⟩
        · rw [if_neg hz]
          by_cases hzu : z = u
          · subst hzu; simp [upd, mergemoves, h5]
          · simp [upd, hzu, h5]
      · by_cases hz : z = v
        · rw [if_pos hz, tg u c.ne]; exact c.tu
        · rw [if_neg hz, tg z hz]; exact h6
    exact ⟨p, h1, key _ h2, key _ h3⟩
  · show ((unlist s v).mactive ++ (unlist s v).wlmove).Nodup
    rw [g6, g7]; exact h.nd
  · show Ed (unlist s v).gb (upd (unlist s v).al v (some u)) (unlist s v).wsimp (unlist s v).stk _
    rw [g1, g3, g4, g5]
    -- the half where the first end was merged into `v`
    have half : ∀ a b y, s.gb a b = true → Root s.al a v → Root s.al b y →
        u ≠ y ∧ (Ord s.gb (upd s.al v (some u)) s.wsimp s.stk y u ∨ Pd u s.stk (s.gadj v) u y) := by
      intro a b y h1 h2 h3
      obtain ⟨h4, h5⟩ := h.ed a b v y h1 h2 h3
      have h6 : s.gb v y = true ∨ Ord s.gb s.al s.wsimp s.stk y v := by
        rcases h5 with h5 | h5 | h5 | h5 | h5
        · exact .inl h5
        · exact absurd h5.1 hvs
        · exact .inr h5
        · exact absurd h5.1 (by have := c.vv; omega)
        · exact h5.elim
      have hvu := root_upd c.alu c.alv c.ne (.here c.alv : Root s.al v v)
      rw [if_pos rfl] at hvu
      have bel : Below s.stk y u := by
        intro pre post hs _
        apply hus; rw [hs]; simp
      refine ⟨?_, ?_⟩
      · intro he
        subst he
        rcases h6 with h6 | h6
        · have := h.gr.sym _ _ h6; rw [c1] at this; cases this
        · exact hus h6.1
      · rcases h6 with h6 | h6
        · by_cases hy : y ∈ s.stk
          · exact .inl ⟨hy, by simp [hw], ⟨v, h.gr.sym _ _ h6, hvu⟩, bel⟩
          · exact .inr (.inl ⟨rfl, (h.gr.adj v y c.vv).2 h6, hy⟩)
        · obtain ⟨k1, k2, ⟨n, k3, k4⟩, k5⟩ := h6
          refine .inl ⟨k1, k2, ⟨n, k3, ?_⟩, bel⟩
          have := root_upd c.alu c.alv c.ne k4
          rwa [if_pos rfl] at this
    intro a b x y h1 h2 h3
    obtain ⟨x, k2, rfl⟩ := root_back h.alr c.alu c.alv c.ne h2
    obtain ⟨y, k3, rfl⟩ := root_back h.alr c.alu c.alv c.ne h3
    clear h2 h3
    rename' k2 => h2, k3 => h3
    have hold := h.ed a b x y h1 h2 h3
    by_cases hx : x = v
    · subst hx
      have hy : y ≠ x := fun h => hold.1 h.symm
      rw [if_pos rfl, if_neg hy]
      obtain ⟨k1, k2⟩ := half a b y h1 h2 h3
      refine ⟨k1, ?_⟩
      rcases k2 with k2 | k2
      · exact .inr (.inr (.inl k2))
      · exact .inr (.inr (.inr (.inr k2)))
    · rw [if_neg hx]
      by_cases hy : y = v
      · subst hy
        rw [if_pos rfl]
        obtain ⟨k1, k2⟩ := half b a x (h.gr.sym _ _ h1) h3 h2
        refine ⟨fun h => k1 h.symm, ?_⟩
        rcases k2 with k2 | k2
        · exact .inr (.inl k2)
        · exact .inr (.inr (.inr (.inr (k2.elim (fun h => .inr h) (fun h => .inl h)))))
      · rw [if_neg hy]
        have om : ∀ x y, y ≠ v → Ord s.gb s.al s.wsimp s.stk x y → Ord s.gb (upd s.al v (some u)) s.wsimp s.stk x y := by
          rintro x y hy ⟨k1, k2, ⟨n, k3, k4⟩, k5⟩
          have := root_upd c.alu c.alv c.ne k4
          rw [if_neg hy] at this
          exact ⟨k1, k2, ⟨n, k3, this⟩, k5⟩
        refine ⟨hold.1, ?_⟩
        rcases hold.2 with k | k | k | k | k
        · exact .inl k
        · exact .inr (.inl (om x y hy k))
        · exact .inr (.inr (.inl (om y x hx k)))
        · exact .inr (.inr (.inr (.inl k)))
        · exact k.elim
  · intro r hr hr'
    by_cases hrv : r = v
    · subst hrv; rw [tgv]; simp
    · rw [tg r hrv]
      rcases hr' with hr' | ⟨y, hy⟩
      · exact h.all r hr (.inl hr')
      · have hy' : upd s.al v (some u) y = some r := by rw [← g3]; exact hy
        by_cases hyv : y = v
        · subst hyv
          simp [upd] at hy'
          subst hy'
          rcases c.tu with h3 | h3 | h3
          · omega
          · rw [h3]; simp
          · rw [h3]; simp
        · simp [upd, hyv] at hy'
          exact h.all r hr (.inr ⟨y, hy'⟩)

theorem Inv.combine (h : Inv e seen NoP Ex s) {u v : Nat} {s' : S} (c : Can e s u v) (hw : s.wsimp = []) (hr : combine e s u v = .ok s') :
    Inv e seen NoP Ex s' := by
  unfold Ra.combine at hr
  obtain ⟨s1, h1, h2⟩ := Res.bind_eq_ok.1 hr
  cases h2
  obtain ⟨g1, g2, g3, g4, g5, g6, g7, g8, g9⟩ := unlist_frame s v
  obtain ⟨c1, c2⟩ := con_gb c.con c.uu
  have hs := h.setalias c hw
  have e1 : (Ra.setalias (unlist s v) u v).gadj v = s.gadj v := by simp [Ra.setalias, g2]
  have e2 : (Ra.setalias (unlist s v) u v).stk = s.stk := by simp [Ra.setalias, g5]
  have e3 : (Ra.setalias (unlist s v) u v).gb = s.gb := by simp [Ra.setalias, g1]
  rw [e1] at h1
  have hov : ∀ t, s.gb v t = true → t < Nreg → u < Nreg → ¬ Overlap t u := by
    intro t k1 k2 k3 k4
    obtain ⟨q, k5, k6, k7⟩ := h.cov v t c.alv k1 k2
    have k7 := k7.resolve_right id
    have := c2 q k3 k5 (k4.symm.trans k6)
    rw [h.gr.sym _ _ k7] at this; cases this
  have hi : Inv e seen NoP Ex s1 := by
    refine Inv.joinadj (s := Ra.setalias (unlist s v) u v) (ts := s.gadj v) ?_ ?_ ?_ c.uu ?_ ?_ h1
    · rw [e2]; exact hs
    · simp [Ra.setalias, upd, c.ne, g3, c.alu]
    · by_cases hu : u < Nreg
      · exact (usable_row u (c.uu hu)).2.2.1
      · have h3 := fixed_iff u
        by_contra h4
        have := h3.1 (by simpa using h4)
        unfold Fixed at this
        unfold Nreg at hu
        omega
    · intro t ht
      have hb := (h.gr.adj v t c.vv).1 ht
      refine ⟨?_, h.gr.nf _ _ (h.gr.sym _ _ hb), ?_, hov t hb⟩
      · have := h.gr.cls _ _ hb
        unfold Env.cls at this ⊢
        rw [← this, c.mode]
      · intro he
        subst he
        have := h.gr.sym _ _ hb
        rw [c1] at this; cases this
    · rw [e3]
      intro t k1 k2 k3
      obtain ⟨q, k5, k6, k7⟩ := h.cov v t c.alv ((h.gr.adj v t c.vv).1 k1) k2
      exact ⟨q, k5, k6, .inl ((h.gr.adj v q c.vv).2 (k7.resolve_right id))⟩
  unfold respill
  split
  · next hc =>
    simp only [Bool.and_eq_true] at hc
    exact hi.freeze_spill (by simpa using hc.2)
  · exact hi

/-! ## Freezing -/

theorem Inv.dropmove {P : Nat → Nat → Prop} {m : Nat} {ms : List Nat} (h : Inv e seen P (fun k => k ∈ m :: ms) s) :
    Inv e seen P (fun k => k ∈ ms) (dropmove s m) := by
  have hnd := List.nodup_append.1 h.nd
  unfold Ra.dropmove
  split
  · next hc =>
    have hc' : m ∈ s.mactive := by simpa using hc
    refine ⟨h.gr, h.cov, h.alr, h.ls, ?_, ?_, h.ed, h.all⟩
    · intro k hk hx
      have hkm : k ≠ m := by
        rintro rfl
        rcases hk with hk | hk
        · exact ((mem_erase_nodup hnd.1 _ _).1 hk).1 rfl
        · exact hnd.2.2 k hc' k hk rfl
      exact h.mv k (hk.imp List.mem_of_mem_erase id) (by simp [hkm, hx])
    · refine List.Nodup.sublist ?_ h.nd
      exact List.Sublist.append_right List.erase_sublist _
  · next hc =>
    have hc' : m ∉ s.mactive := by simpa using hc
    refine ⟨h.gr, h.cov, h.alr, h.ls, ?_, ?_, h.ed, h.all⟩
    · intro k hk hx
      have hkm : k ≠ m := by
        rintro rfl
        rcases hk with hk | hk
        · exact hc' hk
        · exact ((mem_erase_nodup hnd.2.1 _ _).1 hk).1 rfl
      exact h.mv k (hk.imp id List.mem_of_mem_erase) (by simp [hkm, hx])
    · refine List.Nodup.sublist ?_ h.nd
      exact List.Sublist.append_left List.erase_sublist _

theorem Inv.unfreeze {P : Nat → Nat → Prop} {v : Nat} {s' : S} (h : Inv e seen P Ex s) (hr : unfreeze e s v = .ok s') : Inv e seen P Ex s' := by
  unfold Ra.unfreeze at hr
  split at hr
  · next hc =>
    split at hr
    · next hf =>
      cases hr
      simp only [Bool.and_eq_true, Bool.not_eq_true'] at hc
      exact h.freeze_simp (by simpa using hf) fun m hm _ => not_moverelated hc.1 m hm
    · cases hr
  · cases hr; exact h

theorem Inv.freezeloop {P : Nat → Nat → Prop} {u : Nat} {ms : List Nat} {s' : S} (h : Inv e seen P (fun k => k ∈ ms) s)
    (hr : freezeloop e u ms s = .ok s') : Inv e seen P NoE s' := by
  induction ms generalizing s with
  | nil => cases hr; exact h.weaken (fun _ _ h => h) (fun m hm => by cases hm)
  | cons m ms ih =>
    rw [Ra.freezeloop] at hr
    obtain ⟨p, _, hr⟩ := Res.bind_eq_ok.1 hr
    obtain ⟨a, _, hr⟩ := Res.bind_eq_ok.1 hr
    obtain ⟨b, _, hr⟩ := Res.bind_eq_ok.1 hr
    obtain ⟨w, _, hr⟩ := Res.bind_eq_ok.1 hr
    obtain ⟨s1, h1, hr⟩ := Res.bind_eq_ok.1 hr
    exact ih (h.dropmove.unfreeze h1) hr

theorem not_nodemoves {l : Nat} : ∀ m, m ∈ s.rmoves l → ¬ m ∈ nodemoves s l → m ∉ s.mactive ∧ m ∉ s.wlmove := by
  intro m hm hn
  simpa [nodemoves, on, hm] using hn

theorem Inv.freezeone {P : Nat → Nat → Prop} {s' : S} (h : Inv e seen P NoE s) (hr : freezeone e s = .ok s') : Inv e seen P NoE s' := by
  unfold Ra.freezeone at hr
  split at hr
  · cases hr; exact h
  · next l w hl =>
    have h1 : Inv e seen P (fun k => k ∈ nodemoves s l) s := h.weaken (fun _ _ h => h) (fun m hm => hm.elim)
    exact (h1.pop_simp hl fun m hm hx => not_nodemoves m hm hx).freezeloop hr

theorem Inv.selspill {P : Nat → Nat → Prop} {s' : S} (h : Inv e seen P NoE s) (hr : selspill e s = .ok s') : Inv e seen P NoE s' := by
  unfold Ra.selspill at hr
  split at hr
  · cases hr
  · next l hl =>
    have h1 : Inv e seen P (fun k => k ∈ nodemoves s l) s := h.weaken (fun _ _ h => h) (fun m hm => hm.elim)
    have hm : l ∈ s.wspill := by
      unfold spillcand at hl
      split at hl
      · next m h2 => cases hl; exact List.mem_reverse.1 (List.mem_of_find?_eq_some h2)
      · exact List.mem_reverse.1 (List.mem_of_find?_eq_some hl)
    exact (h1.spill_simp hm fun m hm hx => not_nodemoves m hm hx).freezeloop hr

/-! ## Coalescing -/

/-- The moves recorded are between machine registers, or between registers values may be put in. -/
def Movs (e : Env) : Prop := ∀ p, p ∈ e.moves → (p.1 < Nreg ∧ p.2 < Nreg) ∨ ((p.1 < Nreg → Usable p.1) ∧ (p.2 < Nreg → Usable p.2))

theorem Inv.coalesce2 {u v m : Nat} {s' : S} (h : Inv e seen NoP NoE s) (hw : s.wsimp = []) (hn : m ∉ s.mactive ++ s.wlmove)
    (hm : ∃ p, e.moves[m]? = some p ∧ Held s.al s.rmoves s.tag m p.1 ∧ Held s.al s.rmoves s.tag m p.2)
    (hu : s.al u = none) (hv : s.al v = none)
    (tu : u < Nreg ∨ s.tag u = .freeze ∨ s.tag u = .spill) (tv : v < Nreg ∨ s.tag v = .freeze ∨ s.tag v = .spill)
    (uu : Nreg ≤ v → u < Nreg → Usable u) (hr : coalesce2 e s m u v = .ok s') : Inv e seen NoP NoE s' := by
  unfold Ra.coalesce2 at hr
  split at hr
  · obtain ⟨s1, h1, hr⟩ := Res.bind_eq_ok.1 hr
    exact (h.wladd h1).wladd hr
  · next hc =>
    simp only [not_or, Bool.not_eq_true] at hc
    have vv : Nreg ≤ v := by
      have := hc.2
      simp only [constrained, Bool.or_eq_false_iff] at this
      simpa using this.1.1
    split at hr
    · next hb =>
      obtain ⟨s1, h1, hr⟩ := Res.bind_eq_ok.1 hr
      refine (h.combine ⟨hc.1, hu, hv, vv, uu vv, tv.resolve_left (by omega), tu, hc.2, ?_⟩ hw h1).wladd hr
      simp only [combinable, Bool.and_eq_true, beq_iff_eq] at hb
      exact hb.1.symm
    · cases hr
      refine ⟨h.gr, h.cov, h.alr, h.ls, ?_, ?_, h.ed, h.all⟩
      · intro k hk hx
        by_cases hkm : k = m
        · subst hkm; exact hm
        · exact h.mv k (hk.imp (fun h => (List.mem_cons.1 h).resolve_left hkm) id) hx
      · exact List.nodup_cons.2 ⟨hn, h.nd⟩

theorem Inv.coalesce {s' : S} (h : Inv e seen NoP NoE s) (hM : Movs e) (hw : s.wsimp = []) (hr : coalesce e s = .ok s') :
    Inv e seen NoP NoE s' := by
  unfold Ra.coalesce at hr
  split at hr
  · cases hr; exact h
  · next m ms hl =>
    obtain ⟨p, hp, hr⟩ := Res.bind_eq_ok.1 hr
    obtain ⟨u, hu, hr⟩ := Res.bind_eq_ok.1 hr
    obtain ⟨v, hv, hr⟩ := Res.bind_eq_ok.1 hr
    have hpe : e.moves[m]? = some p := by
      unfold ends at hp
      split at hp
      · next q hq => cases hp; exact hq
      · cases hp
    have ru := getalias_root hu
    have rv := getalias_root hv
    obtain ⟨p', h1, h2, h3⟩ := h.mv m (.inr (by rw [hl]; simp)) id
    rw [hpe] at h1
    cases h1
    have tg : ∀ r z, Held s.al s.rmoves s.tag m r → Root s.al r z → z < Nreg ∨ s.tag z = .freeze ∨ s.tag z = .spill := by
      rintro r z ⟨w, k1, k2, k3⟩ k4
      rw [k4.det k1]; exact k3
    have us : ∀ r z, Root s.al r z → (r < Nreg → Usable r) → z < Nreg → Usable z := by
      intro r z k1 k2 k3
      rcases k1.last with k4 | ⟨y, k4⟩
      · subst k4; exact k2 k3
      · exact h.alr.lst y z k4 k3
    have ph : ∀ r z, Root s.al r z → r < Nreg → z = r := by
      intro r z k1 k2
      refine k1.of_none ?_
      by_contra hc
      obtain ⟨y, hy⟩ := Option.ne_none_iff_exists'.1 hc
      have := h.alr.np r y hy
      omega
    have hnd := h.nd
    rw [hl] at hnd
    have hnd' := (List.perm_middle.nodup_iff).1 hnd
    have h0 : Inv e seen NoP NoE { s with wlmove := ms } := by
      refine ⟨h.gr, h.cov, h.alr, h.ls, ?_, (List.nodup_cons.1 hnd').2, h.ed, h.all⟩
      intro k hk hx
      exact h.mv k (hk.imp id fun h => by rw [hl]; exact List.mem_cons_of_mem _ h) hx
    have hMp := hM p (List.mem_of_getElem? hpe)
    unfold Ra.coalesce1 at hr
    split at hr
    · refine h0.coalesce2 hw (List.nodup_cons.1 hnd').1 ⟨p, hpe, h2, h3⟩ rv.none ru.none (tg _ _ h3 rv) (tg _ _ h2 ru) ?_ hr
      intro k1 k2
      rcases hMp with k | k
      · rw [ph _ _ ru k.1] at k1; omega
      · exact us _ _ rv k.2 k2
    · refine h0.coalesce2 hw (List.nodup_cons.1 hnd').1 ⟨p, hpe, h2, h3⟩ ru.none rv.none (tg _ _ h2 ru) (tg _ _ h3 rv) ?_ hr
      intro k1 k2
      rcases hMp with k | k
      · rw [ph _ _ rv k.2] at k1; omega
      · exact us _ _ ru k.1 k2

/-! ## The loop -/

theorem Inv.loop {f : Nat} {s' : S} (h : Inv e seen NoP NoE s) (hM : Movs e) (hr : loop e f s = .ok s') :
    Inv e seen NoP NoE s' ∧ s'.wsimp = [] ∧ s'.wlmove = [] ∧ s'.wfreeze = [] ∧ s'.wspill = [] := by
  induction f generalizing s with
  | zero => simp [Ra.loop] at hr
  | succ f ih =>
    rw [Ra.loop] at hr
    split at hr
    · obtain ⟨s1, h1, hr⟩ := Res.bind_eq_ok.1 hr
      exact ih (h.simpl (fun _ _ h => h) h1) hr
    · next k1 =>
      have k1' : s.wsimp = [] := by simpa using k1
      split at hr
      · obtain ⟨s1, h1, hr⟩ := Res.bind_eq_ok.1 hr
        exact ih (h.coalesce hM k1' h1) hr
      · next k2 =>
        split at hr
        · obtain ⟨s1, h1, hr⟩ := Res.bind_eq_ok.1 hr
          exact ih (h.freezeone h1) hr
        · next k3 =>
          split at hr
          · obtain ⟨s1, h1, hr⟩ := Res.bind_eq_ok.1 hr
            exact ih (h.selspill h1) hr
          · next k4 => cases hr; exact ⟨h, k1', by simpa using k2, by simpa using k3, by simpa using k4⟩
end

end Verif.Ra
