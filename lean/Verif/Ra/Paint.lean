import Verif.Ra.Loop

/-!
# From the graph to the colours
-/

namespace Verif.Ra

open Verif

/-! ## The graph -/

section
variable {e : Env} {seen : List Nat} {s : S}

/-- Nothing but the graph has been touched. -/
structure Fresh (e : Env) (s : S) : Prop where
  al : s.al = fun _ => none
  tag : s.tag = fun _ => .none
  si : s.wsimp = []
  fr : s.wfreeze = []
  sp : s.wspill = []
  stk : s.stk = []
  wl : s.wlmove = (S.init e.moves).wlmove
  ac : s.mactive = []
  rm : s.rmoves = (S.init e.moves).rmoves

theorem Adds.symm {a b : Nat} (h : Adds e a b) : Adds e b a :=
  ⟨h.1.symm, h.2.2.1, h.2.1, h.2.2.2.1.symm, fun k => h.2.2.2.2 ⟨k.2, k.1⟩⟩

theorem graph_fold (edges : List (Nat × Nat)) (hg : Gr e s.gb s.gadj) (hf : Fresh e s) :
    let t := edges.foldl (fun s p => addedge e s p.1 p.2) s
    Gr e t.gb t.gadj ∧ Fresh e t ∧ ∀ a b, t.gb a b = true ↔ s.gb a b = true ∨ (Joined edges a b ∧ Adds e a b) := by
  induction edges generalizing s with
  | nil => exact ⟨hg, hf, fun a b => by simp [Joined]⟩
  | cons p edges ih =>
    obtain ⟨f1, f2, f3, f4, f5, f6, f7, f8, f9⟩ := addedge_frame e s p.1 p.2
    have hf' : Fresh e (addedge e s p.1 p.2) :=
      ⟨f1.trans hf.al, f2.trans hf.tag, f3.trans hf.si, f4.trans hf.fr, f5.trans hf.sp, f6.trans hf.stk, f7.trans hf.wl, f8.trans hf.ac,
        f9.trans hf.rm⟩
    obtain ⟨h1, h2, h3⟩ := ih (addedge_gr hg p.1 p.2) hf'
    refine ⟨h1, h2, fun a b => ?_⟩
    refine (h3 a b).trans ?_
    rw [addedge_gb hg]
    obtain ⟨p1, p2⟩ := p
    simp only [Joined, List.mem_cons, Prod.mk.injEq]
    constructor
    · rintro ((h | ⟨h, ⟨k1, k2⟩ | ⟨k1, k2⟩⟩) | ⟨h, k⟩)
      · exact .inl h
      · subst k1 k2; exact .inr ⟨.inl (.inl ⟨rfl, rfl⟩), h⟩
      · subst k1 k2; exact .inr ⟨.inr (.inl ⟨rfl, rfl⟩), h.symm⟩
      · exact .inr ⟨h.imp .inr .inr, k⟩
    · rintro (h | ⟨(⟨k1, k2⟩ | h) | (⟨k1, k2⟩ | h), k⟩)
      · exact .inl (.inl h)
      · subst k1 k2; exact .inl (.inr ⟨k, .inl ⟨rfl, rfl⟩⟩)
      · exact .inr ⟨.inl h, k⟩
      · subst k1 k2; exact .inl (.inr ⟨k.symm, .inr ⟨rfl, rfl⟩⟩)
      · exact .inr ⟨.inr h, k⟩

theorem graph_spec (e : Env) (edges : List (Nat × Nat)) : Gr e (graph e edges).gb (graph e edges).gadj ∧ Fresh e (graph e edges) ∧
    ∀ a b, (graph e edges).gb a b = true ↔ Joined edges a b ∧ Adds e a b := by
  have hg : Gr e (S.init e.moves).gb (S.init e.moves).gadj :=
    ⟨fun _ _ h => h, fun _ h => (nomatch h), fun _ _ h => (nomatch h), fun _ _ h => (nomatch h), fun _ _ h => (nomatch h),
      fun u v _ => by simp [S.init]⟩
  obtain ⟨h1, h2, h3⟩ := graph_fold edges hg ⟨rfl, rfl, rfl, rfl, rfl, rfl, rfl, rfl, rfl⟩
  exact ⟨h1, h2, fun a b => by rw [graph, h3]; simp [S.init]⟩

/-! ## The work lists -/

/-- The lists after the registers `done` have been put on them. -/
structure Wk (e : Env) (g s : S) (done : List Nat) : Prop where
  gb : s.gb = g.gb
  gadj : s.gadj = g.gadj
  al : s.al = g.al
  stk : s.stk = g.stk
  wl : s.wlmove = g.wlmove
  ac : s.mactive = g.mactive
  rm : s.rmoves = g.rmoves
  tg : ∀ x, s.tag x ≠ .none ↔ x ∈ done ∧ Nreg ≤ x
  mr : ∀ x, s.tag x = .simp → moverelated g x = false
  hsi : ∀ x, x ∈ s.wsimp ↔ s.tag x = .simp
  hfr : ∀ x, x ∈ s.wfreeze ↔ s.tag x = .freeze
  hsp : ∀ x, x ∈ s.wspill ↔ s.tag x = .spill
  hst : ∀ x, s.tag x ≠ .stk
  hco : ∀ x, s.tag x ≠ .coal
  fnd : s.wfreeze.Nodup
  snd : s.wspill.Nodup

theorem moverelated_congr {s g : S} (h1 : s.wlmove = g.wlmove) (h2 : s.mactive = g.mactive) (h3 : s.rmoves = g.rmoves) (x : Nat) :
    moverelated s x = moverelated g x := by
  have : on s = on g := by funext m; simp [on, h1, h2]
  simp [moverelated, h3, this]

theorem Wk.step {g : S} {done : List Nat} (h : Wk e g s done) {i : Nat} (hi : i ∉ done) : Wk e g (mkwork1 e s i) (done ++ [i]) := by
  obtain ⟨h1, h2, h3, h4, h5, h6, h7, h8, h9, h10, h11, h12, h13, h14, h15, h16⟩ := h
  have ht : s.tag i = .none := by
    by_contra hc
    exact hi ((h8 i).1 hc).1
  have mc := moverelated_congr h5 h6 h7
  unfold mkwork1
  split
  · exact ⟨h1, h2, h3, h4, h5, h6, h7, fun x => by rw [h8]; grind, h9, h10, h11, h12, h13, h14, h15, h16⟩
  · split
    · refine ⟨h1, h2, h3, h4, h5, h6, h7, ?_, ?_, ?_, ?_, ?_, ?_, ?_, h15, ?_⟩ <;> simp only [putspill, upd]
      · grind
      · grind
      · grind
      · grind
      · grind
      · grind
      · grind
      · exact List.nodup_cons.2 ⟨fun hx => absurd ((h12 i).1 hx) (by rw [ht]; simp), h16⟩
    · split
      · refine ⟨h1, h2, h3, h4, h5, h6, h7, ?_, ?_, ?_, ?_, ?_, ?_, ?_, ?_, h16⟩ <;> simp only [putfreeze, upd]
        · grind
        · grind
        · grind
        · grind
        · grind
        · grind
        · grind
        · exact List.nodup_cons.2 ⟨fun hx => absurd ((h11 i).1 hx) (by rw [ht]; simp), h15⟩
      · next hm =>
        refine ⟨h1, h2, h3, h4, h5, h6, h7, ?_, ?_, ?_, ?_, ?_, ?_, ?_, h15, h16⟩ <;> simp only [putsimp, upd]
        · grind
        · intro x hx
          by_cases hxi : x = i
          · subst hxi; rw [← mc]; simpa using hm
          · exact h9 x (by simpa [hxi] using hx)
        · grind
        · grind
        · grind
        · grind
        · grind

theorem Wk.fold {g : S} {done : List Nat} (h : Wk e g s done) (l : List Nat) (hn : (done ++ l).Nodup) :
    Wk e g (l.foldl (mkwork1 e) s) (done ++ l) := by
  induction l generalizing s done with
  | nil => simpa using h
  | cons i l ih =>
    have hi : i ∉ done := by
      have := List.nodup_append.1 hn
      intro hd
      exact this.2.2 i hd i (by simp) rfl
    have := ih (h.step hi) (by simpa using hn)
    simpa using this

/-- What is asked of the input: each register is listed once, every virtual register in an edge or a move is listed,
`Movs`, and registers which interfere with a machine register interfere with a usable register of its family. -/
structure Input (e : Env) (edges : List (Nat × Nat)) (seen : List Nat) : Prop where
  nodup : seen.Nodup
  edge : ∀ a b, Joined edges a b → Virtual a → a ∈ seen
  move : ∀ p, p ∈ e.moves → (Virtual p.1 → p.1 ∈ seen) ∧ (Virtual p.2 → p.2 ∈ seen)
  movs : ∀ p, p ∈ e.moves → (¬ Virtual p.1 ∧ ¬ Virtual p.2) ∨ ((¬ Virtual p.1 → Usable p.1) ∧ (¬ Virtual p.2 → Usable p.2))
  cover : ∀ a p, Joined edges a p → Virtual a → ¬ Virtual p → Fixed p ∨ ∃ q, Usable q ∧ Overlap p q ∧ Joined edges a q

theorem virtual_iff (r : Nat) : Virtual r ↔ Nreg ≤ r := Iff.rfl

theorem Input.start {edges : List (Nat × Nat)} (h : Input e edges seen) :
    Inv e seen NoP NoE (seen.foldl (mkwork1 e) (graph e edges)) ∧
    ∀ a b, (seen.foldl (mkwork1 e) (graph e edges)).gb a b = true ↔ Joined edges a b ∧ Adds e a b := by
  obtain ⟨g1, g2, g3⟩ := graph_spec e edges
  have w0 : Wk e (graph e edges) (graph e edges) [] := by
    refine ⟨rfl, rfl, rfl, rfl, rfl, rfl, rfl, ?_, ?_, ?_, ?_, ?_, ?_, ?_, ?_, ?_⟩ <;> simp [g2.tag, g2.si, g2.fr, g2.sp]
  have w := w0.fold seen (by simpa using h.nodup)
  simp only [List.nil_append] at w
  generalize seen.foldl (mkwork1 e) (graph e edges) = s at w ⊢
  have hal : s.al = fun _ => none := w.al.trans g2.al
  have hroot : ∀ x z, Root s.al x z → z = x := fun x z hz => hz.of_none (by rw [hal])
  refine ⟨⟨?_, ?_, ?_, ?_, ?_, ?_, ?_, ?_⟩, fun a b => by rw [w.gb]; exact g3 a b⟩
  · rw [w.gb, w.gadj]; exact g1
  · intro a p _ h1 h2
    rw [w.gb, g3] at h1
    have ha : Nreg ≤ a := by have := h1.2.2.2.2.2; omega
    have hp : ¬ Virtual p := by rw [virtual_iff]; omega
    obtain ⟨q, k1, k2, k3⟩ := (h.cover a p h1.1 ha hp).resolve_left fun hf => by
      rw [← fixed_iff] at hf; rw [h1.2.2.2.1] at hf; cases hf
    refine ⟨q, k1, k2, .inl ?_⟩
    rw [w.gb, g3]
    obtain ⟨q1, q2, q3, _⟩ := usable_row q k1
    refine ⟨k3, by omega, h1.2.2.1, q3, ?_, by omega⟩
    rw [h1.2.2.2.2.1]
    simp only [Env.cls, Env.mode]
    rw [if_pos h2, if_pos q1]
    exact overlap_cls p q h2 q1 k2
  · rw [hal]
    exact ⟨fun _ _ h => (nomatch h), fun _ _ h => (nomatch h), fun _ _ h => (nomatch h), fun x => ⟨x, .here rfl⟩⟩
  · refine ⟨fun x hx => .inl ((w.hsi x).1 hx), fun x hx => (w.hsi x).2 hx, w.hfr, w.hsp, ?_, w.fnd, w.snd, ?_, ?_⟩
    · intro x
      rw [w.stk, g2.stk]
      simp [w.hst x]
    · intro x
      rw [hal]
      simp [w.hco x]
    · exact fun x hx => ((w.tg x).1 hx).2
  · intro m hm _
    have hm' : m ∈ (S.init e.moves).wlmove := by
      rcases hm with hm | hm
      · rw [w.ac, g2.ac] at hm; cases hm
      · rw [w.wl, g2.wl] at hm; exact hm
    have hlt : m < e.moves.length := by simpa [S.init] using hm'
    obtain ⟨p, hp⟩ : ∃ p, e.moves[m]? = some p := ⟨_, List.getElem?_eq_getElem hlt⟩
    have hpm := List.mem_of_getElem? hp
    have mem : ∀ r, (p.1 = r ∨ p.2 = r) → m ∈ s.rmoves r := by
      intro r hr
      rw [w.rm, g2.rm]
      simp only [S.init, List.mem_flatMap, List.mem_range]
      refine ⟨m, hlt, ?_⟩
      rw [hp]
      rcases hr with hr | hr <;> simp [hr]
    have held : ∀ r, (p.1 = r ∨ p.2 = r) → (Virtual r → r ∈ seen) → Held s.al s.rmoves s.tag m r := by
      intro r hr hs
      refine ⟨r, .here (by rw [hal]), mem r hr, ?_⟩
      by_cases hv : Nreg ≤ r
      · right
        have h1 := (w.tg r).2 ⟨hs hv, hv⟩
        have h2 := w.hst r
        have h3 := w.hco r
        have h4 : s.tag r ≠ .simp := by
          intro h4
          have h5 := w.mr r h4
          rw [← moverelated_congr w.wl w.ac w.rm] at h5
          have h6 := (not_moverelated h5 m (mem r hr)).2
          apply h6
          rw [w.wl, g2.wl]; exact hm'
        cases ht : s.tag r <;> simp_all
      · left; omega
    exact ⟨p, hp, held _ (.inl rfl) (h.move p hpm).1, held _ (.inr rfl) (h.move p hpm).2⟩
  · rw [w.ac, w.wl, g2.ac, g2.wl]
    simp [S.init, List.nodup_range]
  · intro a b x y h1 h2 h3
    rw [hroot _ _ h2, hroot _ _ h3]
    refine ⟨?_, .inl h1⟩
    rintro rfl
    rw [w.gb] at h1
    exact g1.irr _ h1
  · intro r hr hr'
    rcases hr' with hr' | ⟨y, hy⟩
    · exact (w.tg r).2 ⟨hr', hr⟩
    · rw [hal] at hy; cases hy

theorem Input.Movs {edges : List (Nat × Nat)} (h : Input e edges seen) : Movs e := by
  intro p hp
  have := h.movs p hp
  simp only [virtual_iff, Nat.not_le] at this
  exact this

/-! ## Edges stay -/

/-- The edges are kept. -/
def Keep (s s' : S) : Prop := ∀ a b, s.gb a b = true → s'.gb a b = true

theorem Same.keep {s s' : S} (h : Same s s') : Keep s s' := fun a b k => by rw [h.1]; exact k

theorem Keep.trans {a b c : S} (h : Keep a b) (h' : Keep b c) : Keep a c := fun x y k => h' x y (h x y k)

theorem addedge_keep (e : Env) (s : S) (u v : Nat) : Keep s (addedge e s u v) := by
  intro a b h
  unfold addedge
  split; · exact h
  split; · exact h
  split; · exact h
  split; · exact h
  · simp [addhalf_frame, gbput, h]

theorem declist_same {s' : S} {l : List Nat} (h : declist e l s = .ok s') : Same s s' := by
  induction l generalizing s with
  | nil => cases h; exact Same.rfl' _
  | cons m l ih =>
    rw [declist] at h
    split at h
    · obtain ⟨s1, h1, h⟩ := Res.bind_eq_ok.1 h
      exact (decdegree_same h1).trans (ih h)
    · exact ih h

theorem wladd_same {s' : S} {u : Nat} (h : wladd e s u = .ok s') : Same s s' := by
  unfold wladd at h
  split at h
  · cases h; exact Same.rfl' s
  · split at h
    · cases h; exact Same.rfl' s
    · split at h
      · cases h; exact Same.rfl' s
      · unfold wlmovesimp at h
        split at h
        · cases h; split <;> exact ⟨rfl, rfl, rfl, rfl, rfl⟩
        · cases h

theorem joinadj_keep {s' : S} {u : Nat} {l : List Nat} (h : joinadj e u l s = .ok s') : Keep s s' := by
  induction l generalizing s with
  | nil => cases h; exact fun _ _ h => h
  | cons m l ih =>
    rw [joinadj] at h
    split at h
    · obtain ⟨s1, h1, h⟩ := Res.bind_eq_ok.1 h
      exact (addedge_keep e s m u).trans ((decdegree_same h1).keep.trans (ih h))
    · exact ih h

theorem combine_keep {s' : S} {u v : Nat} (h : combine e s u v = .ok s') : Keep s s' := by
  unfold combine at h
  obtain ⟨s1, h1, h⟩ := Res.bind_eq_ok.1 h
  cases h
  have k1 : Keep s (setalias (unlist s v) u v) := by
    intro a b h
    show (unlist s v).gb a b = true
    rw [(unlist_frame s v).1]; exact h
  have k2 : Keep s1 (respill e s1 u) := by
    unfold respill
    split <;> exact fun _ _ h => h
  exact k1.trans ((joinadj_keep h1).trans k2)

theorem coalesce_keep {s' : S} (h : coalesce e s = .ok s') : Keep s s' := by
  unfold coalesce at h
  split at h
  · cases h; exact fun _ _ h => h
  · next m ms hl =>
    obtain ⟨p, hp, h⟩ := Res.bind_eq_ok.1 h
    obtain ⟨u, hu, h⟩ := Res.bind_eq_ok.1 h
    obtain ⟨v, hv, h⟩ := Res.bind_eq_ok.1 h
    have c2 : ∀ u v, coalesce2 e { s with wlmove := ms } m u v = .ok s' → Keep s s' := by
      intro u v h
      unfold coalesce2 at h
      split at h
      · obtain ⟨s1, h1, h⟩ := Res.bind_eq_ok.1 h
        exact fun a b k => ((wladd_same h1).trans (wladd_same h)).keep a b k
      · split at h
        · obtain ⟨s1, h1, h⟩ := Res.bind_eq_ok.1 h
          exact fun a b k => (combine_keep h1).trans (wladd_same h).keep a b k
        · cases h; exact fun _ _ h => h
    unfold coalesce1 at h
    split at h
    · exact c2 v u h
    · exact c2 u v h

theorem freezeloop_same {s' : S} {u : Nat} {l : List Nat} (h : freezeloop e u l s = .ok s') : Same s s' := by
  induction l generalizing s with
  | nil => cases h; exact Same.rfl' _
  | cons m l ih =>
    rw [freezeloop] at h
    obtain ⟨p, _, h⟩ := Res.bind_eq_ok.1 h
    obtain ⟨a, _, h⟩ := Res.bind_eq_ok.1 h
    obtain ⟨b, _, h⟩ := Res.bind_eq_ok.1 h
    obtain ⟨w, _, h⟩ := Res.bind_eq_ok.1 h
    obtain ⟨s1, h1, h⟩ := Res.bind_eq_ok.1 h
    have k1 : Same s (dropmove s m) := by unfold dropmove; split <;> exact ⟨rfl, rfl, rfl, rfl, rfl⟩
    have k2 : Same (dropmove s m) s1 := by
      generalize (if a = w then b else a) = v at h1
      unfold unfreeze at h1
      split at h1
      · split at h1
        · cases h1; exact ⟨rfl, rfl, rfl, rfl, rfl⟩
        · cases h1
      · cases h1; exact Same.rfl' _
    exact k1.trans (k2.trans (ih h))

theorem loop_keep {s' : S} {f : Nat} (h : loop e f s = .ok s') : Keep s s' := by
  induction f generalizing s with
  | zero => simp [loop] at h
  | succ f ih =>
    rw [loop] at h
    split at h
    · obtain ⟨s1, h1, h⟩ := Res.bind_eq_ok.1 h
      refine Keep.trans ?_ (ih h)
      unfold simpl at h1
      split at h1
      · cases h1; exact fun _ _ h => h
      · exact fun a b k => (declist_same h1).keep a b k
    · split at h
      · obtain ⟨s1, h1, h⟩ := Res.bind_eq_ok.1 h
        exact (coalesce_keep h1).trans (ih h)
      · split at h
        · obtain ⟨s1, h1, h⟩ := Res.bind_eq_ok.1 h
          refine Keep.trans ?_ (ih h)
          unfold freezeone at h1
          split at h1
          · cases h1; exact fun _ _ h => h
          · exact fun a b k => (freezeloop_same h1).keep a b k
        · split at h
          · obtain ⟨s1, h1, h⟩ := Res.bind_eq_ok.1 h
            refine Keep.trans ?_ (ih h)
            unfold selspill at h1
            split at h1
            · cases h1
            · exact fun a b k => (freezeloop_same h1).keep a b k
          · cases h; exact fun _ _ h => h

/-! ## Painting -/

theorem aliases_mem {al : Nat → Option Nat} {f : Nat} {l ws : List Nat} (h : aliases al f l = .ok ws) :
    ∀ x z, x ∈ l → Root al x z → z ∈ ws := by
  induction l generalizing ws with
  | nil => intro x z hx; cases hx
  | cons a l ih =>
    rw [aliases] at h
    obtain ⟨b, h1, h⟩ := Res.bind_eq_ok.1 h
    obtain ⟨t, h2, h⟩ := Res.bind_eq_ok.1 h
    cases h
    intro x z hx hz
    rcases List.mem_cons.1 hx with hx | hx
    · subst hx; rw [hz.det (getalias_root h1)]; simp
    · exact List.mem_cons_of_mem _ (ih h2 x z hx hz)

theorem pick_spec {m c : Nat} {tk : Nat → Bool} (h : pick m tk = some c) :
    Usable c ∧ physmode[c]?.getD 0 = m ∧ tk (cm c) = false := by
  unfold pick at h
  obtain ⟨i, h1, h2⟩ := Option.map_eq_some_iff.1 h
  have h3 := List.find?_some h1
  simp only [Bool.and_eq_true, bne_iff_ne, ne_eq, Bool.not_eq_true'] at h3
  subst h2
  obtain ⟨k1, k2, k3⟩ := row_usable i m h3.1
  exact ⟨k1, k3, by rw [k2]; exact h3.2⟩

/-- The roots `x` and `y` have to get different registers. -/
def Apart (s : S) (x y : Nat) : Prop :=
  x ≠ y ∧ (s.gb x y = true ∨ Ord s.gb s.al s.wsimp s.stk x y ∨ Ord s.gb s.al s.wsimp s.stk y x ∨ (x < Nreg ∧ y < Nreg ∧ ¬ Overlap x y))

theorem Apart.symm (h : Inv e seen NoP NoE s) {x y : Nat} (a : Apart s x y) : Apart s y x := by
  obtain ⟨h1, h2⟩ := a
  refine ⟨h1.symm, ?_⟩
  rcases h2 with k | k | k | ⟨k1, k2, k3⟩
  · exact .inl (h.gr.sym _ _ k)
  · exact .inr (.inr (.inl k))
  · exact .inr (.inl k)
  · exact .inr (.inr (.inr ⟨k2, k1, fun h => k3 h.symm⟩))

/-- The colours when the registers `pre` of the stack have been painted and `ns` are left. -/
structure Pt (e : Env) (s : S) (pre ns : List Nat) (p : Paint) : Prop where
  stk : s.stk = pre ++ ns
  phys : ∀ x, x < Nreg → p.col x = x
  good : ∀ x, x ∈ pre → x ∉ p.spilled → Usable (p.col x) ∧ physmode[p.col x]?.getD 0 = e.mode x
  apart : ∀ x y, s.al x = none → s.al y = none → (x < Nreg ∨ x ∈ pre) → (y < Nreg ∨ y ∈ pre) → x ∉ ns → y ∉ ns → x ∉ p.spilled → y ∉ p.spilled →
    Apart s x y → ¬ Overlap (p.col x) (p.col y)

theorem Pt.step (h : Inv e seen NoP NoE s) {pre ns ws : List Nat} {n c : Nat} {p : Paint} (t : Pt e s pre (n :: ns) p)
    (ha : aliases s.al e.fuel (s.gadj n) = .ok ws) (hc : pick (e.mode n) (taken p.col ws) = some c) :
    Pt e s (pre ++ [n]) ns { p with col := upd p.col n c } := by
  obtain ⟨c1, c2, c3⟩ := pick_spec hc
  have hn : Nreg ≤ n := by
    have : s.tag n = .stk := (h.ls.hstk n).1 (by rw [t.stk]; simp)
    exact h.ls.np n (by rw [this]; simp)
  have hoth : ∀ x, x ≠ n → upd p.col n c x = p.col x := fun x hx => by simp [upd, hx]
  -- a colour seen by `n` is not chosen
  have hws : ∀ z, z ∈ ws → Usable (p.col z) → ¬ Overlap c (p.col z) := by
    intro z hz hu ho
    rw [usable_overlap _ _ c1 hu] at ho
    simp only [taken, List.any_eq_false, Bool.and_eq_true, bne_iff_ne, beq_iff_eq] at c3
    exact c3 z hz ⟨(usable_row _ hu).2.1, ho.symm⟩
  have prep : ∀ x, x < Nreg → s.al x = none := by
    intro x hx
    by_contra hh
    obtain ⟨y, hy⟩ := Option.ne_none_iff_exists'.1 hh
    have := h.alr.np x y hy
    omega
  -- the new register against a finished one
  have new : ∀ y, s.al n = none → s.al y = none → (y < Nreg ∨ y ∈ pre) → y ≠ n → y ∉ ns → y ∉ p.spilled → Apart s n y →
      ¬ Overlap c (p.col y) := by
    intro y hn0 hy0 hy hyn hyns hys hap
    have edge : s.gb n y = true → ¬ Overlap c (p.col y) := by
      intro hg
      by_cases hyp : y < Nreg
      · rw [t.phys y hyp]
        obtain ⟨q, q1, q2, q3⟩ := h.cov n y hn0 hg hyp
        have q3 := q3.resolve_right id
        have q4 := (usable_row q q1).1
        have q5 := aliases_mem ha q q ((h.gr.adj n q hn).2 q3) (.here (prep q q4))
        have := hws q q5 (by rw [t.phys q q4]; exact q1)
        rw [t.phys q q4] at this
        exact fun ho => this (ho.trans q2)
      · exact hws y (aliases_mem ha y y ((h.gr.adj n y hn).2 hg) (.here hy0)) (t.good y (hy.resolve_left hyp) hys).1
    rcases hap.2 with k | ⟨_, _, ⟨m, k1, k2⟩, _⟩ | ⟨k1, _, _, k2⟩ | k
    · exact edge k
    · by_cases hyp : y < Nreg
      · rcases k2.last with k3 | ⟨w, k3⟩
        · subst k3; exact edge k1
        · have := hws y (aliases_mem ha m y ((h.gr.adj n m hn).2 k1) k2)
          rw [t.phys y hyp] at this ⊢
          exact this (h.alr.lst w y k3 hyp)
      · exact hws y (aliases_mem ha m y ((h.gr.adj n m hn).2 k1) k2) (t.good y (hy.resolve_left hyp) hys).1
    · have k3 := k2 pre ns t.stk
      rw [t.stk] at k1
      simp only [List.mem_append, List.mem_cons] at k1
      rcases k1 with k1 | k1 | k1
      · exact absurd k1 k3
      · exact absurd k1 hyn
      · exact absurd k1 hyns
    · omega
  refine ⟨by rw [t.stk]; simp, ?_, ?_, ?_⟩
  · intro x hx
    show upd p.col n c x = x
    rw [hoth x (by omega)]; exact t.phys x hx
  · intro x hx hs
    show Usable (upd p.col n c x) ∧ physmode[upd p.col n c x]?.getD 0 = e.mode x
    by_cases hxn : x = n
    · subst hxn; simp only [upd, if_true]; exact ⟨c1, c2⟩
    · rw [hoth x hxn]
      refine t.good x ?_ hs
      simpa [hxn] using hx
  · intro x y hx0 hy0 hx hy hxn hyn hxs hys hap
    show ¬ Overlap (upd p.col n c x) (upd p.col n c y)
    have sub : ∀ z, (z < Nreg ∨ z ∈ pre ++ [n]) → z ≠ n → z < Nreg ∨ z ∈ pre := by
      intro z hz hzn
      simpa [hzn] using hz
    by_cases h1 : x = n
    · subst h1
      have hyx : y ≠ x := fun hh => hap.1 hh.symm
      rw [hoth y hyx]
      simp only [upd, if_true]
      exact new y hx0 hy0 (sub y hy hyx) hyx hyn hys hap
    · by_cases h2 : y = n
      · subst h2
        rw [hoth x h1]
        simp only [upd, if_true]
        exact fun ho => new x hy0 hx0 (sub x hx h1) h1 hxn hxs (hap.symm h) ho.symm
      · rw [hoth x h1, hoth y h2]
        exact t.apart x y hx0 hy0 (sub x hx h1) (sub y hy h2) (by simp [h1, hxn]) (by simp [h2, hyn]) hxs hys hap

theorem Pt.spill {pre ns : List Nat} {n : Nat} {p : Paint} (t : Pt e s pre (n :: ns) p) :
    Pt e s (pre ++ [n]) ns { p with spilled := n :: p.spilled } := by
  have sub : ∀ z, (z < Nreg ∨ z ∈ pre ++ [n]) → z ≠ n → z < Nreg ∨ z ∈ pre := by
    intro z hz hzn
    simpa [hzn] using hz
  refine ⟨by rw [t.stk]; simp, t.phys, ?_, ?_⟩
  · intro x hx hs
    have hs' : x ≠ n ∧ x ∉ p.spilled := by simpa using hs
    exact t.good x (by simpa [hs'.1] using hx) hs'.2
  · intro x y hx0 hy0 hx hy hxn hyn hxs hys hap
    have hxs' : x ≠ n ∧ x ∉ p.spilled := by simpa using hxs
    have hys' : y ≠ n ∧ y ∉ p.spilled := by simpa using hys
    exact t.apart x y hx0 hy0 (sub x hx hxs'.1) (sub y hy hys'.1) (by simp [hxs'.1, hxn]) (by simp [hys'.1, hyn]) hxs'.2 hys'.2 hap

theorem Pt.loop (h : Inv e seen NoP NoE s) {pre ns : List Nat} {p p' : Paint} (t : Pt e s pre ns p) (hr : paintloop e s ns p = .ok p') :
    Pt e s s.stk [] p' := by
  induction ns generalizing pre p with
  | nil =>
    cases hr
    have : pre = s.stk := by rw [t.stk]; simp
    subst this
    exact t
  | cons n ns ih =>
    rw [paintloop] at hr
    obtain ⟨ws, h1, hr⟩ := Res.bind_eq_ok.1 hr
    split at hr
    · next c hc => exact ih (t.step h h1 hc) hr
    · exact ih t.spill hr

theorem Pt.start (h : Inv e seen NoP NoE s) : Pt e s [] s.stk ⟨col0, []⟩ := by
  refine ⟨rfl, fun x hx => by simp [col0, hx], fun x hx => (nomatch hx), ?_⟩
  intro x y hx0 hy0 hx hy _ _ _ _ hap
  have hx := hx.resolve_right (fun h => nomatch h)
  have hy := hy.resolve_right (fun h => nomatch h)
  simp only [col0, hx, hy, if_true]
  rcases hap.2 with k | k | k | k
  · exact absurd ⟨hx, hy⟩ (h.gr.np _ _ k)
  · have := h.ls.np x (by rw [(h.ls.hstk x).1 k.1]; simp); omega
  · have := h.ls.np y (by rw [(h.ls.hstk y).1 k.1]; simp); omega
  · exact k.2.2

/-- Everything that is known in the end. -/
theorem colour_inv {edges : List (Nat × Nat)} {fuel : Nat} {p : Paint} (hi : Input e edges seen) (hr : colour e edges seen fuel = .ok (s, p)) :
    Inv e seen NoP NoE s ∧ Pt e s s.stk [] p ∧ (∀ a b, Joined edges a b → Adds e a b → s.gb a b = true) ∧
    ∀ x, (x ∈ seen ∨ ∃ y, s.al y = some x) → Virtual x → s.al x = none → x ∈ s.stk := by
  unfold colour at hr
  obtain ⟨t, h1, hr⟩ := Res.bind_eq_ok.1 hr
  obtain ⟨q, h2, hr⟩ := Res.bind_eq_ok.1 hr
  cases hr
  obtain ⟨h3, h4⟩ := hi.start
  obtain ⟨h5, e1, e2, e3, e4⟩ := h3.loop hi.Movs h1
  refine ⟨h5, (Pt.start h5).loop h5 h2, ?_, ?_⟩
  · exact fun a b k1 k2 => loop_keep h1 a b ((h4 a b).2 ⟨k1, k2⟩)
  · intro x hx hv ha
    have k1 := h5.all x hv hx
    rw [h5.ls.hstk]
    cases hs : s.tag x
    · exact absurd hs k1
    · have := h5.ls.si2 x hs; rw [e1] at this; cases this
    · have := (h5.ls.hfr x).2 hs; rw [e3] at this; cases this
    · have := (h5.ls.hsp x).2 hs; rw [e4] at this; cases this
    · rfl
    · exact absurd ha ((h5.ls.co x).2 hs)

end

end Verif.Ra
