import Verif.Flow.Spec

/-! # Lemmas: the graph follows the list -/

namespace Verif.Flow

open Verif

/-- All blocks. -/
def B.bbs (s : B) : List (List Nd) := s.done ++ [s.cur]

/-- The state after `i` statements. -/
def St (P : List Stmt) (i : Nat) : B := ((number P).take i).foldl (B.step P.length) B.init

theorem number_get (P : List Stmt) (i : Nat) : (number P)[i]? = P[i]?.map fun s => (i, s) := by
  simp [number, Option.map_map, Function.comp_def]

theorem number_length (P : List Stmt) : (number P).length = P.length := by simp [number]

theorem St_succ {P : List Stmt} {i : Nat} {s : Stmt} (h : P[i]? = some s) : St P (i + 1) = B.step P.length (St P i) (i, s) := by
  have h1 : (number P)[i]? = some (i, s) := by rw [number_get, h]; rfl
  unfold St
  rw [List.take_add_one, h1]
  simp

theorem St_end (P : List Stmt) : St P P.length = blocks P := by
  unfold St blocks
  rw [List.take_of_length_le (by rw [number_length])]

theorem blocks_split (P : List Stmt) (i : Nat) : blocks P = ((number P).drop i).foldl (B.step P.length) (St P i) := by
  unfold blocks St
  rw [← List.foldl_append, List.take_append_drop]

theorem ext_foldl (f : Nat) : ∀ (l : List Nd) (s : B), ∃ x r, (l.foldl (B.step f) s).bbs = s.done ++ (s.cur ++ x) :: r := by
  intro l
  induction l with
  | nil => intro s; exact ⟨[], [], by simp [B.bbs]⟩
  | cons n l ih =>
    intro s
    rw [List.foldl_cons]
    obtain ⟨x, r, h⟩ := ih (B.step f s n)
    rw [h]
    unfold B.step
    split
    · unfold B.addlabel
      by_cases hf : s.falls <;> by_cases hc : s.cur = [] <;>
        simp [hf, hc]
    · unfold B.addnode
      split <;> simp

/-- The final block holding the position after `i` statements. -/
theorem ext_blocks (P : List Stmt) (i : Nat) : ∃ x r, (blocks P).bbs = (St P i).done ++ ((St P i).cur ++ x) :: r := by
  rw [blocks_split P i]; exact ext_foldl _ _ _

theorem find_step {f : Nat} {s : B} {n : Nd} {l : Nat} (h : n.2 ≠ .label l) : find (B.step f s n).lbl l = find s.lbl l := by
  unfold B.step
  split
  · rename_i l' hl
    have hne : l' ≠ l := by rintro rfl; exact h hl
    unfold B.addlabel
    by_cases hf : s.falls <;> by_cases hc : s.cur = [] <;> simp [hf, hc, find, hne]
  · unfold B.addnode
    split <;> rfl

theorem find_foldl {f : Nat} {l : Nat} : ∀ (ns : List Nd) (s : B), (∀ n ∈ ns, n.2 ≠ .label l) →
    find (ns.foldl (B.step f) s).lbl l = find s.lbl l := by
  intro ns
  induction ns with
  | nil => intros; rfl
  | cons n ns ih =>
    intro s h
    rw [List.foldl_cons, ih _ fun m hm => h m (List.mem_cons_of_mem _ hm), find_step (h n List.mem_cons_self)]

/-- What holds between statements. -/
structure Ok (s : B) : Prop where
  ne : s.done ≠ []
  hd : s.done[0]? = some []
  full : ∀ b blk, s.done[b]? = some blk → b = 0 ∨ ∃ i t, blk = i ++ [t] ∧ (∀ n ∈ i, n.2.ends = false) ∧ t.2.ends = true
  cur : ∀ n ∈ s.cur, n.2.ends = false
  jmp : s.falls = false → s.cur = []
  prev : ∀ p, s.prev = some p → p.ends = true → s.cur = []

theorem isjmp_ends {s : Stmt} (h : s.isjmp = true) : s.ends = true := by cases s <;> simp_all [Stmt.isjmp, Stmt.ends]

theorem ok_init : Ok B.init := by
  refine ⟨by simp [B.init], rfl, ?_, by simp [B.init], fun _ => rfl, fun _ _ _ => rfl⟩
  intro b blk h
  rcases b with _ | b
  · exact Or.inl rfl
  · simp [B.init] at h

theorem step_plain {f : Nat} {s : B} {n : Nd} (hl : ∀ l, n.2 ≠ .label l) (he : n.2.ends = false) :
    B.step f s n = ⟨s.done, s.cur ++ [n], s.lbl, some n.2⟩ := by
  unfold B.step
  split
  · rename_i l h; exact absurd h (hl l)
  · simp [B.addnode, he]

theorem step_ends {f : Nat} {s : B} {n : Nd} (he : n.2.ends = true) :
    B.step f s n = ⟨s.done ++ [s.cur ++ [n]], [], s.lbl, some n.2⟩ := by
  unfold B.step
  split
  · rename_i l h; rw [h] at he; simp [Stmt.ends, Stmt.noret] at he
  · simp [B.addnode, he]

theorem step_fall {f : Nat} {s : B} {i l : Nat} (hf : s.falls = true) :
    B.step f s (i, .label l) = ⟨s.done ++ [s.cur ++ [(f, .jmp l)]], [], (l, s.done.length + 1) :: s.lbl, some (.label l)⟩ := by
  simp [B.step, B.addlabel, hf]

theorem step_nofall {f : Nat} {s : B} {i l : Nat} (hf : s.falls = false) (hc : s.cur = []) :
    B.step f s (i, .label l) = ⟨s.done, [], (l, s.done.length) :: s.lbl, some (.label l)⟩ := by
  simp [B.step, B.addlabel, hf, hc]

theorem get_snoc {α : Type} {l : List α} {x y : α} {b : Nat} (h : (l ++ [x])[b]? = some y) : l[b]? = some y ∨ (b = l.length ∧ y = x) := by
  rw [List.getElem?_append] at h
  split at h
  · exact Or.inl h
  · rename_i hb
    rcases hk : b - l.length with _ | k
    · rw [hk] at h; simp at h; exact Or.inr ⟨by omega, h.symm⟩
    · rw [hk] at h; simp at h

theorem get0_snoc {α : Type} {l : List α} {x y : α} (h : l[0]? = some y) : (l ++ [x])[0]? = some y := by
  cases l <;> simp_all

theorem ok_step {f : Nat} {s : B} {n : Nd} (o : Ok s) : Ok (B.step f s n) := by
  by_cases hl : ∃ l, n.2 = .label l
  · obtain ⟨l, hl⟩ := hl
    obtain ⟨i, st⟩ := n
    simp only at hl; subst hl
    rcases hf : s.falls with _ | _
    · rw [step_nofall hf (o.jmp hf)]
      exact ⟨o.ne, o.hd, o.full, by simp, fun _ => rfl, fun _ _ _ => rfl⟩
    · rw [step_fall hf]
      refine ⟨by simp, get0_snoc o.hd, ?_, by simp, fun _ => rfl, fun _ _ _ => rfl⟩
      intro b blk h
      rcases get_snoc h with h | ⟨_, rfl⟩
      · exact o.full b blk h
      · exact Or.inr ⟨_, _, rfl, o.cur, rfl⟩
  · have hl' : ∀ l, n.2 ≠ .label l := fun l h => hl ⟨l, h⟩
    rcases he : n.2.ends with _ | _
    · rw [step_plain hl' he]
      refine ⟨o.ne, o.hd, o.full, ?_, ?_, ?_⟩
      · intro m hm
        rcases List.mem_append.1 hm with hm | hm
        · exact o.cur m hm
        · rw [List.mem_singleton.1 hm]; exact he
      · intro h
        simp only [B.falls, Bool.not_eq_false'] at h
        rw [isjmp_ends h] at he; cases he
      · intro p hp h
        simp only [Option.some.injEq] at hp; subst hp
        rw [h] at he; cases he
    · rw [step_ends he]
      refine ⟨by simp, get0_snoc o.hd, ?_, by simp, fun _ => rfl, fun _ _ _ => rfl⟩
      intro b blk h
      rcases get_snoc h with h | ⟨_, rfl⟩
      · exact o.full b blk h
      · exact Or.inr ⟨_, _, rfl, o.cur, he⟩

theorem ok_St (P : List Stmt) (i : Nat) : Ok (St P i) := by
  unfold St
  generalize (number P).take i = l
  have : ∀ (l : List Nd) (s : B), Ok s → Ok (l.foldl (B.step P.length) s) := by
    intro l
    induction l with
    | nil => intro s h; exact h
    | cons n l ih => intro s h; exact ih _ (ok_step h)
  exact this l _ ok_init

/-- Block and offset before statement `i`. -/
def pos (P : List Stmt) (i : Nat) : Nat × Nat := ((St P i).done.length, (St P i).cur.length)

/-- The nodes of block `b`. -/
def nodesOf (P : List Stmt) (b : Nat) : List Nd := ((blocks P).bbs[b]?).getD []

theorem nodesOf_pos (P : List Stmt) (i : Nat) : ∃ x, nodesOf P (pos P i).1 = (St P i).cur ++ x := by
  obtain ⟨x, r, h⟩ := ext_blocks P i
  exact ⟨x, by simp [nodesOf, h, pos]⟩

/-- A plain statement. -/
theorem at_plain {P : List Stmt} {i : Nat} {s : Stmt} (h : P[i]? = some s) (hl : ∀ l, s ≠ .label l) (he : s.ends = false) :
    (nodesOf P (pos P i).1)[(pos P i).2]? = some (i, s) ∧ pos P (i + 1) = ((pos P i).1, (pos P i).2 + 1) := by
  have h1 := St_succ h
  rw [step_plain hl he] at h1
  obtain ⟨x, hx⟩ := nodesOf_pos P (i + 1)
  have h2 : pos P (i + 1) = ((pos P i).1, (pos P i).2 + 1) := by simp [pos, h1]
  refine ⟨?_, h2⟩
  rw [h2, h1] at hx
  simp only at hx
  rw [hx]; simp [pos]

/-- The block which ends after `i` statements is complete. -/
theorem nodesOf_done {P : List Stmt} {i : Nat} {blk : List Nd} {d : List (List Nd)} (h : (St P i).done = d ++ [blk]) :
    nodesOf P d.length = blk := by
  obtain ⟨x, r, hx⟩ := ext_blocks P i
  simp [nodesOf, hx, h]

/-- A statement which ends its block. -/
theorem at_ends {P : List Stmt} {i : Nat} {s : Stmt} (h : P[i]? = some s) (he : s.ends = true) :
    (nodesOf P (pos P i).1)[(pos P i).2]? = some (i, s) ∧ (nodesOf P (pos P i).1).length = (pos P i).2 + 1 ∧
      pos P (i + 1) = ((pos P i).1 + 1, 0) := by
  have h1 := St_succ h
  rw [step_ends he] at h1
  have h3 : nodesOf P (pos P i).1 = (St P i).cur ++ [(i, s)] := nodesOf_done (i := i + 1) (by rw [h1])
  rw [h3]
  refine ⟨by simp [pos], by simp [pos], by simp [pos, h1]⟩

/-- A label. -/
theorem at_label {P : List Stmt} {i l : Nat} (h : P[i]? = some (.label l)) :
    (pos P (i + 1)).2 = 0 ∧ (pos P (i + 1) = pos P i ∨
      (nodesOf P (pos P i).1)[(pos P i).2]? = some (P.length, .jmp l) ∧ (nodesOf P (pos P i).1).length = (pos P i).2 + 1 ∧
        pos P (i + 1) = ((pos P i).1 + 1, 0)) := by
  have h1 := St_succ h
  rcases hf : (St P i).falls with _ | _
  · have hc := (ok_St P i).jmp hf
    rw [step_nofall hf hc] at h1
    refine ⟨by simp [pos, h1], Or.inl (by simp [pos, h1, hc])⟩
  · rw [step_fall hf] at h1
    have h3 : nodesOf P (pos P i).1 = (St P i).cur ++ [(P.length, .jmp l)] := nodesOf_done (i := i + 1) (by rw [h1])
    rw [h3]
    exact ⟨by simp [pos, h1], Or.inr ⟨by simp [pos], by simp [pos], by simp [pos, h1]⟩⟩

theorem find_label {P : List Stmt} {i l : Nat} (u : Unique P) (h : P[i]? = some (.label l)) :
    find (blocks P).lbl l = some (pos P (i + 1)).1 := by
  have h1 := St_succ h
  rw [blocks_split P (i + 1), find_foldl]
  · rcases hf : (St P i).falls with _ | _
    · rw [step_nofall hf ((ok_St P i).jmp hf)] at h1
      simp [pos, h1, find]
    · rw [step_fall hf] at h1
      simp [pos, h1, find]
  · intro n hn hl
    obtain ⟨k, hk⟩ := List.mem_iff_getElem?.1 hn
    rw [List.getElem?_drop, number_get] at hk
    rcases hp : P[i + 1 + k]? with _ | s
    · rw [hp] at hk; cases hk
    · rw [hp] at hk
      cases hk
      simp only at hl
      rw [hl] at hp
      have := u _ _ _ h hp
      omega

theorem pos_zero (P : List Stmt) : pos P 0 = (1, 0) := rfl

theorem pos_end (P : List Stmt) : (blocks P).bbs.length = (pos P P.length).1 + 1 ∧
    nodesOf P (pos P P.length).1 = (St P P.length).cur := by
  simp [pos, St_end, B.bbs, nodesOf]

theorem bbs_full (P : List Stmt) (b : Nat) : b = 0 ∨ b = (pos P P.length).1 ∨ (blocks P).bbs.length ≤ b ∨
    ∃ i t, nodesOf P b = i ++ [t] ∧ (∀ n ∈ i, n.2.ends = false) ∧ t.2.ends = true := by
  have o := ok_St P P.length
  rw [St_end] at o
  have hp : (pos P P.length).1 = (blocks P).done.length := by simp [pos, St_end]
  rcases Nat.lt_trichotomy b (blocks P).done.length with h | h | h
  · have h2 : (blocks P).done[b]? = some (nodesOf P b) := by
      simp [nodesOf, B.bbs, List.getElem?_append_left h, List.getElem?_eq_getElem h]
    rcases o.full b _ h2 with h | h
    · exact Or.inl h
    · exact Or.inr (Or.inr (Or.inr h))
  · exact Or.inr (Or.inl (by omega))
  · exact Or.inr (Or.inr (Or.inl (by simp [B.bbs]; omega)))

theorem nodesOf_zero (P : List Stmt) : nodesOf P 0 = [] := by
  have o := ok_St P P.length
  rw [St_end] at o
  unfold nodesOf B.bbs
  rw [get0_snoc o.hd]; rfl

/-! ## Trimming -/

/-- What `trim` needs of the graph it starts from: control cannot go on behind the node which ends a block, and does not
leave a block which stops. -/
structure Wf (g : G) : Prop where
  ends : ∀ b k s, ending (g.nodes b) = some (k, s) → k = (g.nodes b).length ∧ (s = true → g.succ b = [])

/-- What `trim` keeps: `h` is what is left of `g`. -/
structure Trimmed (g h : G) : Prop where
  n : h.n = g.n
  nodes : h.nodes = g.nodes
  succ : ∀ b, h.live b = true → h.succ b = g.succ b
  pred : ∀ b a, h.live b = true → (a ∈ h.pred b ↔ h.live a = true ∧ b ∈ g.succ a)
  closed : ∀ b s, h.live b = true → s ∈ g.succ b → h.live s = true
  zero : h.live 0 = true
  last : h.live (g.n - 1) = true
  lt : ∀ b, h.live b = true → b < g.n

theorem trimdead_id {g h : G} (w : Wf g) (t : Trimmed g h) (i : Nat) : trimdead h i = .ok h := by
  unfold trimdead
  split
  · rename_i hl
    split
    · rfl
    · rename_i k s he
      rw [t.nodes] at he
      obtain ⟨h1, h2⟩ := w.ends _ _ _ he
      have hs : noexitif s h i = Res.ok h := by
        unfold noexitif
        split
        · rename_i hs
          have h3 := t.succ i hl
          rw [h2 hs] at h3
          have h4 : upd h.succ i [] = h.succ := by
            funext j; unfold upd; split
            · rename_i e; rw [e, h3]
            · rfl
          simp [noexit, h3, h4]
        · rfl
      rw [hs, Res.bind_ok]
      have h4 : upd h.nodes i ((h.nodes i).take k) = h.nodes := by
        funext j; unfold upd; split
        · rename_i e; rw [e, List.take_of_length_le]; rw [t.nodes]; omega
        · rfl
      rw [h4]
  · rfl

/-- The number of blocks left. -/
def liveCount (h : G) : Nat := ((List.range h.n).filter h.live).length

theorem filter_upd_length (f : Nat → Bool) (i : Nat) (h : f i = true) : ∀ l : List Nat, i ∈ l →
    (l.filter (upd f i false)).length < (l.filter f).length := by
  have mono : ∀ l : List Nat, (l.filter (upd f i false)).length ≤ (l.filter f).length := by
    intro l
    induction l with
    | nil => simp
    | cons a l ih =>
      by_cases ha : a = i
      · have e1 : upd f i false a = false := by simp [upd, ha]
        have e2 : f a = true := by rw [ha]; exact h
        rw [List.filter_cons, List.filter_cons, e1, e2]; simp; omega
      · have e1 : upd f i false a = f a := by simp [upd, ha]
        rw [List.filter_cons, List.filter_cons, e1]
        split
        · simp; omega
        · exact ih
  intro l
  induction l with
  | nil => intro h; cases h
  | cons a l ih =>
    intro hm
    by_cases ha : a = i
    · subst ha
      have := mono l
      have e1 : upd f a false a = false := by simp [upd]
      rw [List.filter_cons, List.filter_cons, e1, h]; simp; omega
    · have := ih ((List.mem_cons.1 hm).resolve_left fun e => ha e.symm)
      have e1 : upd f i false a = f a := by simp [upd, ha]
      rw [List.filter_cons, List.filter_cons, e1]
      split
      · simp; omega
      · exact this

theorem trimone_ok {g h : G} (w : Wf g) (t : Trimmed g h) (i : Nat) : ∃ h' d, trimone h i = .ok (h', d) ∧ Trimmed g h' ∧
    (d = false → h' = h) ∧ (d = true → liveCount h' < liveCount h) := by
  unfold trimone
  split
  · exact ⟨h, false, rfl, t, fun _ => rfl, fun h => nomatch h⟩
  · rename_i hi
    rw [trimdead_id w t, Res.bind_ok]
    split
    · rename_i hc
      simp only [Bool.and_eq_true, List.isEmpty_iff] at hc
      obtain ⟨hl, hp⟩ := hc
      have h0 : i ∉ g.succ i := fun hm => by
        have := (t.pred i i hl).2 ⟨hl, hm⟩
        rw [hp] at this; cases this
      have hall : (h.succ i).all h.live = true := by
        rw [List.all_eq_true]; intro s hs
        rw [t.succ i hl] at hs
        exact t.closed i s hl hs
      have hd : delete h i = .ok { h with
          pred := fun s => if s ∈ h.succ i then (h.pred s).filter (· ≠ i) else h.pred s,
          live := upd h.live i false } := by
        unfold delete
        rw [if_neg hi]
        simp [hp, hall]
      rw [hd, Res.bind_ok]
      refine ⟨_, true, rfl, ?_, (fun h => nomatch h), fun _ => ?_⟩
      · have live : ∀ b, upd h.live i false b = true ↔ b ≠ i ∧ h.live b = true := by
          intro b; unfold upd; split <;> simp_all
        refine ⟨t.n, t.nodes, ?_, ?_, ?_, ?_, ?_, ?_⟩
        · intro b hb; exact t.succ b ((live b).1 hb).2
        · intro b a hb
          have hb' := ((live b).1 hb).2
          have := t.pred b a hb'
          simp only [live]
          split
          · rw [List.mem_filter, this]; simp; tauto
          · rename_i hn
            rw [this]
            constructor
            · rintro ⟨h1, h2⟩
              refine ⟨⟨?_, h1⟩, h2⟩
              rintro rfl
              rw [t.succ _ hl] at hn
              exact hn h2
            · rintro ⟨⟨_, h1⟩, h2⟩; exact ⟨h1, h2⟩
        · intro b s hb hs
          have hb' := ((live b).1 hb).2
          have hs' := t.closed b s hb' hs
          refine (live s).2 ⟨?_, hs'⟩
          rintro rfl
          have := (t.pred s b hl).2 ⟨hb', hs⟩
          rw [hp] at this; cases this
        · refine (live 0).2 ⟨fun e => hi (Or.inl e.symm), t.zero⟩
        · refine (live _).2 ⟨fun e => hi (Or.inr ?_), t.last⟩
          rw [t.n]; exact e.symm
        · intro b hb; exact t.lt b ((live b).1 hb).2
      · unfold liveCount
        refine filter_upd_length h.live i hl _ (List.mem_range.2 ?_)
        rw [t.n]; exact t.lt i hl
    · exact ⟨h, false, rfl, t, fun _ => rfl, fun h => nomatch h⟩

theorem trimround_ok {g : G} (w : Wf g) : ∀ (is : List Nat) (h : G), Trimmed g h → ∃ h' d, trimround is h = .ok (h', d) ∧ Trimmed g h' ∧
    liveCount h' ≤ liveCount h ∧ (d = true → liveCount h' < liveCount h) ∧
    (d = false → h' = h ∧ ∀ i ∈ is, i = 0 ∨ i = g.n - 1 ∨ h.live i = false ∨ h.pred i ≠ []) := by
  intro is
  induction is with
  | nil => intro h t; exact ⟨h, false, rfl, t, Nat.le_refl _, (fun h => nomatch h), fun _ => ⟨rfl, by simp⟩⟩
  | cons i is ih =>
    intro h t
    obtain ⟨h1, d1, e1, t1, k1, c1⟩ := trimone_ok w t i
    obtain ⟨h2, d2, e2, t2, l2, c2, k2⟩ := ih h1 t1
    have l1 : liveCount h1 ≤ liveCount h := by
      cases d1
      · rw [k1 rfl]
      · exact Nat.le_of_lt (c1 rfl)
    refine ⟨h2, d1 || d2, ?_, t2, by omega, ?_, ?_⟩
    · unfold trimround
      rw [e1, Res.bind_ok]
      simp only
      rw [e2, Res.bind_ok]
    · intro hd
      cases d1
      · have := c2 (by simpa using hd); omega
      · have := c1 rfl; omega
    · intro hd
      simp only [Bool.or_eq_false_iff] at hd
      obtain ⟨rfl, rfl⟩ := hd
      have := k1 rfl; subst this
      obtain ⟨rfl, hk⟩ := k2 rfl
      refine ⟨rfl, ?_⟩
      intro j hj
      rcases List.mem_cons.1 hj with rfl | hj
      · by_cases h0 : j = 0 ∨ j = g.n - 1
        · rcases h0 with h0 | h0
          · exact Or.inl h0
          · exact Or.inr (Or.inl h0)
        · unfold trimone at e1
          rw [if_neg (by rw [t.n]; exact h0), trimdead_id w t, Res.bind_ok] at e1
          split at e1
          · rename_i hc
            rw [Res.bind_eq_ok] at e1
            obtain ⟨_, _, e⟩ := e1
            cases e
          · rename_i hc
            simp only [Bool.and_eq_true, List.isEmpty_iff] at hc
            rcases hl : h2.live j with _ | _
            · exact Or.inr (Or.inr (Or.inl rfl))
            · exact Or.inr (Or.inr (Or.inr fun hp => hc ⟨hl, hp⟩))
      · exact hk j hj

/-- `trim` always ends, and leaves no block without predecessors. -/
theorem trim_ok {g : G} (w : Wf g) : ∀ (fuel : Nat) (h : G), Trimmed g h → liveCount h < fuel → ∃ h', trim fuel h = .ok h' ∧ Trimmed g h' ∧
    ∀ i, h'.live i = true → i = 0 ∨ i = g.n - 1 ∨ h'.pred i ≠ [] := by
  intro fuel
  induction fuel with
  | zero => intro h _ hl; omega
  | succ f ih =>
    intro h t hl
    obtain ⟨h1, d, e, t1, l, c, k⟩ := trimround_ok w (List.range h.n) h t
    unfold trim
    rw [e, Res.bind_ok]
    cases d with
    | false =>
      obtain ⟨rfl, hk⟩ := k rfl
      refine ⟨h1, rfl, t1, ?_⟩
      intro i hi
      have := hk i (List.mem_range.2 (by rw [t.n]; exact t.lt i hi))
      simpa [hi] using this
    | true =>
      have := c rfl
      exact ih h1 t1 (by omega)

/-! ## The raw graph -/

theorem lbl_step {f : Nat} {s : B} {n : Nd} (o : Ok s) (h : ∀ p ∈ s.lbl, p.2 ≤ s.done.length) :
    ∀ p ∈ (B.step f s n).lbl, p.2 ≤ (B.step f s n).done.length := by
  by_cases hl : ∃ l, n.2 = .label l
  · obtain ⟨l, hl⟩ := hl
    obtain ⟨i, st⟩ := n
    simp only at hl; subst hl
    rcases hf : s.falls with _ | _
    · rw [step_nofall hf (o.jmp hf)]
      intro p hp
      rcases List.mem_cons.1 hp with rfl | hp
      · exact Nat.le_refl _
      · exact h p hp
    · rw [step_fall hf]
      intro p hp
      rcases List.mem_cons.1 hp with rfl | hp
      · simp
      · have := h p hp; simp; omega
  · have hl' : ∀ l, n.2 ≠ .label l := fun l h => hl ⟨l, h⟩
    rcases he : n.2.ends with _ | _
    · rw [step_plain hl' he]; exact h
    · rw [step_ends he]
      intro p hp
      have := h p hp; simp; omega

theorem lbl_le (P : List Stmt) : ∀ p ∈ (blocks P).lbl, p.2 ≤ (blocks P).done.length := by
  unfold blocks
  have : ∀ (l : List Nd) (s : B), Ok s → (∀ p ∈ s.lbl, p.2 ≤ s.done.length) →
      ∀ p ∈ (l.foldl (B.step P.length) s).lbl, p.2 ≤ (l.foldl (B.step P.length) s).done.length := by
    intro l
    induction l with
    | nil => intro s _ h; exact h
    | cons n l ih => intro s o h; exact ih _ (ok_step o) (lbl_step o h)
  exact this _ _ ok_init (by simp [B.init])

theorem find_mem {t : List (Nat × Nat)} {l b : Nat} (h : find t l = some b) : ∃ p ∈ t, p.2 = b := by
  unfold find at h
  rcases hf : t.find? (fun p => decide (p.1 = l)) with _ | p
  · rw [hf] at h; cases h
  · rw [hf] at h; cases h
    exact ⟨p, List.mem_of_find?_eq_some hf, rfl⟩

theorem ending_plain {l : List Nd} (h : ∀ n ∈ l, n.2.ends = false) : ending l = none := by
  induction l with
  | nil => rfl
  | cons a l ih =>
    unfold ending
    rw [if_neg (by rw [h a List.mem_cons_self]; simp), ih fun n hn => h n (List.mem_cons_of_mem _ hn)]
    rfl

theorem ending_snoc {i : List Nd} {t : Nd} (h : ∀ n ∈ i, n.2.ends = false) (ht : t.2.ends = true) :
    ending (i ++ [t]) = some (i.length + 1, t.2.stops) := by
  induction i with
  | nil => simp [ending, ht]
  | cons a l ih =>
    rw [List.cons_append]
    unfold ending
    rw [if_neg (by rw [h a List.mem_cons_self]; simp), ih fun n hn => h n (List.mem_cons_of_mem _ hn)]
    rfl

theorem tgts_plain {t : List (Nat × Nat)} {e : Nat} {s : Stmt} (h : s.ends = false) : tgts t e s = [] := by
  cases s <;> simp_all [tgts, Stmt.labels, Stmt.ends]

/-- What the raw graph is. -/
structure Raw (P : List Stmt) (g : G) : Prop where
  n : g.n = (pos P P.length).1 + 2
  nodes : g.nodes = nodesOf P
  succ : ∀ b, b < g.n → g.succ b = succs (blocks P).lbl g.n (nodesOf P) b
  found : ∀ b n l, n ∈ nodesOf P b → l ∈ n.2.labels → ∃ c, find (blocks P).lbl l = some c

theorem raw_ok {P : List Stmt} {g : G} (h : rawcfg P = .ok g) : Raw P g ∧ Wf g ∧ Trimmed g g := by
  unfold rawcfg at h
  simp only at h
  split at h
  · rename_i hall
    rw [Res.ok.injEq] at h
    have hn : (blocks P).bbs.length = (pos P P.length).1 + 1 := (pos_end P).1
    have hn1 : 1 ≤ (pos P P.length).1 := by
      have := (ok_St P P.length).ne
      unfold pos
      rcases hd : (St P P.length).done with _ | _
      · exact absurd hd this
      · simp
    have hnd : (fun b => (((blocks P).done ++ [(blocks P).cur])[b]?).getD []) = nodesOf P := rfl
    have hl : ((blocks P).done ++ [(blocks P).cur]).length = (pos P P.length).1 + 1 := hn
    rw [hl] at h
    have r : Raw P g := by
      subst h
      refine ⟨rfl, rfl, ?_, ?_⟩
      · intro b hb
        simp only
        rw [if_pos hb]
        rfl
      · intro b n l hn hl
        unfold nodesOf at hn
        rcases hb : (blocks P).bbs[b]? with _ | blk
        · rw [hb] at hn; cases hn
        · rw [hb] at hn
          rw [List.all_eq_true] at hall
          have h1 := hall blk (List.mem_of_getElem? hb)
          rw [List.all_eq_true] at h1
          have h2 := h1 n hn
          rw [List.all_eq_true] at h2
          exact Option.isSome_iff_exists.1 (h2 l hl)
    have hge : ∀ b, g.n ≤ b → g.succ b = [] := by
      intro b hb; subst h; simp only at hb ⊢; rw [if_neg (by omega)]
    have hlive : ∀ b, g.live b = decide (b < g.n) := by intro b; subst h; rfl
    have hpred : ∀ b a, a ∈ g.pred b ↔ a < g.n ∧ b ∈ g.succ a := by
      intro b a; subst h; simp
    refine ⟨r, ⟨?_⟩, ⟨rfl, rfl, fun _ _ => rfl, ?_, ?_, ?_, ?_, ?_⟩⟩
    · intro b k s he
      rw [r.nodes] at he ⊢
      rcases bbs_full P b with rfl | rfl | hb | ⟨i, t, hb, hi, ht⟩
      · rw [nodesOf_zero] at he; cases he
      · rw [(pos_end P).2, ending_plain (ok_St P P.length).cur] at he; cases he
      · rw [nodesOf, List.getElem?_eq_none hb] at he; cases he
      · rw [hb, ending_snoc hi ht] at he
        simp only [Option.some.injEq, Prod.mk.injEq] at he
        obtain ⟨rfl, hs⟩ := he
        refine ⟨by rw [hb]; simp, ?_⟩
        intro hst
        rcases Nat.lt_or_ge b g.n with hlt | hlt
        · rw [r.succ b hlt]
          unfold succs
          have h0 : b ≠ 0 := by
            rintro rfl
            rw [nodesOf_zero] at hb
            simp at hb
          have h1 : b ≠ g.n - 2 := by
            intro e
            rw [e, r.n, Nat.add_sub_cancel, (pos_end P).2] at hb
            have := (ok_St P P.length).cur t (by rw [hb]; simp)
            rw [ht] at this; cases this
          rw [if_neg h0, if_neg h1, hb, List.flatMap_append]
          have h2 : i.flatMap (fun p => tgts (blocks P).lbl (g.n - 1) p.2) = [] := by
            rw [List.flatMap_eq_nil_iff]
            intro p hp; exact tgts_plain (hi p hp)
          rw [h2]
          rw [hst] at hs
          obtain ⟨q, st⟩ := t
          cases st <;> simp_all [tgts, Stmt.labels, Stmt.stops]
        · exact hge b hlt
    · intro b a hb
      rw [hpred, hlive]; simp
    · intro b s hb hs
      rw [hlive] at hb ⊢
      have hb := of_decide_eq_true hb
      rw [decide_eq_true_eq]
      rw [r.succ b hb] at hs
      have e := r.n
      unfold succs at hs
      simp only [List.mem_append] at hs
      rcases hs with (hs | hs) | hs
      · split at hs
        · simp at hs; omega
        · cases hs
      · split at hs
        · simp at hs; omega
        · cases hs
      · rw [List.mem_flatMap] at hs
        obtain ⟨nd, _, hs⟩ := hs
        unfold tgts at hs
        split at hs
        · simp at hs; omega
        · rw [List.mem_filterMap] at hs
          obtain ⟨l, _, hf⟩ := hs
          obtain ⟨p, hp, rfl⟩ := find_mem hf
          have h1 := lbl_le P p hp
          have h2 : (pos P P.length).1 = (blocks P).done.length := by simp [pos, St_end]
          omega
    · rw [hlive]; have := r.n; simp; omega
    · rw [hlive]; have := r.n; simp; omega
    · intro b hb; rw [hlive] at hb; exact of_decide_eq_true hb
  · cases h

theorem rawcfg_total (P : List Stmt) : rawcfg P = .abort ∨ ∃ g, rawcfg P = .ok g := by
  unfold rawcfg
  simp only
  split
  · exact Or.inr ⟨_, rfl⟩
  · exact Or.inl rfl

/-- The trimmed graph of a list. -/
structure Cfg (P : List Stmt) (h : G) : Prop where
  raw : ∃ g, Raw P g ∧ Wf g ∧ Trimmed g h
  preds : ∀ i, h.live i = true → i = 0 ∨ i = h.n - 1 ∨ h.pred i ≠ []

theorem mkcfg_ok {P : List Stmt} {g : G} (h : rawcfg P = .ok g) {fuel : Nat} (hf : g.n < fuel) : ∃ h, mkcfg fuel P = .ok h ∧ Cfg P h := by
  obtain ⟨r, w, t⟩ := raw_ok h
  obtain ⟨h', e, t', hp⟩ := trim_ok w fuel g t (by
    unfold liveCount
    have := List.length_filter_le g.live (List.range g.n)
    rw [List.length_range] at this
    omega)
  refine ⟨h', ?_, ⟨g, r, w, t'⟩, ?_⟩
  · unfold mkcfg; rw [h, Res.bind_ok, e]
  · rw [t'.n]; exact hp

theorem trim_mono {g : G} (w : Wf g) : ∀ (fuel : Nat) (h h' : G), Trimmed g h → trim fuel h = .ok h' → Trimmed g h' ∧
    ∀ i, h'.live i = true → i = 0 ∨ i = g.n - 1 ∨ h'.pred i ≠ [] := by
  intro fuel
  induction fuel with
  | zero => intro h h' _ e; cases e
  | succ f ih =>
    intro h h' t e
    obtain ⟨h1, d, e1, t1, l, c, k⟩ := trimround_ok w (List.range h.n) h t
    unfold trim at e
    rw [e1, Res.bind_ok] at e
    cases d with
    | false =>
      obtain ⟨rfl, hk⟩ := k rfl
      have e' : h1 = h' := by simpa using e
      subst e'
      refine ⟨t1, ?_⟩
      intro i hi
      have := hk i (List.mem_range.2 (by rw [t.n]; exact t.lt i hi))
      simpa [hi] using this
    | true => exact ih h1 h' t1 e

theorem mkcfg_cfg {P : List Stmt} {h : G} {fuel : Nat} (e : mkcfg fuel P = .ok h) : Cfg P h := by
  unfold mkcfg at e
  rw [Res.bind_eq_ok] at e
  obtain ⟨g, e1, e2⟩ := e
  obtain ⟨r, w, t⟩ := raw_ok e1
  obtain ⟨t', hp⟩ := trim_mono w fuel g h t e2
  exact ⟨⟨g, r, w, t'⟩, by rw [t'.n]; exact hp⟩

theorem done_le (P : List Stmt) : (pos P P.length).1 ≤ P.length + 1 := by
  have : ∀ i, i ≤ P.length → (pos P i).1 ≤ i + 1 := by
    intro i
    induction i with
    | zero => intro _; simp [pos_zero]
    | succ i ih =>
      intro h
      have h1 := ih (by omega)
      have hg : P[i]? = some P[i] := List.getElem?_eq_getElem (by omega)
      by_cases hl : ∃ l, P[i] = .label l
      · obtain ⟨l, hl⟩ := hl
        rw [hl] at hg
        rcases (at_label hg).2 with e | ⟨_, _, e⟩ <;> rw [e] <;> (try simp only) <;> omega
      · rcases he : P[i].ends with _ | _
        · rw [(at_plain hg (fun l h => hl ⟨l, h⟩) he).2]; omega
        · rw [(at_ends hg he).2.2]; simp only; omega
  exact this _ (Nat.le_refl _)

/-! ## Runs stay within the graph -/

theorem goesOn_iff {s : Stmt} : s.goesOn ↔ s.ends = false := by
  cases s with
  | ex e => cases e with
    | call nr f a => cases nr <;> simp [Stmt.goesOn, Stmt.ends, Stmt.noret]
    | _ => simp [Stmt.goesOn, Stmt.ends, Stmt.noret]
  | _ => simp [Stmt.goesOn, Stmt.ends, Stmt.noret]

theorem edge_of {P : List Stmt} {h : G} (c : Cfg P h) {b k l x : Nat} {n : Nd} (hb : h.live b = true) (hn : (nodesOf P b)[k]? = some n)
    (hl : l ∈ n.2.labels) (hx : find (blocks P).lbl l = some x) : x ∈ h.succ b := by
  obtain ⟨g, r, w, t⟩ := c.raw
  rw [t.succ b hb, r.succ b (t.lt b hb)]
  unfold succs
  refine List.mem_append_right _ (List.mem_flatMap.2 ⟨n, List.mem_of_getElem? hn, ?_⟩)
  unfold tgts
  split
  · rename_i e; rw [e] at hl; simp [Stmt.labels] at hl
  · exact List.mem_filterMap.2 ⟨l, hl, hx⟩

theorem succ_live {P : List Stmt} {h : G} (c : Cfg P h) {b s : Nat} (hb : h.live b = true) (hs : s ∈ h.succ b) : h.live s = true := by
  obtain ⟨g, r, w, t⟩ := c.raw
  rw [t.succ b hb] at hs
  exact t.closed b s hb hs

theorem pred_iff {P : List Stmt} {h : G} (c : Cfg P h) {b a : Nat} (hb : h.live b = true) :
    a ∈ h.pred b ↔ h.live a = true ∧ b ∈ h.succ a := by
  obtain ⟨g, r, w, t⟩ := c.raw
  rw [t.pred b a hb]
  constructor
  · rintro ⟨h1, h2⟩; exact ⟨h1, by rw [t.succ a h1]; exact h2⟩
  · rintro ⟨h1, h2⟩; exact ⟨h1, by rw [← t.succ a h1]; exact h2⟩

theorem one_live {P : List Stmt} {h : G} (c : Cfg P h) : h.live 1 = true := by
  obtain ⟨g, r, w, t⟩ := c.raw
  refine t.closed 0 1 t.zero ?_
  rw [r.succ 0 (t.lt 0 t.zero)]
  simp [succs]

/-- How the position moves with a step: within a block, not at all, or along an edge from the end of a block. -/
inductive Move (P : List Stmt) (h : G) (i : Nat) (s : Stmt) : Nat × Nat → Nat × Nat → Prop where
  | stay {p} : (∃ l, s = .label l) → Move P h i s p p
  | next {b k} : s.ends = false → (nodesOf P b)[k]? = some (i, s) → Move P h i s (b, k) (b, k + 1)
  | edge {b k x n} : (nodesOf P b)[k]? = some n → (nodesOf P b).length = k + 1 → n.2.isjmp = true → (n = (i, s) ∨ ∃ l, s = .label l ∧ n = (P.length, .jmp l)) →
      (h.live b = true → x ∈ h.succ b) → Move P h i s (b, k) (x, 0)

theorem move_of {P : List Stmt} {h : G} (c : Cfg P h) (u : Unique P) {i j : Nat} (hs : Step P i j) :
    ∃ s, P[i]? = some s ∧ Move P h i s (pos P i) (pos P j) := by
  have key : ∀ {s : Stmt} {l j : Nat}, P[i]? = some s → s.isjmp = true → l ∈ s.labels → P[j]? = some (.label l) →
      Move P h i s (pos P i) (pos P (j + 1)) := by
    intro s l j h1 h2 hl h3
    obtain ⟨a1, a2, a3⟩ := at_ends h1 (isjmp_ends h2)
    have h4 := find_label u h3
    have h5 := (at_label h3).1
    have : pos P (j + 1) = ((pos P (j + 1)).1, 0) := by rw [← h5]
    rw [this]
    exact Move.edge a1 a2 h2 (Or.inl rfl) fun hb => edge_of c hb a1 hl h4
  cases hs with
  | jmp h1 h2 => exact ⟨_, h1, key h1 rfl (by simp [Stmt.labels]) h2⟩
  | cjmp h1 hl h2 => exact ⟨_, h1, key h1 rfl (by simp [Stmt.labels, hl]) h2⟩
  | @next s h1 h2 =>
    refine ⟨s, h1, ?_⟩
    rw [goesOn_iff] at h2
    by_cases hl : ∃ l, s = .label l
    · obtain ⟨l, rfl⟩ := hl
      obtain ⟨h3, h4⟩ := at_label h1
      rcases h4 with h4 | ⟨a1, a2, a3⟩
      · rw [h4]; exact Move.stay ⟨l, rfl⟩
      · have h6 := find_label u h1
        rw [a3] at h6 ⊢
        exact Move.edge a1 a2 rfl (Or.inr ⟨l, rfl, rfl⟩) fun hb => edge_of c hb a1 (by simp [Stmt.labels]) h6
    · obtain ⟨a1, a2⟩ := at_plain h1 (fun l e => hl ⟨l, e⟩) h2
      rw [a2]
      exact Move.next h2 a1

theorem move_live {P : List Stmt} {h : G} (c : Cfg P h) {i : Nat} {s : Stmt} {p q : Nat × Nat} (m : Move P h i s p q)
    (hl : h.live p.1 = true) : h.live q.1 = true := by
  cases m with
  | stay => exact hl
  | next => exact hl
  | edge _ _ _ _ hx => exact succ_live c hl (hx hl)

theorem runs_live {P : List Stmt} {h : G} (c : Cfg P h) (u : Unique P) {i : Nat} (hr : Runs P 0 i) : h.live (pos P i).1 = true := by
  generalize h0 : 0 = z at hr
  induction hr with
  | refl => subst h0; exact one_live c
  | tail _ hs ih =>
    obtain ⟨s, _, m⟩ := move_of c u hs
    exact move_live c m ih

end Verif.Flow
