import Verif.Ra.Live

/-!
# The interference graph
-/

namespace Verif.Ra

open Verif

/-! ## Sparse sets -/

/-- The two arrays agree. -/
def Sp.Wf (s : Sp) : Prop := ∀ i, i < s.n → s.sparse (s.dense i) = i

theorem Sp.has_iff (s : Sp) (r : Nat) : s.has r = true ↔ s.sparse r < s.n ∧ s.dense (s.sparse r) = r := by simp [Sp.has]

theorem Sp.mem_elems {s : Sp} (h : s.Wf) (r : Nat) : r ∈ s.elems ↔ s.has r = true := by
  rw [s.has_iff]
  simp only [Sp.elems, List.mem_map, List.mem_range]
  constructor
  · rintro ⟨i, h1, h2⟩
    subst h2
    rw [h i h1]
    exact ⟨h1, rfl⟩
  · rintro ⟨h1, h2⟩
    exact ⟨_, h1, h2⟩

theorem Sp.put_spec {s : Sp} (h : s.Wf) (r : Nat) : (s.put r).Wf ∧ ∀ x, (s.put r).has x = true ↔ x = r ∨ s.has x = true := by
  unfold Sp.put
  split
  · next hr =>
    refine ⟨h, fun x => ⟨.inr, ?_⟩⟩
    rintro (rfl | hx)
    · exact hr
    · exact hx
  · next hr =>
    rw [s.has_iff] at hr
    constructor
    · intro i hi
      show upd s.sparse r s.n (upd s.dense s.n r i) = i
      have hi : i < s.n + 1 := hi
      by_cases e : i = s.n
      · simp [upd, e]
      · have e0 : upd s.dense s.n r i = s.dense i := by simp [upd, e]
        rw [e0]
        unfold upd
        have h1 := h i (by omega)
        by_cases e' : s.dense i = r
        · exfalso
          apply hr
          rw [e'] at h1
          rw [h1]
          exact ⟨by omega, e'⟩
        · rw [if_neg e']; exact h1
    · intro x
      rw [s.has_iff, Sp.has_iff]
      simp only [upd]
      by_cases e : x = r
      · subst e; simp
      · simp only [e, if_false, false_or]
        constructor
        · rintro ⟨h1, h2⟩
          by_cases e' : s.sparse x = s.n
          · rw [if_pos e'] at h2; exact absurd h2.symm e
          · rw [if_neg e'] at h2; exact ⟨by omega, h2⟩
        · rintro ⟨h1, h2⟩
          rw [if_neg (by omega)]; exact ⟨by omega, h2⟩

theorem Sp.del_spec {s : Sp} (h : s.Wf) (r : Nat) : (s.del r).Wf ∧ ∀ x, (s.del r).has x = true ↔ x ≠ r ∧ s.has x = true := by
  unfold Sp.del
  split
  · next hr =>
    rw [s.has_iff] at hr
    obtain ⟨h1, h2⟩ := hr
    have ht := h (s.n - 1) (by omega)
    constructor
    · intro i hi
      show upd s.sparse (s.dense (s.n - 1)) (s.sparse r) (upd s.dense (s.sparse r) (s.dense (s.n - 1)) i) = i
      have hi : i < s.n - 1 := hi
      by_cases e : i = s.sparse r
      · simp [upd, e]
      · have e0 : upd s.dense (s.sparse r) (s.dense (s.n - 1)) i = s.dense i := by simp [upd, e]
        rw [e0]
        unfold upd
        have h3 := h i (by omega)
        by_cases e' : s.dense i = s.dense (s.n - 1)
        · exfalso
          rw [e', ht] at h3
          omega
        · rw [if_neg e']; exact h3
    · intro x
      rw [s.has_iff, Sp.has_iff]
      show upd s.sparse (s.dense (s.n - 1)) (s.sparse r) x < s.n - 1 ∧
        upd s.dense (s.sparse r) (s.dense (s.n - 1)) (upd s.sparse (s.dense (s.n - 1)) (s.sparse r) x) = x ↔ _
      by_cases e : x = s.dense (s.n - 1)
      · subst e
        have e0 : upd s.sparse (s.dense (s.n - 1)) (s.sparse r) (s.dense (s.n - 1)) = s.sparse r := by simp [upd]
        have e1 : upd s.dense (s.sparse r) (s.dense (s.n - 1)) (s.sparse r) = s.dense (s.n - 1) := by simp [upd]
        rw [e0, e1, ht]
        constructor
        · rintro ⟨h3, _⟩
          refine ⟨?_, by omega, rfl⟩
          intro h4
          rw [h4] at ht
          omega
        · rintro ⟨h3, h4, h5⟩
          refine ⟨?_, rfl⟩
          have : s.sparse r ≠ s.n - 1 := by
            intro h6
            rw [h6] at h2
            exact h3 h2
          omega
      · have e0 : upd s.sparse (s.dense (s.n - 1)) (s.sparse r) x = s.sparse x := by simp [upd, e]
        rw [e0]
        unfold upd
        constructor
        · rintro ⟨h3, h4⟩
          by_cases e' : s.sparse x = s.sparse r
          · rw [if_pos e'] at h4; exact absurd h4.symm e
          · rw [if_neg e'] at h4
            refine ⟨?_, by omega, h4⟩
            rintro rfl; exact e' rfl
        · rintro ⟨h3, h4, h5⟩
          have e' : s.sparse x ≠ s.sparse r := by
            intro h6
            rw [h6, h2] at h5
            exact h3 h5.symm
          rw [if_neg e']
          refine ⟨?_, h5⟩
          have : s.sparse x ≠ s.n - 1 := by
            intro h6
            rw [h6] at h5
            exact e h5.symm
          omega
  · next hr =>
    refine ⟨h, fun x => ⟨fun hx => ⟨?_, hx⟩, fun hx => hx.2⟩⟩
    rintro rfl; exact hr hx

theorem Sp.puts_spec {s : Sp} (h : s.Wf) (l : List Nat) : (l.foldl Sp.put s).Wf ∧ ∀ x, (l.foldl Sp.put s).has x = true ↔ x ∈ l ∨ s.has x = true := by
  induction l generalizing s with
  | nil => exact ⟨h, by simp⟩
  | cons a l ih =>
    obtain ⟨h1, h2⟩ := Sp.put_spec h a
    obtain ⟨h3, h4⟩ := ih h1
    refine ⟨h3, fun x => (h4 x).trans ?_⟩
    rw [h2, List.mem_cons]; tauto

theorem Sp.dels_spec {s : Sp} (h : s.Wf) (l : List Nat) : (l.foldl Sp.del s).Wf ∧ ∀ x, (l.foldl Sp.del s).has x = true ↔ x ∉ l ∧ s.has x = true := by
  induction l generalizing s with
  | nil => exact ⟨h, by simp⟩
  | cons a l ih =>
    obtain ⟨h1, h2⟩ := Sp.del_spec h a
    obtain ⟨h3, h4⟩ := ih h1
    refine ⟨h3, fun x => (h4 x).trans ?_⟩
    rw [h2, List.mem_cons]; tauto

/-- The registers `movdel` removes for the register `u`. -/
def mvd (u x : Nat) : Prop := if u < Nreg then ∃ a, a < 7 ∧ rm (cm u) a = x else x = u

theorem movdel_spec {s : Sp} (h : s.Wf) (u : Nat) : (movdel s u).Wf ∧ ∀ x, (movdel s u).has x = true ↔ ¬ mvd u x ∧ s.has x = true := by
  unfold movdel mvd
  split
  · have e : ∀ (l : List Nat) (s : Sp), l.foldl (fun s a => s.del (rm (cm u) a)) s = (l.map fun a => rm (cm u) a).foldl Sp.del s := by
      intro l
      induction l with
      | nil => intro s; rfl
      | cons a l ih => intro s; exact ih _
    rw [e]
    obtain ⟨h1, h2⟩ := Sp.dels_spec h ((List.range 7).map fun a => rm (cm u) a)
    refine ⟨h1, fun x => (h2 x).trans ?_⟩
    simp
  · exact Sp.del_spec h u

theorem movdels_spec {s : Sp} (h : s.Wf) (l : List Nat) : (l.foldl movdel s).Wf ∧
    ∀ x, (l.foldl movdel s).has x = true ↔ (¬ ∃ u ∈ l, mvd u x) ∧ s.has x = true := by
  induction l generalizing s with
  | nil => exact ⟨h, by simp⟩
  | cons a l ih =>
    obtain ⟨h1, h2⟩ := movdel_spec h a
    obtain ⟨h3, h4⟩ := ih h1
    refine ⟨h3, fun x => (h4 x).trans ?_⟩
    rw [h2]
    simp only [List.mem_cons, exists_eq_or_imp, not_or]; tauto

/-! ## Instructions -/

/-- The register is set aside by a move. -/
def Aside (i : Insn) (x : Nat) : Prop := ismove i ≠ none ∧ ∃ u, Reads i u ∧ mvd u x

/-- What one instruction adds. -/
structure Step (i : Insn) (s : Sp) (b : Bld) (s' : Sp) (b' : Bld) : Prop where
  wf : s'.Wf
  has : ∀ x, s'.has x = true ↔ Reads i x ∨ (¬ Writes i x ∧ ¬ Aside i x ∧ s.has x = true)
  edge : ∀ d x, (d, x) ∈ b'.edges ↔ (d, x) ∈ b.edges ∨ (Writes i d ∧ (Writes i x ∨ (¬ Aside i x ∧ s.has x = true)))
  seen : ∀ x, x ∈ b'.seen ↔ x ∈ b.seen ∨ ((Reads i x ∨ Writes i x) ∧ Nreg ≤ x)
  mv : ∀ m, m ∈ b'.moves ↔ m ∈ b.moves ∨ ismove i = some m

theorem scan1_ok {i : Insn} (hf : i.Fits) (hp : i.Plain) {s : Sp} (h : s.Wf) (b : Bld) : ∃ s' b', scan1 i s b = .ok (s', b') ∧ Step i s b s' b' := by
  obtain ⟨u, u1, u2⟩ := uses_ok hf hp
  obtain ⟨d, d1, d2⟩ := defs_ok hf hp
  unfold scan1
  rw [u1, d1]
  simp only [Res.bind_ok]
  refine ⟨_, _, rfl, ?_⟩
  have key : ∃ s1, movset i u s = s1 ∧ s1.Wf ∧ ∀ x, s1.has x = true ↔ ¬ Aside i x ∧ s.has x = true := by
    refine ⟨_, rfl, ?_⟩
    unfold movset
    cases hm : ismove i with
    | none => exact ⟨h, fun x => by simp [Aside, hm]⟩
    | some m =>
      obtain ⟨h1, h2⟩ := movdels_spec h u
      refine ⟨h1, fun x => (h2 x).trans ?_⟩
      simp [Aside, hm, u2]
  obtain ⟨s1, e1, w1, m1⟩ := key
  rw [e1]
  obtain ⟨w2, m2⟩ := Sp.puts_spec w1 d
  obtain ⟨w3, m3⟩ := Sp.dels_spec w2 d
  obtain ⟨w4, m4⟩ := Sp.puts_spec w3 u
  refine ⟨w4, fun x => ?_, fun a x => ?_, fun x => ?_, fun m => ?_⟩
  · rw [m4, m3, m2, m1, u2, d2]; tauto
  · simp only [List.mem_append, List.mem_flatMap, List.mem_map, Prod.mk.injEq]
    constructor
    · rintro (h | ⟨d', k1, y, k2, rfl, rfl⟩)
      · exact .inl h
      · rw [Sp.mem_elems w2, m2, m1, d2] at k2
        exact .inr ⟨(d2 _).1 k1, k2⟩
    · rintro (h | ⟨k1, k2⟩)
      · exact .inl h
      · refine .inr ⟨a, (d2 _).2 k1, x, ?_, rfl, rfl⟩
        rw [Sp.mem_elems w2, m2, m1, d2]; exact k2
  · simp [u2, d2]; tauto
  · unfold movrec
    cases hm : ismove i with
    | none => simp
    | some m' => simp [eq_comm]

/-! ## Blocks -/

theorem scanblk_ok {l : List Insn} (hl : ∀ i ∈ l, i.Fits ∧ i.Plain) {s : Sp} (h : s.Wf) (b : Bld) :
    ∃ s' b', scanblk l s b = .ok (s', b') ∧ s'.Wf ∧
      (∀ x, s'.has x = true → Lv x (s.has x = true) l) ∧
      (∀ x, (∀ i ∈ l, Aside i x → Reads i x) → Lv x (s.has x = true) l → s'.has x = true) ∧
      (∀ d x, (d, x) ∈ b.edges → (d, x) ∈ b'.edges) ∧
      (∀ d x, (d, x) ∈ b'.edges → (d, x) ∈ b.edges ∨ ∃ j i, l[j]? = some i ∧ Writes i d ∧
        ((Writes i x ∨ (¬ Aside i x ∧ Lv x (s.has x = true) (l.drop (j + 1)))) ∧ ∀ d', Writes i d' → (d', x) ∈ b'.edges) ∧
        ∀ x', Writes i x' → (d, x') ∈ b'.edges) ∧
      (∀ j i d x, l[j]? = some i → Writes i d → (Writes i x ∨ (¬ Aside i x ∧ (∀ i ∈ l, Aside i x → Reads i x) ∧
        Lv x (s.has x = true) (l.drop (j + 1)))) → (d, x) ∈ b'.edges) ∧
      (∀ x, x ∈ b'.seen ↔ x ∈ b.seen ∨ ∃ i ∈ l, (Reads i x ∨ Writes i x) ∧ Nreg ≤ x) ∧
      ∀ m, m ∈ b'.moves ↔ m ∈ b.moves ∨ ∃ i ∈ l, ismove i = some m := by
  induction l with
  | nil => exact ⟨s, b, rfl, h, fun x hx => hx, fun x _ hx => hx, fun _ _ h => h, fun _ _ h => .inl h, by simp, by simp, by simp⟩
  | cons i l ih =>
    obtain ⟨s1, b1, h1, w1, k1, k2, k3, k4, k5, k6, k7⟩ := ih fun j hj => hl j (List.mem_cons_of_mem _ hj)
    obtain ⟨f1, f2⟩ := hl i List.mem_cons_self
    obtain ⟨s2, b2, h2, t⟩ := scan1_ok f1 f2 w1 b1
    refine ⟨s2, b2, by rw [scanblk, h1, Res.bind_ok]; exact h2, t.wf, ?_, ?_, ?_, ?_, ?_, ?_, ?_⟩
    · intro x hx
      rcases (t.has x).1 hx with hx | ⟨g1, g2, g3⟩
      · exact .inl hx
      · exact .inr ⟨g1, k1 x g3⟩
    · intro x hq hx
      rw [t.has]
      rcases hx with hx | ⟨g1, g2⟩
      · exact .inl hx
      · by_cases ha : Aside i x
        · exact .inl (hq i List.mem_cons_self ha)
        · exact .inr ⟨g1, ha, k2 x (fun j hj => hq j (List.mem_cons_of_mem _ hj)) g2⟩
    · exact fun d x hd => (t.edge d x).2 (.inl (k3 d x hd))
    · intro d x hd
      rcases (t.edge d x).1 hd with hd | ⟨g1, g2⟩
      · rcases k4 d x hd with g | ⟨j, i', g1, g2, ⟨g3, g4⟩, g5⟩
        · exact .inl g
        · exact .inr ⟨j + 1, i', g1, g2, ⟨g3, fun d' hd' => (t.edge d' x).2 (.inl (g4 d' hd'))⟩,
            fun x' hx' => (t.edge d x').2 (.inl (g5 x' hx'))⟩
      · refine .inr ⟨0, i, rfl, g1, ⟨?_, fun d' hd' => (t.edge d' x).2 (.inr ⟨hd', g2⟩)⟩,
          fun x' hx' => (t.edge d x').2 (.inr ⟨g1, .inl hx'⟩)⟩
        exact g2.imp id fun g => ⟨g.1, k1 x g.2⟩
    · intro j i' d x hj hd hx
      cases j with
      | zero =>
        simp only [List.getElem?_cons_zero, Option.some.injEq] at hj
        subst hj
        refine (t.edge d x).2 (.inr ⟨hd, hx.imp id fun g => ⟨g.1, ?_⟩⟩)
        exact k2 x (fun j hj => g.2.1 j (List.mem_cons_of_mem _ hj)) g.2.2
      | succ j =>
        refine (t.edge d x).2 (.inl (k5 j i' d x hj hd (hx.imp id fun g => ⟨g.1, fun j hj => g.2.1 j (List.mem_cons_of_mem _ hj), g.2.2⟩)))
    · intro x
      rw [t.seen, k6]
      simp only [List.mem_cons, exists_eq_or_imp]
      exact ⟨fun h => h.elim (fun h => h.elim .inl (fun h => .inr (.inr h))) (fun h => .inr (.inl h)),
        fun h => h.elim (fun h => .inl (.inl h)) (fun h => h.elim .inr (fun h => .inl (.inr h)))⟩
    · intro m
      rw [t.mv, k7]
      simp only [List.mem_cons, exists_eq_or_imp]
      exact ⟨fun h => h.elim (fun h => h.elim .inl (fun h => .inr (.inr h))) (fun h => .inr (.inl h)),
        fun h => h.elim (fun h => .inl (.inl h)) (fun h => h.elim .inr (fun h => .inl (.inr h)))⟩

/-! ## All blocks -/

theorem scanall_ok (out : Nat → List Nat) {c : Code} {k : Nat} (hc : ∀ b blk, At c b blk → ∀ i ∈ blk.il, i.Fits ∧ i.Plain) (s : Sp) (bl : Bld) :
    ∃ b', scanall out c k s bl = .ok b' ∧
      (∀ d x, (d, x) ∈ bl.edges → (d, x) ∈ b'.edges) ∧
      (∀ d x, (d, x) ∈ b'.edges → (d, x) ∈ bl.edges ∨ ∃ b blk j i, At c b blk ∧ blk.il[j]? = some i ∧ Writes i d ∧
        ((Writes i x ∨ (¬ Aside i x ∧ Lv x (x ∈ out (b + k)) (blk.il.drop (j + 1)))) ∧ ∀ d', Writes i d' → (d', x) ∈ b'.edges) ∧
        ∀ x', Writes i x' → (d, x') ∈ b'.edges) ∧
      (∀ b blk j i d x, At c b blk → blk.il[j]? = some i → Writes i d → (Writes i x ∨ (¬ Aside i x ∧ (∀ i ∈ blk.il, Aside i x → Reads i x) ∧
        Lv x (x ∈ out (b + k)) (blk.il.drop (j + 1)))) → (d, x) ∈ b'.edges) ∧
      (∀ x, x ∈ b'.seen ↔ x ∈ bl.seen ∨ ∃ b blk, At c b blk ∧ ∃ i ∈ blk.il, (Reads i x ∨ Writes i x) ∧ Nreg ≤ x) ∧
      ∀ m, m ∈ b'.moves ↔ m ∈ bl.moves ∨ ∃ b blk, At c b blk ∧ ∃ i ∈ blk.il, ismove i = some m := by
  induction c generalizing k s bl with
  | nil =>
    exact ⟨bl, rfl, fun _ _ h => h, fun _ _ h => .inl h, fun b blk j i d x h => by simp [At] at h, fun x => by simp [At], fun m => by simp [At]⟩
  | cons o c ih =>
    have hc' : ∀ b blk, At c b blk → ∀ i ∈ blk.il, i.Fits ∧ i.Plain := fun b blk hb => hc (b + 1) blk hb
    cases o with
    | none =>
      obtain ⟨b', h1, h2, h3, h4, h5, h6⟩ := ih (k := k + 1) hc' s bl
      refine ⟨b', h1, h2, ?_, ?_, ?_, ?_⟩
      · intro d x hd
        refine (h3 d x hd).imp id ?_
        rintro ⟨b, blk, j, i, g⟩
        refine ⟨b + 1, blk, j, i, ?_⟩
        rw [show b + 1 + k = b + (k + 1) by omega]; exact g
      · intro b blk j i d x hb
        cases b with
        | zero => simp [At] at hb
        | succ b =>
          rw [show b + 1 + k = b + (k + 1) by omega]
          exact h4 b blk j i d x hb
      · intro x
        rw [h5]
        constructor
        · rintro (g | ⟨b, blk, g⟩)
          · exact .inl g
          · exact .inr ⟨b + 1, blk, g⟩
        · rintro (g | ⟨b, blk, hb, g⟩)
          · exact .inl g
          · cases b with
            | zero => simp [At] at hb
            | succ b => exact .inr ⟨b, blk, hb, g⟩
      · intro x
        rw [h6]
        constructor
        · rintro (g | ⟨b, blk, g⟩)
          · exact .inl g
          · exact .inr ⟨b + 1, blk, g⟩
        · rintro (g | ⟨b, blk, hb, g⟩)
          · exact .inl g
          · cases b with
            | zero => simp [At] at hb
            | succ b => exact .inr ⟨b, blk, hb, g⟩
    | some o =>
      have w0 : Sp.Wf { s with n := 0 } := fun i hi => absurd hi (by simp)
      obtain ⟨w1, m1⟩ := Sp.puts_spec w0 (out k)
      have m1 : ∀ x, (List.foldl Sp.put { s with n := 0 } (out k)).has x = true ↔ x ∈ out k := by
        intro x; rw [m1]; simp [Sp.has]
      obtain ⟨s1, b1, g1, g2, g3, g4, g5, g6, g7, g8, g9⟩ := scanblk_ok (hc 0 o rfl) w1 bl
      simp only [m1] at g3 g4 g6 g7
      obtain ⟨b', h1, h2, h3, h4, h5, h6⟩ := ih (k := k + 1) hc' s1 b1
      refine ⟨b', by rw [scanall, g1, Res.bind_ok]; exact h1, fun d x hd => h2 d x (g5 d x hd), ?_, ?_, ?_, ?_⟩
      · intro d x hd
        rcases h3 d x hd with hd | ⟨b, blk, j, i, g⟩
        · rcases g6 d x hd with hd | ⟨j, i, q1, q2, ⟨q3, q4⟩, q5⟩
          · exact .inl hd
          · refine .inr ⟨0, o, j, i, rfl, q1, q2, ⟨?_, fun d' hd' => h2 _ _ (q4 d' hd')⟩, fun x' hx' => h2 _ _ (q5 x' hx')⟩
            rw [Nat.zero_add]; exact q3
        · right
          refine ⟨b + 1, blk, j, i, ?_⟩
          rw [show b + 1 + k = b + (k + 1) by omega]; exact g
      · intro b blk j i d x hb hj hd hx
        cases b with
        | zero =>
          simp only [At, List.getElem?_cons_zero, Option.some.injEq] at hb
          subst hb
          rw [Nat.zero_add] at hx
          exact h2 _ _ (g7 j i d x hj hd hx)
        | succ b =>
          rw [show b + 1 + k = b + (k + 1) by omega] at hx
          exact h4 b blk j i d x hb hj hd hx
      · intro x
        rw [h5, g8]
        constructor
        · rintro ((g | g) | ⟨b, blk, g⟩)
          · exact .inl g
          · exact .inr ⟨0, o, rfl, g⟩
          · exact .inr ⟨b + 1, blk, g⟩
        · rintro (g | ⟨b, blk, hb, g⟩)
          · exact .inl (.inl g)
          · cases b with
            | zero =>
              simp only [At, List.getElem?_cons_zero, Option.some.injEq] at hb
              subst hb
              exact .inl (.inr g)
            | succ b => exact .inr ⟨b, blk, hb, g⟩
      · intro x
        rw [h6, g9]
        constructor
        · rintro ((g | g) | ⟨b, blk, g⟩)
          · exact .inl g
          · exact .inr ⟨0, o, rfl, g⟩
          · exact .inr ⟨b + 1, blk, g⟩
        · rintro (g | ⟨b, blk, hb, g⟩)
          · exact .inl (.inl g)
          · cases b with
            | zero =>
              simp only [At, List.getElem?_cons_zero, Option.some.injEq] at hb
              subst hb
              exact .inl (.inr g)
            | succ b => exact .inr ⟨b, blk, hb, g⟩

end Verif.Ra
