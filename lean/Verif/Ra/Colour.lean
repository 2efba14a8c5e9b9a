import Verif.Ra.Model
import Verif.Ra.Spec

/-!
# The invariant of the colouring loop
-/

namespace Verif.Ra

open Verif

/-! ## Tables -/

theorem usable_row : ∀ p, Usable p → p < Nreg ∧ p ≠ 0 ∧ fixed p = false ∧ ∃ i, i < 7 ∧ rm (cm p) i = p := by
  have h : ∀ p, p < 102 → Usable p → p < Nreg ∧ p ≠ 0 ∧ fixed p = false ∧ ∃ i, i < 7 ∧ rm (cm p) i = p := by decide +kernel
  intro p hp
  exact h p (by unfold Usable at hp; omega) hp

theorem usable_overlap : ∀ p q, Usable p → Usable q → (Overlap p q ↔ cm p = cm q) := by
  have h : ∀ p, p < 102 → ∀ q, q < 102 → Usable p → Usable q → (Overlap p q ↔ cm p = cm q) := by decide +kernel
  intro p q hp hq
  exact h p (by unfold Usable at hp; omega) q (by unfold Usable at hq; omega) hp hq

theorem row_usable : ∀ i m, rm i m ≠ 0 → Usable (rm i m) ∧ cm (rm i m) = i ∧ physmode[rm i m]?.getD 0 = m := by
  have h : ∀ i, i < 30 → ∀ m, m < 7 → rm i m ≠ 0 → Usable (rm i m) ∧ cm (rm i m) = i ∧ physmode[rm i m]?.getD 0 = m := by
    decide +kernel
  have hr : ∀ l ∈ regmap, l.length = 7 := by decide
  intro i m hm
  have hi : i < 30 := by
    by_contra hc
    apply hm
    have h1 : regmap[i]? = none := List.getElem?_eq_none (show regmap.length ≤ i by simp [regmap]; omega)
    simp [rm, h1]
  have h2 : m < 7 := by
    by_contra hc
    apply hm
    have h1 : regmap[i]? = some regmap[i] := List.getElem?_eq_getElem (h := (show i < regmap.length by simp [regmap]; omega))
    have h3 := hr _ (List.mem_of_getElem? h1)
    simp only [rm, h1, Option.getD_some]
    rw [List.getElem?_eq_none (by omega)]; rfl
  exact h i hi m h2 hm

theorem overlap_cls : ∀ p q, p < Nreg → q < Nreg → Overlap p q → mclass (physmode[p]?.getD 0) = mclass (physmode[q]?.getD 0) := by
  have h : ∀ p, p < 102 → ∀ q, q < 102 → Overlap p q → mclass (physmode[p]?.getD 0) = mclass (physmode[q]?.getD 0) := by
    decide +kernel
  intro p q hp hq
  exact h p hp q hq

theorem Overlap.symm {a b : Nat} (h : Overlap a b) : Overlap b a := by obtain ⟨f, h1, h2⟩ := h; exact ⟨f, h2, h1⟩

theorem Overlap.trans {a b c : Nat} (h : Overlap a b) (h' : Overlap b c) : Overlap a c := by
  obtain ⟨f, h1, h2⟩ := h; obtain ⟨g, h3, h4⟩ := h'; rw [h2] at h3; cases h3; exact ⟨f, h1, h4⟩

theorem fixed_iff (r : Nat) : fixed r = true ↔ Fixed r := by simp [fixed, Fixed, or_assoc]

/-! ## Aliases -/

/-- `z` is the register `x` was merged into in the end. -/
inductive Root (al : Nat → Option Nat) : Nat → Nat → Prop
  | here {x : Nat} : al x = none → Root al x x
  | up {x y z : Nat} : al x = some y → Root al y z → Root al x z

theorem Root.none {al : Nat → Option Nat} {x z : Nat} (h : Root al x z) : al z = .none := by
  induction h with
  | here h => exact h
  | up _ _ ih => exact ih

theorem Root.det {al : Nat → Option Nat} {x z w : Nat} (h : Root al x z) (h' : Root al x w) : z = w := by
  induction h with
  | here h =>
    cases h' with
    | here _ => rfl
    | up h1 _ => rw [h] at h1; cases h1
  | up h1 h2 ih =>
    cases h' with
    | here h3 => rw [h1] at h3; cases h3
    | up h3 h4 => rw [h1] at h3; cases h3; exact ih h4

theorem Root.of_none {al : Nat → Option Nat} {x z : Nat} (h : al x = .none) (r : Root al x z) : z = x := r.det (.here h)

theorem Root.last {al : Nat → Option Nat} {x z : Nat} (h : Root al x z) : x = z ∨ ∃ y, al y = some z := by
  induction h with
  | here _ => exact .inl rfl
  | @up x y z h1 h2 ih =>
    rcases ih with h | h
    · subst h; exact .inr ⟨x, h1⟩
    · exact .inr h

theorem getalias_root {al : Nat → Option Nat} {f r z : Nat} (h : getalias al f r = .ok z) : Root al r z := by
  induction f generalizing r with
  | zero => simp [getalias] at h
  | succ f ih =>
    rw [getalias] at h
    split at h
    · next h1 => cases h; exact .here h1
    · next a h1 => exact .up h1 (ih h)

theorem root_upd {al : Nat → Option Nat} {u v x z : Nat} (hu : al u = none) (hv : al v = none) (hn : u ≠ v) (h : Root al x z) :
    Root (upd al v (some u)) x (if z = v then u else z) := by
  induction h with
  | @here x h =>
    by_cases hx : x = v
    · subst hx
      rw [if_pos rfl]
      exact .up (y := u) (by simp [upd]) (.here (by simp [upd, hn, hu]))
    · rw [if_neg hx]; exact .here (by simp [upd, hx, h])
  | @up x y z h1 h2 ih =>
    refine .up (y := y) ?_ ih
    have : x ≠ v := by intro h; subst h; rw [hv] at h1; cases h1
    simp [upd, this, h1]

/-- The facts about aliases. -/
structure Al (e : Env) (al : Nat → Option Nat) : Prop where
  np : ∀ x y, al x = some y → Nreg ≤ x
  lst : ∀ x y, al x = some y → y < Nreg → Usable y
  mode : ∀ x y, al x = some y → e.mode x = e.mode y
  acy : ∀ x, ∃ z, Root al x z

theorem Al.upd {e : Env} {al : Nat → Option Nat} (h : Al e al) {u v : Nat} (hu : al u = none) (hv : al v = none) (hn : u ≠ v)
    (hp : Nreg ≤ v) (hl : u < Nreg → Usable u) (hm : e.mode v = e.mode u) : Al e (upd al v (some u)) where
  np x y hx := by
    by_cases hxv : x = v
    · subst hxv; exact hp
    · simp [Ra.upd, hxv] at hx; exact h.np x y hx
  lst x y hx := by
    by_cases hxv : x = v
    · subst hxv; simp [Ra.upd] at hx; subst hx; exact hl
    · simp [Ra.upd, hxv] at hx; exact h.lst x y hx
  mode x y hx := by
    by_cases hxv : x = v
    · subst hxv; simp [Ra.upd] at hx; subst hx; exact hm
    · simp [Ra.upd, hxv] at hx; exact h.mode x y hx
  acy x := by
    obtain ⟨z, hz⟩ := h.acy x
    exact ⟨_, root_upd hu hv hn hz⟩

theorem root_back {e : Env} {al : Nat → Option Nat} (h : Al e al) {u v x z : Nat} (hu : al u = none) (hv : al v = none) (hn : u ≠ v)
    (hr : Root (upd al v (some u)) x z) : ∃ w, Root al x w ∧ z = if w = v then u else w := by
  obtain ⟨w, hw⟩ := h.acy x
  exact ⟨w, hw, hr.det (root_upd hu hv hn hw)⟩

theorem root_mode {e : Env} {al : Nat → Option Nat} (h : Al e al) {x z : Nat} (hr : Root al x z) : e.mode x = e.mode z := by
  induction hr with
  | here _ => rfl
  | up h1 _ ih => exact (h.mode _ _ h1).trans ih

/-! ## The graph -/

/-- The facts about the graph. -/
structure Gr (e : Env) (gb : Nat → Nat → Bool) (gadj : Nat → List Nat) : Prop where
  sym : ∀ a b, gb a b = true → gb b a = true
  irr : ∀ a, ¬ gb a a = true
  cls : ∀ a b, gb a b = true → e.cls a = e.cls b
  np : ∀ a b, gb a b = true → ¬ (a < Nreg ∧ b < Nreg)
  nf : ∀ a b, gb a b = true → fixed a = false
  adj : ∀ u v, Nreg ≤ u → (v ∈ gadj u ↔ gb u v = true)

/-- `addedge` accepts this edge. -/
def Adds (e : Env) (u v : Nat) : Prop := u ≠ v ∧ fixed u = false ∧ fixed v = false ∧ e.cls u = e.cls v ∧ ¬ (u < Nreg ∧ v < Nreg)

theorem addhalf_frame (s : S) (u v : Nat) : (addhalf s u v).gb = s.gb ∧ (addhalf s u v).al = s.al ∧ (addhalf s u v).tag = s.tag ∧
    (addhalf s u v).wsimp = s.wsimp ∧ (addhalf s u v).wfreeze = s.wfreeze ∧ (addhalf s u v).wspill = s.wspill ∧
    (addhalf s u v).stk = s.stk ∧ (addhalf s u v).wlmove = s.wlmove ∧ (addhalf s u v).mactive = s.mactive ∧
    (addhalf s u v).rmoves = s.rmoves := by
  unfold addhalf; split <;> simp

theorem addhalf_adj (s : S) (u v : Nat) (a b : Nat) (ha : Nreg ≤ a) : b ∈ (addhalf s u v).gadj a ↔ b ∈ s.gadj a ∨ (a = u ∧ b = v) := by
  unfold addhalf
  split
  · next h => constructor
              · exact .inl
              · rintro (h1 | ⟨h1, _⟩)
                · exact h1
                · omega
  · by_cases hau : a = u
    · subst hau; simp [upd]
    · simp [upd, hau]

theorem addedge_frame (e : Env) (s : S) (u v : Nat) : (addedge e s u v).al = s.al ∧ (addedge e s u v).tag = s.tag ∧
    (addedge e s u v).wsimp = s.wsimp ∧ (addedge e s u v).wfreeze = s.wfreeze ∧ (addedge e s u v).wspill = s.wspill ∧
    (addedge e s u v).stk = s.stk ∧ (addedge e s u v).wlmove = s.wlmove ∧ (addedge e s u v).mactive = s.mactive ∧
    (addedge e s u v).rmoves = s.rmoves := by
  unfold addedge
  split; · simp
  split; · simp
  split; · simp
  split; · simp
  · simp [addhalf_frame]

theorem addedge_gb {e : Env} {s : S} (g : Gr e s.gb s.gadj) (u v a b : Nat) : (addedge e s u v).gb a b = true ↔
    s.gb a b = true ∨ (Adds e u v ∧ ((a = u ∧ b = v) ∨ (a = v ∧ b = u))) := by
  unfold addedge Adds
  split
  · next h =>
    rcases h with h | h
    · subst h; simp
    · constructor
      · exact .inl
      · rintro (h1 | ⟨_, ⟨h1, h2⟩ | ⟨h1, h2⟩⟩)
        · exact h1
        · subst h1 h2; exact h
        · subst h1 h2; exact g.sym _ _ h
  · next h0 =>
    split
    · next h => simp only [Bool.or_eq_true] at h; rcases h with h | h <;> simp [h]
    · next h1 =>
      split
      · next h => simp [h]
      · next h2 =>
        split
        · next h => simp [h]
        · next h3 =>
          simp only [addhalf_frame, gbput, Bool.or_eq_true, Bool.and_eq_true, beq_iff_eq]
          simp only [not_or] at h0
          simp only [Bool.or_eq_true, not_or, Bool.not_eq_true] at h1
          simp only [not_not] at h2
          simp only [ne_eq, h0.1, not_false_eq_true, h1.1, h1.2, h2, h3, and_self, true_and, or_assoc]

theorem addedge_gr {e : Env} {s : S} (g : Gr e s.gb s.gadj) (u v : Nat) : Gr e (addedge e s u v).gb (addedge e s u v).gadj where
  sym a b h := by
    rw [addedge_gb g] at h ⊢
    rcases h with h | ⟨h, h1 | h1⟩
    · exact .inl (g.sym _ _ h)
    · exact .inr ⟨h, .inr ⟨h1.2, h1.1⟩⟩
    · exact .inr ⟨h, .inl ⟨h1.2, h1.1⟩⟩
  irr a h := by
    rw [addedge_gb g] at h
    rcases h with h | ⟨h, h1 | h1⟩
    · exact g.irr _ h
    · exact h.1 (h1.1.symm.trans h1.2)
    · exact h.1 (h1.2.symm.trans h1.1)
  cls a b h := by
    rw [addedge_gb g] at h
    rcases h with h | ⟨h, ⟨h1, h2⟩ | ⟨h1, h2⟩⟩
    · exact g.cls _ _ h
    · subst h1 h2; exact h.2.2.2.1
    · subst h1 h2; exact h.2.2.2.1.symm
  np a b h := by
    rw [addedge_gb g] at h
    rcases h with h | ⟨h, ⟨h1, h2⟩ | ⟨h1, h2⟩⟩
    · exact g.np _ _ h
    · subst h1 h2; exact h.2.2.2.2
    · subst h1 h2; exact fun h' => h.2.2.2.2 h'.symm
  nf a b h := by
    rw [addedge_gb g] at h
    rcases h with h | ⟨h, ⟨h1, h2⟩ | ⟨h1, h2⟩⟩
    · exact g.nf _ _ h
    · subst h1 h2; exact h.2.1
    · subst h1 h2; exact h.2.2.1
  adj a b ha := by
    rw [addedge_gb g]
    unfold addedge
    split
    · next h =>
      rw [g.adj a b ha]
      rcases h with h | h
      · subst h; simp [Adds]
      · constructor
        · exact .inl
        · rintro (h1 | ⟨_, ⟨h1, h2⟩ | ⟨h1, h2⟩⟩)
          · exact h1
          · subst h1 h2; exact h
          · subst h1 h2; exact g.sym _ _ h
    · next h0 =>
      split
      · next h => simp only [Bool.or_eq_true] at h; rw [g.adj a b ha]; rcases h with h | h <;> simp [h, Adds]
      · next h1 =>
        split
        · next h => rw [g.adj a b ha]; simp [h, Adds]
        · next h2 =>
          split
          · next h => rw [g.adj a b ha]; simp [h, Adds]
          · next h3 =>
            rw [addhalf_adj _ _ _ _ _ ha, addhalf_adj _ _ _ _ _ ha, g.adj a b ha]
            simp only [not_or] at h0
            simp only [Bool.or_eq_true, not_or, Bool.not_eq_true] at h1
            simp only [not_not] at h2
            simp only [Adds, ne_eq, h0.1, not_false_eq_true, h1.1, h1.2, h2, h3, and_self, true_and, or_assoc]

/-! ## Lists, moves and edges -/

/-- The facts about the work lists. -/
structure Ls (al : Nat → Option Nat) (tag : Nat → Tag) (si fr sp stk : List Nat) : Prop where
  si1 : ∀ x, x ∈ si → tag x = .simp ∨ tag x = .stk
  si2 : ∀ x, tag x = .simp → x ∈ si
  hfr : ∀ x, x ∈ fr ↔ tag x = .freeze
  hsp : ∀ x, x ∈ sp ↔ tag x = .spill
  hstk : ∀ x, x ∈ stk ↔ tag x = .stk
  fnd : fr.Nodup
  snd : sp.Nodup
  co : ∀ x, al x ≠ none ↔ tag x = .coal
  np : ∀ x, tag x ≠ .none → Nreg ≤ x

/-- The end `r` of the move `m` belongs to a register which is not simplified yet and knows of the move. -/
def Held (al : Nat → Option Nat) (rmoves : Nat → List Nat) (tag : Nat → Tag) (m r : Nat) : Prop :=
  ∃ z, Root al r z ∧ m ∈ rmoves z ∧ (z < Nreg ∨ tag z = .freeze ∨ tag z = .spill)

/-- All pending moves, except those in `Ex`, are held at both ends. -/
def Mv (e : Env) (al : Nat → Option Nat) (rmoves : Nat → List Nat) (tag : Nat → Tag) (wl ac : List Nat) (Ex : Nat → Prop) : Prop :=
  ∀ m, (m ∈ ac ∨ m ∈ wl) → ¬ Ex m → ∃ p, e.moves[m]? = some p ∧ Held al rmoves tag m p.1 ∧ Held al rmoves tag m p.2

/-- `x` has a neighbour which was merged into `y`. -/
def Sees (gb : Nat → Nat → Bool) (al : Nat → Option Nat) (x y : Nat) : Prop := ∃ n, gb x n = true ∧ Root al n y

/-- All occurrences of `x` are below all occurrences of `y`. -/
def Below (stk : List Nat) (x y : Nat) : Prop := ∀ pre post, stk = pre ++ y :: post → x ∉ pre

/-- `x` is painted after `y` and takes its colour into account. -/
def Ord (gb : Nat → Nat → Bool) (al : Nat → Option Nat) (si stk : List Nat) (x y : Nat) : Prop :=
  x ∈ stk ∧ x ∉ si ∧ Sees gb al x y ∧ Below stk x y

/-- Registers joined by an edge get different colours; `P`: pairs still to be joined. -/
def Ed (gb : Nat → Nat → Bool) (al : Nat → Option Nat) (si stk : List Nat) (P : Nat → Nat → Prop) : Prop :=
  ∀ a b x y, gb a b = true → Root al a x → Root al b y →
    x ≠ y ∧ (gb x y = true ∨ Ord gb al si stk x y ∨ Ord gb al si stk y x ∨ (x < Nreg ∧ y < Nreg ∧ ¬ Overlap x y) ∨ P x y)

/-- Registers (not merged into others) which interfere with a machine register interfere with a usable one of the same family,
now or when the pairs of `P` are joined. -/
def Cov (gb : Nat → Nat → Bool) (al : Nat → Option Nat) (P : Nat → Nat → Prop) : Prop :=
  ∀ a p, al a = none → gb a p = true → p < Nreg → ∃ q, Usable q ∧ Overlap p q ∧ (gb a q = true ∨ P a q)

/-- The invariant. -/
structure Inv (e : Env) (seen : List Nat) (P : Nat → Nat → Prop) (Ex : Nat → Prop) (s : S) : Prop where
  gr : Gr e s.gb s.gadj
  cov : Cov s.gb s.al P
  alr : Al e s.al
  ls : Ls s.al s.tag s.wsimp s.wfreeze s.wspill s.stk
  mv : Mv e s.al s.rmoves s.tag s.wlmove s.mactive Ex
  nd : (s.mactive ++ s.wlmove).Nodup
  ed : Ed s.gb s.al s.wsimp s.stk P
  all : ∀ r, Nreg ≤ r → (r ∈ seen ∨ ∃ y, s.al y = some r) → s.tag r ≠ .none

theorem Ord.mono {gb : Nat → Nat → Bool} {al : Nat → Option Nat} {si si' stk : List Nat} {x y : Nat}
    (h : ∀ z, z ∈ stk → z ∉ si → z ∉ si') (o : Ord gb al si stk x y) : Ord gb al si' stk x y :=
  ⟨o.1, h _ o.1 o.2.1, o.2.2⟩

theorem Ed.mono {gb : Nat → Nat → Bool} {al : Nat → Option Nat} {si si' stk : List Nat} {P : Nat → Nat → Prop}
    (h : ∀ z, z ∈ stk → z ∉ si → z ∉ si') (d : Ed gb al si stk P) : Ed gb al si' stk P := by
  intro a b x y h1 h2 h3
  obtain ⟨h4, h5⟩ := d a b x y h1 h2 h3
  refine ⟨h4, ?_⟩
  rcases h5 with h5 | h5 | h5 | h5 | h5
  · exact .inl h5
  · exact .inr (.inl (h5.mono h))
  · exact .inr (.inr (.inl (h5.mono h)))
  · exact .inr (.inr (.inr (.inl h5)))
  · exact .inr (.inr (.inr (.inr h5)))

/-! ## Steps of the lists -/

section
variable {e : Env} {seen : List Nat} {P : Nat → Nat → Prop} {Ex : Nat → Prop} {s : S}

theorem Inv.deg (h : Inv e seen P Ex s) (d : Nat → Int) : Inv e seen P Ex { s with degree := d } :=
  ⟨h.gr, h.cov, h.alr, h.ls, h.mv, h.nd, h.ed, h.all⟩

theorem Inv.enable1 (h : Inv e seen P Ex s) (m : Nat) : Inv e seen P Ex (enable1 s m) := by
  unfold Ra.enable1
  split
  · next hm =>
    have : m ∈ s.mactive := by simpa using hm
    refine ⟨h.gr, h.cov, h.alr, h.ls, ?_, ?_, h.ed, h.all⟩
    rotate_left
    · have h1 : (s.mactive ++ s.wlmove).Perm (s.mactive.erase m ++ m :: s.wlmove) :=
        (((List.perm_cons_erase this).append_right _).trans List.perm_middle.symm)
      exact h1.nodup_iff.1 h.nd
    intro k hk
    apply h.mv
    rcases hk with hk | hk
    · exact .inl (List.mem_of_mem_erase hk)
    · rcases List.mem_cons.1 hk with hk | hk
      · subst hk; exact .inl this
      · exact .inr hk
  · exact h

theorem Inv.enables (h : Inv e seen P Ex s) (l : List Nat) : Inv e seen P Ex (l.foldl Ra.enable1 s) := by
  induction l generalizing s with
  | nil => exact h
  | cons m l ih => exact ih (h.enable1 m)

theorem Inv.enablemove (h : Inv e seen P Ex s) (n : Nat) : Inv e seen P Ex (enablemove s n) := h.enables _

theorem Inv.enableadjs (h : Inv e seen P Ex s) (l : List Nat) : Inv e seen P Ex (l.foldl enableadj s) := by
  induction l generalizing s with
  | nil => exact h
  | cons m l ih =>
    apply ih
    unfold enableadj
    split
    · exact h.enablemove m
    · exact h

theorem not_moverelated (h : moverelated s l = false) : ∀ m, m ∈ s.rmoves l → m ∉ s.mactive ∧ m ∉ s.wlmove := by
  intro m hm
  simp only [moverelated, List.any_eq_false] at h
  have := h m hm
  simpa [on] using this

/-- The moves stay held if the tag of a register without moves changes. -/
theorem Mv.retag {tag' : Nat → Tag} {l : Nat} (h : Mv e s.al s.rmoves s.tag s.wlmove s.mactive Ex) (ht : ∀ x, x ≠ l → tag' x = s.tag x)
    (hl : (tag' l = .freeze ∨ tag' l = .spill) ∨ ∀ m, m ∈ s.rmoves l → ¬ Ex m → m ∉ s.mactive ∧ m ∉ s.wlmove) :
    Mv e s.al s.rmoves tag' s.wlmove s.mactive Ex := by
  intro m hm hx
  obtain ⟨p, h1, h2, h3⟩ := h m hm hx
  have key : ∀ r, Held s.al s.rmoves s.tag m r → Held s.al s.rmoves tag' m r := by
    rintro r ⟨z, h4, h5, h6⟩
    refine ⟨z, h4, h5, ?_⟩
    by_cases hz : z = l
    · subst hz
      rcases hl with hl | hl
      · exact .inr hl
      · have := hl m h5 hx
        rcases hm with hm | hm
        · exact absurd hm this.1
        · exact absurd hm this.2
    · rw [ht z hz]; exact h6
  exact ⟨p, h1, key _ h2, key _ h3⟩

theorem mem_erase_nodup {l : List Nat} (h : l.Nodup) (a x : Nat) : x ∈ l.erase a ↔ x ≠ a ∧ x ∈ l := by
  rw [h.mem_erase_iff]

/-- A register changes its list. -/
theorem Inv.relabel (h : Inv e seen P Ex s) {l : Nat} {tag' : Nat → Tag} {si' fr' sp' : List Nat} (hl : Ls s.al tag' si' fr' sp' s.stk)
    (ht : ∀ x, x ≠ l → tag' x = s.tag x) (hn : tag' l ≠ .none) (hs : ∀ x, x ∈ si' → x = l ∨ x ∈ s.wsimp) (hk : l ∉ s.stk)
    (hm : (tag' l = .freeze ∨ tag' l = .spill) ∨ ∀ m, m ∈ s.rmoves l → ¬ Ex m → m ∉ s.mactive ∧ m ∉ s.wlmove) :
    Inv e seen P Ex { s with tag := tag', wsimp := si', wfreeze := fr', wspill := sp' } := by
  refine ⟨h.gr, h.cov, h.alr, hl, h.mv.retag ht hm, h.nd, h.ed.mono ?_, ?_⟩
  · intro z h1 h2 h3
    rcases hs z h3 with h4 | h4
    · subst h4; exact hk h1
    · exact h2 h4
  · intro r hv hr
    by_cases hrl : r = l
    · subst hrl; exact hn
    · rw [show { s with tag := tag', wsimp := si', wfreeze := fr', wspill := sp' : S }.tag r = s.tag r from ht r hrl]
      exact h.all r hv hr

theorem Inv.spill_freeze (h : Inv e seen P Ex s) {l : Nat} (hl : l ∈ s.wspill) : Inv e seen P Ex (putfreeze (delspill s l) l) := by
  have ht := (h.ls.hsp l).1 hl
  have hnf : l ∉ s.wfreeze := by rw [h.ls.hfr, ht]; simp
  refine h.relabel (l := l) (tag' := upd (upd s.tag l .none) l .freeze) (si' := s.wsimp) (fr' := l :: s.wfreeze) (sp' := s.wspill.erase l)
    ?_ (by intro x hx; simp [upd, hx]) (by simp [upd]) (fun x hx => .inr hx) (by rw [h.ls.hstk, ht]; simp) (by simp [upd])
  obtain ⟨h1, h2, h3, h4, h5, h6, h7, h8, h9⟩ := h.ls
  constructor <;> try simp only [upd]
  · grind
  · grind
  · grind
  · intro x; rw [mem_erase_nodup h7]; grind
  · grind
  · exact List.nodup_cons.2 ⟨hnf, h6⟩
  · exact h7.erase l
  · grind
  · grind

theorem Inv.freeze_spill (h : Inv e seen P Ex s) {l : Nat} (hl : l ∈ s.wfreeze) : Inv e seen P Ex (putspill (delfreeze s l) l) := by
  have ht := (h.ls.hfr l).1 hl
  have hnf : l ∉ s.wspill := by rw [h.ls.hsp, ht]; simp
  refine h.relabel (l := l) (tag' := upd (upd s.tag l .none) l .spill) (si' := s.wsimp) (fr' := s.wfreeze.erase l) (sp' := l :: s.wspill)
    ?_ (by intro x hx; simp [upd, hx]) (by simp [upd]) (fun x hx => .inr hx) (by rw [h.ls.hstk, ht]; simp) (by simp [upd])
  obtain ⟨h1, h2, h3, h4, h5, h6, h7, h8, h9⟩ := h.ls
  constructor <;> try simp only [upd]
  · grind
  · grind
  · intro x; rw [mem_erase_nodup h6]; grind
  · grind
  · grind
  · exact h6.erase l
  · exact List.nodup_cons.2 ⟨hnf, h7⟩
  · grind
  · grind

theorem Inv.spill_simp (h : Inv e seen P Ex s) {l : Nat} (hl : l ∈ s.wspill)
    (hm : ∀ m, m ∈ s.rmoves l → ¬ Ex m → m ∉ s.mactive ∧ m ∉ s.wlmove) : Inv e seen P Ex (putsimp (delspill s l) l) := by
  have ht := (h.ls.hsp l).1 hl
  refine h.relabel (l := l) (tag' := upd (upd s.tag l .none) l .simp) (si' := l :: s.wsimp) (fr' := s.wfreeze) (sp' := s.wspill.erase l)
    ?_ (by intro x hx; simp [upd, hx]) (by simp [upd]) (fun x hx => List.mem_cons.1 hx) (by rw [h.ls.hstk, ht]; simp) (.inr hm)
  obtain ⟨h1, h2, h3, h4, h5, h6, h7, h8, h9⟩ := h.ls
  constructor <;> try simp only [upd]
  · grind
  · grind
  · grind
  · intro x; rw [mem_erase_nodup h7]; grind
  · grind
  · exact h6
  · exact h7.erase l
  · grind
  · grind

theorem Inv.freeze_simp (h : Inv e seen P Ex s) {l : Nat} (hl : l ∈ s.wfreeze)
    (hm : ∀ m, m ∈ s.rmoves l → ¬ Ex m → m ∉ s.mactive ∧ m ∉ s.wlmove) : Inv e seen P Ex (putsimp (delfreeze s l) l) := by
  have ht := (h.ls.hfr l).1 hl
  refine h.relabel (l := l) (tag' := upd (upd s.tag l .none) l .simp) (si' := l :: s.wsimp) (fr' := s.wfreeze.erase l) (sp' := s.wspill)
    ?_ (by intro x hx; simp [upd, hx]) (by simp [upd]) (fun x hx => List.mem_cons.1 hx) (by rw [h.ls.hstk, ht]; simp) (.inr hm)
  obtain ⟨h1, h2, h3, h4, h5, h6, h7, h8, h9⟩ := h.ls
  constructor <;> try simp only [upd]
  · grind
  · grind
  · intro x; rw [mem_erase_nodup h6]; grind
  · grind
  · grind
  · exact h6.erase l
  · exact h7
  · grind
  · grind

theorem Inv.pop_simp (h : Inv e seen P Ex s) {l : Nat} {w : List Nat} (hl : s.wfreeze = l :: w)
    (hm : ∀ m, m ∈ s.rmoves l → ¬ Ex m → m ∉ s.mactive ∧ m ∉ s.wlmove) : Inv e seen P Ex (putsimp { s with wfreeze := w } l) := by
  have ht := (h.ls.hfr l).1 (by rw [hl]; simp)
  refine h.relabel (l := l) (tag' := upd s.tag l .simp) (si' := l :: s.wsimp) (fr' := w) (sp' := s.wspill)
    ?_ (by intro x hx; simp [upd, hx]) (by simp [upd]) (fun x hx => List.mem_cons.1 hx) (by rw [h.ls.hstk, ht]; simp) (.inr hm)
  obtain ⟨h1, h2, h3, h4, h5, h6, h7, h8, h9⟩ := h.ls
  rw [hl] at h6 h3
  have h6' := List.nodup_cons.1 h6
  constructor <;> try simp only [upd]
  · grind
  · grind
  · grind
  · grind
  · grind
  · exact h6'.2
  · exact h7
  · grind
  · grind

theorem Inv.dup_simp (h : Inv e seen P Ex s) {l : Nat} (ht : s.tag l = .simp)
    (hm : ∀ m, m ∈ s.rmoves l → ¬ Ex m → m ∉ s.mactive ∧ m ∉ s.wlmove) : Inv e seen P Ex (putsimp s l) := by
  refine h.relabel (l := l) (tag' := upd s.tag l .simp) (si' := l :: s.wsimp) (fr' := s.wfreeze) (sp' := s.wspill)
    ?_ (by intro x hx; simp [upd, hx]) (by simp [upd]) (fun x hx => List.mem_cons.1 hx) (by rw [h.ls.hstk, ht]; simp) (.inr hm)
  obtain ⟨h1, h2, h3, h4, h5, h6, h7, h8, h9⟩ := h.ls
  constructor <;> try simp only [upd]
  · grind
  · grind
  · grind
  · grind
  · grind
  · exact h6
  · exact h7
  · grind
  · grind

/-- Taking a register off the graph. -/
theorem Inv.push (h : Inv e seen P Ex s) (hP : ∀ x y, ¬ P x y) {l : Nat} {w : List Nat} (hl : s.wsimp = l :: w) :
    Inv e seen P Ex { s with wsimp := w, stk := l :: s.stk, tag := upd s.tag l .stk } := by
  have ht := h.ls.si1 l (by rw [hl]; simp)
  refine ⟨h.gr, h.cov, h.alr, ?_, ?_, h.nd, ?_, ?_⟩
  · obtain ⟨h1, h2, h3, h4, h5, h6, h7, h8, h9⟩ := h.ls
    rw [hl] at h1 h2
    constructor <;> (try simp only [upd]) <;> grind
  · intro m hm hx
    obtain ⟨p, h1, h2, h3⟩ := h.mv m hm hx
    have key : ∀ r, Held s.al s.rmoves s.tag m r → Held s.al s.rmoves (upd s.tag l .stk) m r := by
      rintro r ⟨z, h4, h5, h6⟩
      refine ⟨z, h4, h5, ?_⟩
      by_cases hz : z = l
      · subst hz
        rcases h6 with h6 | h6 | h6
        · exact .inl h6
        · rw [h6] at ht; simp at ht
        · rw [h6] at ht; simp at ht
      · simpa [upd, hz] using h6
    exact ⟨p, h1, key _ h2, key _ h3⟩
  · have key : ∀ x y, Ord s.gb s.al s.wsimp s.stk x y → Ord s.gb s.al w (l :: s.stk) x y := by
      rintro x y ⟨h1, h2, h3, h4⟩
      rw [hl] at h2
      simp only [List.mem_cons, not_or] at h2
      refine ⟨List.mem_cons_of_mem _ h1, h2.2, h3, ?_⟩
      intro pre post hp
      cases pre with
      | nil => simp
      | cons a pre =>
        simp only [List.cons_append, List.cons.injEq] at hp
        have := h4 pre post hp.2
        rw [← hp.1]
        simp [h2.1, this]
    intro a b x y h1 h2 h3
    obtain ⟨h4, h5⟩ := h.ed a b x y h1 h2 h3
    refine ⟨h4, ?_⟩
    rcases h5 with h5 | h5 | h5 | h5 | h5
    · exact .inl h5
    · exact .inr (.inl (key _ _ h5))
    · exact .inr (.inr (.inl (key _ _ h5)))
    · exact .inr (.inr (.inr (.inl h5)))
    · exact absurd h5 (hP _ _)
  · intro r hv hr
    by_cases hrl : r = l
    · subst hrl; simp [upd]
    · simp [upd, hrl]; exact h.all r hv hr

theorem Inv.relist (h : Inv e seen P Ex s) {m : Nat} {s' : S} (hr : relist s m = .ok s') : Inv e seen P Ex s' := by
  unfold Ra.relist at hr
  split at hr
  · next hc =>
    have hc : m ∈ s.wspill := by simpa using hc
    cases hr
    split
    · exact h.spill_freeze hc
    · next hm =>
      refine h.spill_simp hc fun k hk _ => ?_
      exact not_moverelated (s := delspill s m) (by simpa using hm) k hk
  · split at hr
    · split at hr
      · cases hr; exact h
      · cases hr
    · split at hr
      · cases hr; exact h
      · cases hr

theorem Inv.decdegree (h : Inv e seen P Ex s) {m : Nat} {s' : S} (hr : decdegree e s m = .ok s') : Inv e seen P Ex s' := by
  unfold Ra.decdegree at hr
  simp only at hr
  split at hr
  · cases hr; exact h.deg _
  · exact Inv.relist (((h.deg _).enablemove m).enableadjs _) hr

theorem Inv.declist (h : Inv e seen P Ex s) {l : List Nat} {s' : S} (hr : declist e l s = .ok s') : Inv e seen P Ex s' := by
  induction l generalizing s with
  | nil => cases hr; exact h
  | cons m l ih =>
    rw [Ra.declist] at hr
    split at hr
    · obtain ⟨t, h1, h2⟩ := Res.bind_eq_ok.1 hr
      exact ih (h.decdegree h1) h2
    · exact ih h hr

theorem Inv.simpl (h : Inv e seen P Ex s) (hP : ∀ x y, ¬ P x y) {s' : S} (hr : simpl e s = .ok s') : Inv e seen P Ex s' := by
  unfold Ra.simpl at hr
  split at hr
  · cases hr; exact h
  · next hl => exact (h.push hP hl).declist hr

theorem Inv.wladd (h : Inv e seen P Ex s) {u : Nat} {s' : S} (hr : wladd e s u = .ok s') : Inv e seen P Ex s' := by
  unfold Ra.wladd at hr
  split at hr
  · cases hr; exact h
  · split at hr
    · cases hr; exact h
    · next hm =>
      have hm := not_moverelated (by simpa using hm)
      split at hr
      · cases hr; exact h
      · unfold wlmovesimp at hr
        split at hr
        · next ht =>
          cases hr
          split
          · next hc => exact h.freeze_simp (by simpa using hc) fun k hk _ => hm k hk
          · next hc =>
            rcases ht with ht | ht
            · rw [← h.ls.hfr] at ht; simp [ht] at hc
            · exact h.dup_simp ht fun k hk _ => hm k hk
        · cases hr

end

end Verif.Ra
