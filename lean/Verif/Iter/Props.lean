import Verif.Iter.Model
import Verif.Sort.Props
import Mathlib.Data.List.Permutation
import Mathlib.Data.Finset.Card

/-!
# C33, C66: iterators over slices
-/

namespace Verif.Iter
open Verif.Sort (Order Preorder' Nondecreasing)

/-! ## Specification -/

/-- A comparison function that is a total order. -/
structure TotalOrder {α : Type} (cmp : α → α → Order) : Prop where
  pre : Preorder' cmp
  total : ∀ a b, cmp a b ≠ .before → cmp b a ≠ .before → a = b

/-- The lexicographic order of sequences of one length. -/
inductive LexLt {α : Type} (cmp : α → α → Order) : List α → List α → Prop where
  | head {a b : α} {l m : List α} : cmp a b = .before → LexLt cmp (a :: l) (b :: m)
  | tail {a : α} {l m : List α} : LexLt cmp l m → LexLt cmp (a :: l) (a :: m)

/-- Nonincreasing sequences. -/
def Noninc {α : Type} (cmp : α → α → Order) (l : List α) : Prop := l.Pairwise fun a b => cmp a b ≠ .before

variable {α : Type} {cmp : α → α → Order}

/-! ## Orders of sequences -/

theorem irrefl (h : Preorder' cmp) (a : α) : cmp a a ≠ .before := fun e => h.asymm a a e e

theorem max_perm (h : Preorder' cmp) (s : List α) (hs : Noninc cmp s) : ∀ m, m.Perm s → ¬LexLt cmp s m := by
  induction s with
  | nil => intro m _ hl; cases hl
  | cons a s ih =>
    intro m hp hl
    cases hl with
    | @head _ b _ m hab =>
      have hb : b ∈ a :: s := hp.mem_iff.1 (by simp)
      rcases List.mem_cons.1 hb with rfl | hb
      · exact irrefl h _ hab
      · exact (List.pairwise_cons.1 hs).1 b hb hab
    | tail hl => exact ih (List.pairwise_cons.1 hs).2 _ ((List.perm_cons a).1 hp) hl

theorem min_perm (h : TotalOrder cmp) (s : List α) (hs : Nondecreasing cmp s) :
    ∀ m, m.Perm s → m = s ∨ LexLt cmp s m := by
  induction s with
  | nil => intro m hp; exact Or.inl hp.eq_nil
  | cons a s ih =>
    intro m hp
    cases m with
    | nil => have := hp.length_eq; simp at this
    | cons b m =>
      have hb : b ∈ a :: s := hp.mem_iff.1 (by simp)
      have hba : cmp b a ≠ .before := by
        rcases List.mem_cons.1 hb with rfl | hb
        · exact irrefl h.pre _
        · exact (List.pairwise_cons.1 hs).1 b hb
      by_cases hab : cmp a b = .before
      · exact Or.inr (.head hab)
      · have e := h.total a b hab hba
        subst e
        rcases ih (List.pairwise_cons.1 hs).2 m ((List.perm_cons a).1 hp) with e | e
        · exact Or.inl (by rw [e])
        · exact Or.inr (.tail e)

theorem lex_trans (h : Preorder' cmp) : ∀ {a b c : List α}, LexLt cmp a b → LexLt cmp b c → LexLt cmp a c := by
  have htr : ∀ x y z, cmp x y = .before → cmp y z = .before → cmp x z = .before := by
    intro x y z h1 h2
    by_contra h3
    exact h.trans x z y h3 (fun e => h.asymm y z h2 e) h1
  intro a
  induction a with
  | nil => intro b c h1; cases h1
  | cons x a ih =>
    intro b c h1 h2
    cases h1 with
    | head h1 =>
      cases h2 with
      | head h2 => exact .head (htr _ _ _ h1 h2)
      | tail h2 => exact .head h1
    | tail h1 =>
      cases h2 with
      | head h2 => exact .head h2
      | tail h2 => exact .tail (ih h1 h2)

theorem lex_irrefl (h : Preorder' cmp) (a : List α) : ¬LexLt cmp a a := by
  induction a with
  | nil => intro h; cases h
  | cons x a ih =>
    intro hl
    cases hl with
    | head hx => exact irrefl h x hx
    | tail hl => exact ih hl

theorem lex_append (p : List α) {l m : List α} (h : LexLt cmp l m) : LexLt cmp (p ++ l) (p ++ m) := by
  induction p with
  | nil => exact h
  | cons x p ih => exact .tail ih

/-- The successor of `p ++ x :: (u ++ z :: v)`. -/
theorem successor (h : TotalOrder cmp) (x z : α) (u v w : List α) (hx : cmp x z = .before)
    (hni : Noninc cmp (u ++ z :: v)) (hv : ∀ y ∈ v, cmp x y ≠ .before)
    (hw : w.Perm (u ++ x :: v)) (hnd : Nondecreasing cmp w) (p : List α) :
    LexLt cmp (p ++ x :: (u ++ z :: v)) (p ++ z :: w) ∧
    (p ++ z :: w).Perm (p ++ x :: (u ++ z :: v)) ∧
    ∀ m, m.Perm (p ++ x :: (u ++ z :: v)) → LexLt cmp (p ++ x :: (u ++ z :: v)) m →
      m = p ++ z :: w ∨ LexLt cmp (p ++ z :: w) m := by
  have hperm : (z :: w).Perm (x :: (u ++ z :: v)) := by
    refine (List.Perm.cons z hw).trans ?_
    refine (List.Perm.cons z List.perm_middle).trans ?_
    refine (List.Perm.swap x z _).trans ?_
    exact List.Perm.cons x List.perm_middle.symm
  refine ⟨lex_append p (.head hx), List.Perm.append_left p hperm, ?_⟩
  induction p with
  | nil =>
    intro m hm hl
    rw [List.nil_append] at hm hl ⊢
    cases hl with
    | @head _ b _ m hxb =>
      have hb : b ∈ x :: (u ++ z :: v) := hm.mem_iff.1 (by simp)
      have hbz : cmp b z ≠ .before := by
        rcases List.mem_cons.1 hb with rfl | hb
        · exact absurd hxb (irrefl h.pre _)
        · rw [List.mem_append] at hb
          rcases hb with hb | hb
          · exact (List.pairwise_append.1 hni).2.2 b hb z (by simp)
          · rcases List.mem_cons.1 hb with rfl | hb
            · exact irrefl h.pre _
            · exact absurd hxb (hv b hb)
      by_cases hzb : cmp z b = .before
      · exact Or.inr (.head hzb)
      · have e := h.total z b hzb hbz
        subst e
        have hm' : m.Perm w := (List.perm_cons z).1 (hm.trans hperm.symm)
        rcases min_perm h w hnd m hm' with e | e
        · exact Or.inl (by rw [e])
        · exact Or.inr (.tail e)
    | tail hl => exact absurd hl (max_perm h.pre _ hni _ ((List.perm_cons x).1 hm))
  | cons q p ih =>
    intro m hm hl
    cases hl with
    | head hq => exact Or.inr (.head hq)
    | tail hl =>
      rcases ih _ ((List.perm_cons q).1 hm) hl with e | e
      · exact Or.inl (by rw [e]; rfl)
      · exact Or.inr (.tail e)

/-! ## The loops -/

theorem pivot_spec (h : Preorder' cmp) (seq : List α) (j : Nat) : j < seq.length → Noninc cmp (seq.drop j) →
    (pivot cmp seq j = .ok none ∧ Noninc cmp seq) ∨
    ∃ p x y s, pivot cmp seq j = .ok (some p.length) ∧ seq = p ++ x :: y :: s ∧ cmp x y = .before ∧
      Noninc cmp (y :: s) := by
  induction j with
  | zero => intro _ hn; exact Or.inl ⟨rfl, by simpa using hn⟩
  | succ j ih =>
    intro hj hn
    have e1 : seq.drop j = seq[j] :: seq.drop (j + 1) := List.drop_eq_getElem_cons (by omega)
    have e2 : seq.drop (j + 1) = seq[j + 1] :: seq.drop (j + 2) := List.drop_eq_getElem_cons (by omega)
    rw [pivot, rdChk_ok (by omega), Res.bind_ok, rdChk_ok hj, Res.bind_ok]
    by_cases hc : cmp seq[j] seq[j + 1] = .before
    · rw [if_pos hc]
      refine Or.inr ⟨seq.take j, seq[j], seq[j + 1], seq.drop (j + 2), ?_, ?_, hc, e2 ▸ hn⟩
      · rw [List.length_take, Nat.min_eq_left (by omega)]; rfl
      · rw [← e2, ← e1, List.take_append_drop]
    · rw [if_neg hc]
      refine ih (by omega) ?_
      rw [e1]
      refine List.pairwise_cons.2 ⟨?_, hn⟩
      intro b hb
      rw [e2] at hb hn
      rcases List.mem_cons.1 hb with rfl | hb
      · exact hc
      · exact h.trans _ _ _ hc ((List.pairwise_cons.1 hn).1 b hb)

theorem findI_spec (p : List α) (x : α) (t : List α) (r : List α) (hx : ∃ y ∈ t, cmp x y = .before)
    (hr : ∀ y ∈ r, cmp x y ≠ .before) :
    ∃ u z v, t ++ r = u ++ z :: v ∧ cmp x z = .before ∧ (∀ y ∈ v, cmp x y ≠ .before) ∧
      findI cmp (p ++ x :: (t ++ r)) p.length (p.length + t.length) = .ok (p.length + 1 + u.length) := by
  obtain ⟨n, hn⟩ : ∃ n, t.length = n := ⟨_, rfl⟩
  induction n generalizing t r with
  | zero =>
    have : t = [] := List.eq_nil_of_length_eq_zero hn
    subst this
    obtain ⟨y, hy, _⟩ := hx
    simp at hy
  | succ n ih =>
    obtain ⟨t', c, rfl⟩ : ∃ t' c, t = t' ++ [c] := by
      rcases List.eq_nil_or_concat t with e | ⟨t', c, e⟩
      · subst e; simp at hn
      · exact ⟨t', c, by simpa using e⟩
    have hn' : t'.length = n := by simpa using hn
    rw [List.length_append, List.length_singleton, ← Nat.add_assoc, findI, rdChk_ok (by simp), Res.bind_ok,
      rdChk_ok (by simp; omega), Res.bind_ok]
    have g1 : (p ++ x :: (t' ++ [c] ++ r))[p.length]'(by simp) = x := by simp
    have g2 : (p ++ x :: (t' ++ [c] ++ r))[p.length + t'.length + 1]'(by simp; omega) = c := by
      rw [List.getElem_append_right (by omega)]
      simp only [show p.length + t'.length + 1 - p.length = t'.length + 1 by omega, List.getElem_cons_succ]
      rw [List.getElem_append_left (by simp), List.getElem_append_right (by omega)]
      simp
    rw [g1, g2]
    by_cases hc : cmp x c = .before
    · rw [if_pos hc]
      refine ⟨t', c, r, by simp, hc, hr, ?_⟩
      show Res.ok _ = _
      congr 1
      omega
    · rw [if_neg hc]
      have := ih t' ([c] ++ r) (by
        obtain ⟨y, hy, hxy⟩ := hx
        rw [List.mem_append, List.mem_singleton] at hy
        rcases hy with hy | rfl
        · exact ⟨y, hy, hxy⟩
        · exact absurd hxy hc) (by
        intro y hy
        rw [List.mem_append, List.mem_singleton] at hy
        rcases hy with rfl | hy
        · exact hc
        · exact hr y hy) hn'
      rw [← List.append_assoc] at this
      exact this

theorem swap_mid (p q r : List α) (a b : α) :
    Sort.swap (p ++ a :: (q ++ b :: r)) p.length (p.length + 1 + q.length) = .ok (p ++ b :: (q ++ a :: r)) ∧
    Sort.swap (p ++ a :: (q ++ b :: r)) (p.length + 1 + q.length) p.length = .ok (p ++ b :: (q ++ a :: r)) := by
  have g1 : (p ++ a :: (q ++ b :: r))[p.length]? = some a := by simp
  have g2 : (p ++ a :: (q ++ b :: r))[p.length + 1 + q.length]? = some b := by
    rw [List.getElem?_append_right (by omega), show p.length + 1 + q.length - p.length = q.length + 1 by omega,
      List.getElem?_cons_succ]
    simp
  have s1 : ∀ x y c, (p ++ x :: (q ++ y :: r)).set p.length c = p ++ c :: (q ++ y :: r) := by
    intro x y c
    rw [List.set_append_right (h := Nat.le_refl _), Nat.sub_self, List.set_cons_zero]
  have s2 : ∀ x y c, (p ++ x :: (q ++ y :: r)).set (p.length + 1 + q.length) c = p ++ x :: (q ++ c :: r) := by
    intro x y c
    rw [List.set_append_right (h := by omega), show p.length + 1 + q.length - p.length = q.length + 1 by omega,
      List.set_cons_succ, List.set_append_right (h := Nat.le_refl _), Nat.sub_self, List.set_cons_zero]
  have l1 : p.length < (p ++ a :: (q ++ b :: r)).length := by simp
  have l2 : p.length + 1 + q.length < (p ++ a :: (q ++ b :: r)).length := by simp; omega
  rw [List.getElem?_eq_getElem l1] at g1
  rw [List.getElem?_eq_getElem l2] at g2
  injection g1 with g1
  injection g2 with g2
  constructor
  · unfold Sort.swap
    rw [rdChk_ok l1, Res.bind_ok, rdChk_ok l2, Res.bind_ok, wrChk_ok _ l1, Res.bind_ok, g1, g2, s1,
      wrChk_ok _ (by simp; omega), s2]
  · unfold Sort.swap
    rw [rdChk_ok l2, Res.bind_ok, rdChk_ok l1, Res.bind_ok, wrChk_ok _ l2, Res.bind_ok, g1, g2, s2,
      wrChk_ok _ (by simp), s1]

theorem revLoop_spec (j : Nat) (fuel : Nat) : ∀ (A m B : List α) (i : Nat), A.length = j + i → B.length + 1 = i →
    m.length < fuel → revLoop j fuel (A ++ m ++ B) i = .ok (A ++ m.reverse ++ B) := by
  induction fuel with
  | zero => intro A m B i _ _ h; omega
  | succ fuel ih =>
    intro A m B i hA hB hm
    unfold revLoop
    match m, hm with
    | [], _ => rw [if_neg (by simp; omega)]; simp
    | [a], _ => rw [if_neg (by simp; omega)]; simp
    | a :: b :: m', hm =>
      obtain ⟨q, c, hq⟩ : ∃ q c, b :: m' = q ++ [c] := by
        rcases List.eq_nil_or_concat (b :: m') with e | ⟨q, c, e⟩
        · cases e
        · exact ⟨q, c, by simpa using e⟩
      rw [hq] at hm ⊢
      simp only [List.length_cons, List.length_append, List.length_nil] at hm
      rw [if_pos (by simp; omega)]
      have e1 : A ++ a :: (q ++ [c]) ++ B = A ++ a :: (q ++ c :: B) := by simp
      have e2 : (A ++ a :: (q ++ [c]) ++ B).length - i = A.length + 1 + q.length := by simp; omega
      rw [e2, e1, ← hA, (swap_mid A q B a c).1, Res.bind_ok]
      have e3 : A ++ c :: (q ++ a :: B) = (A ++ [c]) ++ q ++ (a :: B) := by simp
      rw [e3, ih (A ++ [c]) q (a :: B) (i + 1) (by simp; omega) (by simp; omega) (by omega)]
      simp

/-- One step of the iterator: the successor, or the end at the last arrangement. -/
theorem step_spec (h : TotalOrder cmp) (seq : List α) (hne : seq ≠ []) :
    (step cmp seq = .ok none ∧ ∀ m, m.Perm seq → ¬LexLt cmp seq m) ∨
    ∃ s, step cmp seq = .ok (some s) ∧ LexLt cmp seq s ∧ s.Perm seq ∧
      ∀ m, m.Perm seq → LexLt cmp seq m → m = s ∨ LexLt cmp s m := by
  have hpos : 0 < seq.length := List.length_pos_iff.2 hne
  unfold step
  rw [if_neg (by omega)]
  rcases pivot_spec h.pre seq (seq.length - 1) (by omega) (by
    rw [List.drop_eq_getElem_cons (by omega), List.drop_eq_nil_of_le (by omega)]
    exact List.pairwise_singleton _ _) with ⟨h1, h2⟩ | ⟨p, x, y, s, h1, h2, h3, h4⟩
  · rw [h1, Res.bind_ok]
    exact Or.inl ⟨rfl, fun m hm => max_perm h.pre seq h2 m hm⟩
  · rw [h1, Res.bind_ok]
    subst h2
    obtain ⟨u, z, v, e1, e2, e3, e4⟩ := findI_spec (cmp := cmp) p x (y :: s) [] ⟨y, by simp, h3⟩ (by simp)
    rw [List.append_nil] at e1 e4
    have hlen : (p ++ x :: y :: s).length - 1 = p.length + (y :: s).length := by simp
    simp only
    rw [hlen, e4, Res.bind_ok, e1, (swap_mid p u v x z).2, Res.bind_ok]
    rw [e1] at h4
    have hrev := revLoop_spec p.length ((p ++ z :: (u ++ x :: v)).length + 1) (p ++ [z]) (u ++ x :: v) [] 1
      (by simp) (by simp) (by simp; omega)
    have es : p ++ [z] ++ (u ++ x :: v) ++ [] = p ++ z :: (u ++ x :: v) := by simp
    rw [es] at hrev
    rw [hrev, Res.bind_ok]
    have er : p ++ [z] ++ (u ++ x :: v).reverse ++ [] = p ++ z :: (u ++ x :: v).reverse := by simp
    rw [er]
    have hnd : Nondecreasing cmp (u ++ x :: v).reverse := by
      unfold Nondecreasing
      rw [List.pairwise_reverse]
      rw [Noninc, List.pairwise_append, List.pairwise_cons] at h4
      obtain ⟨n1, ⟨n2, n3⟩, n4⟩ := h4
      rw [List.pairwise_append, List.pairwise_cons]
      refine ⟨n1, ⟨e3, n3⟩, ?_⟩
      intro a ha b hb
      rcases List.mem_cons.1 hb with rfl | hb
      · exact h.pre.trans _ _ _ (n4 a ha z (by simp)) (h.pre.asymm _ _ e2)
      · exact n4 a ha b (by simp [hb])
    obtain ⟨s1, s2, s3⟩ := successor h x z u v _ e2 h4 e3 (List.reverse_perm _) hnd p
    exact Or.inr ⟨_, rfl, s1, s2, s3⟩

theorem collect_none {σ β : Type} {next : σ → Res (Option (β × σ))} {s : σ} (h : next s = .ok none) (n : Nat) :
    collect next (n + 1) s = .ok [] := by
  rw [collect, h]; rfl

theorem collect_some {σ β : Type} {next : σ → Res (Option (β × σ))} {s t : σ} {v : β} {L : List β} {n : Nat}
    (h : next s = .ok (some (v, t))) (hL : collect next n t = .ok L) : collect next (n + 1) s = .ok (v :: L) := by
  rw [collect, h]
  simp only [Res.bind_ok, hL]
  rfl

open Classical in
theorem collect_perm (h : TotalOrder cmp) (fuel : Nat) : ∀ seq : List α, seq ≠ [] →
    (seq.permutations.toFinset.filter fun m => LexLt cmp seq m).card < fuel →
    ∃ L, collect (permNext cmp) fuel (false, seq) = .ok L ∧ (seq :: L).Pairwise (LexLt cmp) ∧
      ∀ m, m ∈ L ↔ m.Perm seq ∧ LexLt cmp seq m := by
  induction fuel with
  | zero => intro seq _ hc; omega
  | succ fuel ih =>
    intro seq hne hc
    rcases step_spec h seq hne with ⟨h1, h2⟩ | ⟨s, h1, h2, h3, h4⟩
    · refine ⟨[], collect_none (by rw [permNext, h1]; rfl) _, List.pairwise_singleton _ _, ?_⟩
      intro m
      constructor
      · intro hm; cases hm
      · rintro ⟨hm, hl⟩; exact absurd hl (h2 m hm)
    · have hsub : (s.permutations.toFinset.filter fun m => LexLt cmp s m) ⊂
          (seq.permutations.toFinset.filter fun m => LexLt cmp seq m) := by
        rw [Finset.ssubset_iff_of_subset]
        · refine ⟨s, ?_, ?_⟩
          · simp only [Finset.mem_filter, List.mem_toFinset, List.mem_permutations]
            exact ⟨h3, h2⟩
          · simp only [Finset.mem_filter, not_and]
            intro _
            exact lex_irrefl h.pre s
        · intro m
          simp only [Finset.mem_filter, List.mem_toFinset, List.mem_permutations]
          rintro ⟨m1, m2⟩
          exact ⟨m1.trans h3, lex_trans h.pre h2 m2⟩
      have hcard := Finset.card_lt_card hsub
      have hsne : s ≠ [] := by
        intro e; subst e
        exact hne h3.symm.eq_nil
      obtain ⟨L, l1, l2, l3⟩ := ih s hsne (by omega)
      refine ⟨s :: L, collect_some (by rw [permNext, h1]; rfl) l1, ?_, ?_⟩
      · refine List.pairwise_cons.2 ⟨?_, l2⟩
        intro m hm
        rcases List.mem_cons.1 hm with rfl | hm
        · exact h2
        · exact lex_trans h.pre h2 ((l3 m).1 hm).2
      · intro m
        constructor
        · intro hm
          rcases List.mem_cons.1 hm with rfl | hm
          · exact ⟨h3, h2⟩
          · exact ⟨((l3 m).1 hm).1.trans h3, lex_trans h.pre h2 ((l3 m).1 hm).2⟩
        · rintro ⟨m1, m2⟩
          rcases h4 m m1 m2 with e | e
          · rw [e]; simp
          · exact List.mem_cons_of_mem _ ((l3 m).2 ⟨m1.trans h3.symm, e⟩)

/-! ## C33 -/

/-- The full claim of C33: a loop over `byperm(a, cmp)` sees every arrangement of `a` exactly
once in lexicographic order, the sorted one first. -/
def PermClaim : Prop := ∀ (α : Type) (cmp : α → α → Order), TotalOrder cmp → ∀ a : List α,
  ∃ fuel L, byperm cmp fuel a = .ok L ∧ L.Pairwise (LexLt cmp) ∧ ∀ m, m ∈ L ↔ m.Perm a

/-- **C33 is violated** (perm.myr:45-51): for an empty slice the second call of the iterator
accesses `seq[-2]`. -/
theorem byperm_violated : ¬PermClaim := by
  intro h
  obtain ⟨fuel, L, h1, _⟩ := h Int Sort.numcmp ⟨Sort.numcmp_preorder, by
    intro a b h1 h2
    unfold Sort.numcmp at h1 h2
    split at h1
    · simp at h1
    · split at h2
      · simp at h2
      · omega⟩ []
  have e : byperm Sort.numcmp fuel ([] : List Int) = .spin ∨ byperm Sort.numcmp fuel ([] : List Int) = .abort := by
    match fuel with
    | 0 => exact Or.inl rfl
    | 1 => exact Or.inl rfl
    | n + 2 => exact Or.inr rfl
  rcases e with e | e <;> rw [e] at h1 <;> cases h1

/-- **C33, partial.**  Everything but the empty slice: with as many rounds as there are
arrangements and two more, the loop ends and has seen each arrangement exactly once in
lexicographic order; the first is the sorted one. -/
theorem byperm_partial (h : TotalOrder cmp) (a : List α) (hne : a ≠ []) :
    ∃ first L, byperm cmp (a.length.factorial + 2) a = .ok (first :: L) ∧ Nondecreasing cmp first ∧
      (first :: L).Pairwise (LexLt cmp) ∧ ∀ m, m ∈ first :: L ↔ m.Perm a := by
  classical
  obtain ⟨s, s1, s2, s3⟩ := Sort.sort_spec cmp h.pre a
  obtain ⟨t, t1, t2, t3⟩ := Sort.sort_spec cmp h.pre s
  have htp := t2.trans s2
  have htne : t ≠ [] := by
    intro e; subst e; exact hne htp.symm.eq_nil
  unfold byperm
  rw [s1, Res.bind_ok, t1, Res.bind_ok]
  obtain ⟨L, l1, l2, l3⟩ := collect_perm h (a.length.factorial + 1) t htne (by
    refine Nat.lt_succ_of_le ((Finset.card_filter_le _ _).trans ((List.toFinset_card_le _).trans ?_))
    rw [List.length_permutations, htp.length_eq])
  refine ⟨t, L, collect_some rfl l1, t3, l2, ?_⟩
  intro m
  constructor
  · intro hm
    rcases List.mem_cons.1 hm with rfl | hm
    · exact htp
    · exact ((l3 m).1 hm).1.trans htp
  · intro hm
    rcases min_perm h t t3 m (hm.trans htp.symm) with e | e
    · rw [e]; simp
    · exact List.mem_cons_of_mem _ ((l3 m).2 ⟨hm.trans htp.symm, e⟩)

/-- Three arrangements of 1, 2, 1. -/
example : byperm Sort.numcmp 8 [1, 2, 1] = .ok [[1, 1, 2], [1, 2, 1], [2, 1, 1]] := by decide +kernel

/-! ## C66 -/

/-- **C66, chunks.**  A loop over `bychunk(a, sz)` sees pieces that together are `a`, each
but the last of `max(sz, 1)` elements and the last not longer and not empty. -/
theorem bychunk_spec (a : List α) (sz : Int) :
    ∃ L, bychunk (a.length + 1) a sz = .ok L ∧ L.flatten = a ∧ (∀ c ∈ L, c ≠ [] ∧ (c.length : Int) ≤ max sz 1) ∧
      ∀ c ∈ L.dropLast, (c.length : Int) = max sz 1 := by
  have hb : 1 ≤ max sz 1 := by unfold max; split <;> omega
  unfold bychunk
  generalize max sz 1 = b at hb
  have key : ∀ (n idx : Nat), a.length - idx < n → ∃ L, collect (chunkNext a b) n (idx : Int) = .ok L ∧
      L.flatten = a.drop idx ∧ (∀ c ∈ L, c ≠ [] ∧ (c.length : Int) ≤ b) ∧ ∀ c ∈ L.dropLast, (c.length : Int) = b := by
    intro n
    induction n with
    | zero => intro idx h; omega
    | succ n ih =>
      intro idx hlt
      by_cases hend : a.length ≤ idx
      · refine ⟨[], collect_none ?_ _, by simp [List.drop_eq_nil_of_le hend], by simp, by simp⟩
        unfold chunkNext
        simp only
        rw [if_pos (Or.inr (by omega))]
      · have hnext : ∃ k : Nat, 0 < k ∧ idx + k ≤ a.length ∧ (k : Int) ≤ b ∧ (idx + k < a.length → (k : Int) = b) ∧
            chunkNext a b idx = .ok (some ((a.drop idx).take k, (idx : Int) + b)) := by
          unfold chunkNext min
          simp only
          by_cases hm : b < (a.length : Int) - idx
          · refine ⟨b.toNat, by omega, by omega, by omega, by omega, ?_⟩
            rw [if_pos hm, if_neg (by omega), slice_ok (by omega) (by omega), Res.bind_ok]
            rw [show (idx : Int).toNat = idx by omega, show ((idx : Int) + b).toNat = idx + b.toNat by omega,
              List.drop_take, Nat.add_sub_cancel_left]
            rfl
          · refine ⟨a.length - idx, by omega, by omega, by omega, by omega, ?_⟩
            rw [if_neg hm, if_neg (by omega), slice_ok (by omega) (by omega), Res.bind_ok]
            rw [show (idx : Int).toNat = idx by omega,
              show ((idx : Int) + ((a.length : Int) - idx)).toNat = a.length by omega, List.drop_take]
            rfl
        obtain ⟨k, k1, k2, k3, k4, k5⟩ := hnext
        obtain ⟨L, l1, l2, l3, l4⟩ := ih (idx + b.toNat) (by omega)
        have hidx : (idx : Int) + b = ((idx + b.toNat : Nat) : Int) := by omega
        rw [hidx] at k5
        refine ⟨_, collect_some k5 l1, ?_, ?_, ?_⟩
        · rw [List.flatten_cons, l2]
          have : a.drop (idx + b.toNat) = (a.drop idx).drop k := by
            rw [List.drop_drop]
            by_cases hlast : idx + k < a.length
            · have := k4 hlast
              congr 1; omega
            · rw [List.drop_eq_nil_of_le (by omega), List.drop_eq_nil_of_le (by omega)]
          rw [this, List.take_append_drop]
        · intro c hc
          rcases List.mem_cons.1 hc with rfl | hc
          · have hlen : ((a.drop idx).take k).length = k := by simp; omega
            refine ⟨fun e => ?_, by rw [hlen]; exact k3⟩
            rw [e] at hlen
            simp at hlen
            omega
          · exact l3 c hc
        · intro c hc
          have hlen : ((a.drop idx).take k).length = k := by simp; omega
          cases L with
          | nil => simp at hc
          | cons d L =>
            rw [List.dropLast_cons_of_ne_nil (by simp)] at hc
            rcases List.mem_cons.1 hc with rfl | hc
            · rw [hlen]
              apply k4
              by_contra hcon
              have hd := (l3 d (by simp)).1
              rw [List.drop_eq_nil_of_le (by omega)] at l2
              simp at l2
              exact hd l2.1
            · exact l4 c hc
  have := key (a.length + 1) 0 (by omega)
  simpa using this

/-- **C66, enumeration.** -/
theorem byenum_spec (a : List α) : byenum (a.length + 1) a = .ok ((List.range a.length).zip a) := by
  unfold byenum
  have key : ∀ (n idx : Nat), idx ≤ a.length → a.length - idx < n →
      collect (enumNext a) n idx = .ok ((List.range' idx (a.length - idx)).zip (a.drop idx)) := by
    intro n
    induction n with
    | zero => intro idx _ h; omega
    | succ n ih =>
      intro idx hle hlt
      by_cases he : idx = a.length
      · rw [collect_none (by rw [enumNext, if_pos he])]; subst he; simp
      · rw [collect_some (by rw [enumNext, if_neg he, rdChk_ok (by omega)]; rfl) (ih (idx + 1) (by omega) (by omega))]
        rw [List.drop_eq_getElem_cons (show idx < a.length by omega),
          show a.length - idx = (a.length - (idx + 1)) + 1 by omega, List.range'_succ, List.zip_cons_cons]
  have := key (a.length + 1) 0 (by omega) (by omega)
  rw [this, List.range_eq_range']
  simp

/-- **C66, references.**  Each element once, in order. -/
theorem byref_spec (a : List α) : byref (a.length + 1) a = .ok (List.range a.length) := by
  unfold byref
  have key : ∀ (n idx : Nat), idx ≤ a.length → a.length - idx < n →
      collect (refNext a) n idx = .ok (List.range' idx (a.length - idx)) := by
    intro n
    induction n with
    | zero => intro idx _ h; omega
    | succ n ih =>
      intro idx hle hlt
      by_cases he : idx = a.length
      · rw [collect_none (by rw [refNext, if_pos he])]; subst he; simp
      · rw [collect_some (by rw [refNext, if_neg he, rdChk_ok (by omega)]; rfl) (ih (idx + 1) (by omega) (by omega))]
        rw [show a.length - idx = (a.length - (idx + 1)) + 1 by omega, List.range'_succ]
  have := key (a.length + 1) 0 (by omega) (by omega)
  rw [this, List.range_eq_range']
  simp

/-- **C66, reversal.** -/
theorem byreverse_spec (a : List α) : byreverse (a.length + 1) a = .ok a.reverse := by
  unfold byreverse
  have key : ∀ (n idx : Nat), idx ≤ a.length → idx < n → collect (reverseNext a) n idx = .ok (a.take idx).reverse := by
    intro n
    induction n with
    | zero => intro idx _ h; omega
    | succ n ih =>
      intro idx hle hlt
      cases idx with
      | zero => rw [collect_none (by rw [reverseNext, if_neg (by omega)])]; simp
      | succ i =>
        rw [collect_some (v := a[i]) (t := i) (by rw [reverseNext, if_pos (by omega), rdChk_ok (by omega)]; rfl)
          (ih i (by omega) (by omega))]
        rw [List.take_add_one, List.getElem?_eq_getElem (by omega), List.reverse_append]
        rfl
  rw [key _ _ (Nat.le_refl _) (by omega), List.take_length]

/-- **C66, pairs.**  Up to the end of the shorter slice. -/
theorem byzip_spec {β : Type} (a : List α) (b : List β) : byzip (a.length + 1) a b = .ok (a.zip b) := by
  unfold byzip
  induction a generalizing b with
  | nil => rw [collect_none rfl]; simp
  | cons x a ih =>
    cases b with
    | nil => rw [collect_none rfl]; simp
    | cons y b =>
      rw [List.length_cons, collect_some (v := (x, y)) (t := (a, b)) ?_ (ih b), List.zip_cons_cons]
      unfold zipNext
      rw [if_pos (by simp)]
      show (do
        let s1 ← slice (x :: a) 1 (x :: a).length
        let s2 ← slice (y :: b) 1 (y :: b).length
        pure (some ((x, y), (s1, s2)))) = _
      rw [slice_suffix (by simp), Res.bind_ok, slice_suffix (by simp), Res.bind_ok]
      rfl

/-- Five elements in chunks of two; a chunk size of 0 counts as 1. -/
example : bychunk 6 [1, 2, 3, 4, 5] 2 = .ok [[1, 2], [3, 4], [5]] ∧ bychunk 3 [1, 2] 0 = .ok [[1], [2]] ∧
    byzip 3 [1, 2] [true, false, true] = .ok [(1, true), (2, false)] := by decide +kernel

end Verif.Iter
