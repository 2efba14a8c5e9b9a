import Verif.Sort.Spec

namespace Verif.Sort
variable {α : Type} {cmp : α → α → Order}

theorem swap_ok {sl : List α} {i j : Nat} (hi : i < sl.length) (hj : j < sl.length) :
    swap sl i j = .ok ((sl.set i sl[j]).set j sl[i]) := by
  unfold swap
  rw [rdChk_ok hi, Res.bind_ok, rdChk_ok hj, Res.bind_ok, wrChk_ok _ hi, Res.bind_ok,
    wrChk_ok _ (by simpa using hj)]

theorem set_set_perm {sl : List α} {i j : Nat} (hi : i < sl.length) (hj : j < sl.length) :
    ((sl.set i sl[j]).set j sl[i]).Perm sl := by
  exact List.set_set_perm hi hj

/-- `x` at `i` is not before what is at `j` (if anything). -/
def Dom (cmp : α → α → Order) (l : List α) (i j : Nat) : Prop :=
  ∀ x y, l[i]? = some x → l[j]? = some y → cmp x y ≠ .before

/-- The heap order holds at every node from `s` on, except possibly at `r`. -/
def HeapEx (cmp : α → α → Order) (l : List α) (s : Nat) (ex : Nat → Prop) : Prop :=
  ∀ i j, s ≤ i → ¬ ex i → (j = 2 * i + 1 ∨ j = 2 * i + 2) → Dom cmp l i j

theorem pick_spec (ho : Preorder' cmp) {sl : List α} {r : Nat} (h : 2 * r + 1 < sl.length) :
    ∃ s, pick cmp sl r = .ok s ∧ s < sl.length ∧ (s = r ∨ s = 2 * r + 1 ∨ s = 2 * r + 2) ∧
      Dom cmp sl s r ∧ Dom cmp sl s (2 * r + 1) ∧ Dom cmp sl s (2 * r + 2) := by
  have refl : ∀ i, Dom cmp sl i i := by
    intro i x y hx hy
    rw [hx] at hy; injection hy with hy; subst hy
    intro hb; exact ho.asymm _ _ hb hb
  have dom : ∀ {i j : Nat} (hi : i < sl.length) (hj : j < sl.length), cmp sl[i] sl[j] ≠ .before →
      Dom cmp sl i j := by
    intro i j hi hj h x y hx hy
    rw [List.getElem?_eq_getElem hi] at hx
    rw [List.getElem?_eq_getElem hj] at hy
    injection hx with hx; injection hy with hy
    subst hx hy; exact h
  have domb : ∀ {i j : Nat} (hi : i < sl.length) (hj : j < sl.length), cmp sl[i] sl[j] = .before →
      Dom cmp sl j i := fun hi hj h => dom hj hi (ho.asymm _ _ h)
  have tr : ∀ {i j k : Nat}, j < sl.length → Dom cmp sl i j → Dom cmp sl j k → Dom cmp sl i k := by
    intro i j k hj h1 h2 x z hx hz
    have e := List.getElem?_eq_getElem hj
    exact ho.trans _ _ _ (h1 _ _ hx e) (h2 _ _ e hz)
  have out : ∀ i j, sl.length ≤ j → Dom cmp sl i j := by
    intro i j hj x y _ hy
    rw [List.getElem?_eq_none hj] at hy; cases hy
  unfold pick
  have hr : r < sl.length := by omega
  simp only
  rw [rdChk_ok hr, Res.bind_ok, rdChk_ok h, Res.bind_ok]
  have step1 : ∃ s, (if cmp sl[r] sl[2 * r + 1] = .before then 2 * r + 1 else r) = s ∧ s < sl.length ∧
      (s = r ∨ s = 2 * r + 1) ∧ Dom cmp sl s r ∧ Dom cmp sl s (2 * r + 1) := by
    by_cases hb : cmp sl[r] sl[2 * r + 1] = .before
    · exact ⟨_, if_pos hb, h, Or.inr rfl, domb hr h hb, refl _⟩
    · exact ⟨_, if_neg hb, hr, Or.inl rfl, refl _, dom hr h hb⟩
  obtain ⟨s, hs, hsl, hs3, d1, d2⟩ := step1
  rw [hs]
  by_cases hd : 2 * r + 1 + 1 < sl.length
  · rw [if_pos hd, rdChk_ok hsl, Res.bind_ok, rdChk_ok hd, Res.bind_ok]
    by_cases hb : cmp sl[s] sl[2 * r + 1 + 1] = .before
    · rw [if_pos hb]
      have dd := domb hsl hd hb
      exact ⟨_, rfl, hd, Or.inr (Or.inr rfl), tr hsl dd d1, tr hsl dd d2, refl _⟩
    · rw [if_neg hb]
      exact ⟨_, rfl, hsl, hs3.imp_right Or.inl, d1, d2, dom hsl hd hb⟩
  · rw [if_neg hd]
    exact ⟨s, rfl, hsl, hs3.imp_right Or.inl, d1, d2, out _ _ (by omega)⟩

/-- Without any assumption on `cmp`. -/
theorem pick_total {sl : List α} {r : Nat} (h : 2 * r + 1 < sl.length) :
    ∃ s, pick cmp sl r = .ok s ∧ s < sl.length ∧ (s = r ∨ s = 2 * r + 1 ∨ s = 2 * r + 2) := by
  unfold pick
  have hr : r < sl.length := by omega
  simp only
  rw [rdChk_ok hr, Res.bind_ok, rdChk_ok h, Res.bind_ok]
  obtain ⟨s, hse, hs, hs3⟩ : ∃ s, (if cmp sl[r] sl[2 * r + 1] = .before then 2 * r + 1 else r) = s ∧
      s < sl.length ∧ (s = r ∨ s = 2 * r + 1) := ⟨_, rfl, by split <;> omega, by split <;> omega⟩
  rw [hse]
  by_cases hd : 2 * r + 1 + 1 < sl.length
  · rw [if_pos hd, rdChk_ok hs, Res.bind_ok, rdChk_ok hd, Res.bind_ok]
    exact ⟨_, rfl, by split <;> omega, by split <;> omega⟩
  · rw [if_neg hd]
    exact ⟨_, rfl, hs, by omega⟩

theorem siftdown_total (fuel : Nat) : ∀ (sl : List α) (r : Nat), sl.length - r < fuel →
    ∃ l, siftdown cmp fuel sl r = .ok l ∧ l.Perm sl := by
  induction fuel with
  | zero =>
    intro sl r h
    omega
  | succ n ih =>
    intro sl r h
    unfold siftdown
    split
    · next hc =>
      obtain ⟨s, h1, h2, h3⟩ := pick_total (cmp := cmp) hc
      rw [h1, Res.bind_ok]
      split
      · next hne =>
        rw [swap_ok (by omega) h2, Res.bind_ok]
        obtain ⟨l, g1, g2⟩ := ih ((sl.set r sl[s]).set s sl[r]) s (by simp; omega)
        exact ⟨l, g1, g2.trans (set_set_perm _ _)⟩
      · exact ⟨sl, rfl, List.Perm.refl _⟩
    · exact ⟨sl, rfl, List.Perm.refl _⟩

theorem set_set_get {sl : List α} {r s : Nat} (hr : r < sl.length) (hs : s < sl.length) (hne : s ≠ r) (i : Nat) :
    ((sl.set r sl[s]).set s sl[r])[i]? =
      if i = r then sl[s]? else if i = s then sl[r]? else sl[i]? := by
  grind

theorem siftdown_heap (ho : Preorder' cmp) (t : Nat) (fuel : Nat) : ∀ (sl : List α) (r : Nat),
    sl.length - r < fuel → t ≤ r → HeapEx cmp sl t (· = r) →
    (∀ p j, t ≤ p → (r = 2 * p + 1 ∨ r = 2 * p + 2) → (j = 2 * r + 1 ∨ j = 2 * r + 2) → Dom cmp sl p j) →
    ∃ l, siftdown cmp fuel sl r = .ok l ∧ l.Perm sl ∧ HeapEx cmp l t (fun _ => False) := by
  induction fuel with
  | zero => intro sl r h; omega
  | succ n ih =>
    intro sl r h htr hh hp
    have done : (Dom cmp sl r (2 * r + 1)) → Dom cmp sl r (2 * r + 2) → HeapEx cmp sl t (fun _ => False) := by
      intro d1 d2 i j hi _ hj
      by_cases he : i = r
      · subst he
        rcases hj with rfl | rfl
        · exact d1
        · exact d2
      · exact hh i j hi he hj
    unfold siftdown
    split
    · next hc =>
      obtain ⟨s, h1, h2, h3, d0, d1, d2⟩ := pick_spec ho hc
      rw [h1, Res.bind_ok]
      by_cases hne : s = r
      · subst hne
        rw [if_neg (by simp)]
        exact ⟨sl, rfl, List.Perm.refl _, done d1 d2⟩
      · rw [if_pos hne, swap_ok (by omega) h2, Res.bind_ok]
        have hr : r < sl.length := by omega
        have hg := set_set_get hr h2 hne
        have hdom : ∀ i j, Dom cmp ((sl.set r sl[s]).set s sl[r]) i j ↔
            Dom cmp sl (if i = r then s else if i = s then r else i) (if j = r then s else if j = s then r else j) := by
          intro i j
          unfold Dom
          rw [hg, hg]
          constructor
          · intro h x y hx hy
            exact h x y (by rw [← hx]; split; rfl; split <;> rfl) (by rw [← hy]; split; rfl; split <;> rfl)
          · intro h x y hx hy
            exact h x y (by rw [← hx]; split; rfl; split <;> rfl) (by rw [← hy]; split; rfl; split <;> rfl)
        have hsr : r < s := by omega
        obtain ⟨l, g1, g2, g3⟩ := ih ((sl.set r sl[s]).set s sl[r]) s (by simp; omega) (by omega)
          (by
            intro i j hi his hj
            simp only at his
            rw [hdom]
            by_cases hir : i = r
            · subst hir
              rw [if_pos rfl, if_neg (by omega)]
              split
              · exact d0
              · rcases hj with rfl | rfl
                · exact d1
                · exact d2
            · rw [if_neg hir, if_neg his]
              by_cases hjr : j = r
              · subst hjr
                rw [if_pos rfl]
                exact hp i s hi hj (by omega)
              · rw [if_neg hjr, if_neg (by omega)]
                exact hh i j hi hir hj)
          (by
            intro p j hpt hps hj
            have : p = r := by omega
            subst this
            rw [hdom, if_pos rfl, if_neg (by omega), if_neg (by omega)]
            exact hh s j (by omega) hne hj)
        exact ⟨l, g1, g2.trans (set_set_perm _ _), g3⟩
    · next hc =>
      refine ⟨sl, rfl, List.Perm.refl _, done ?_ ?_⟩ <;>
      · intro x y _ hy
        rw [List.getElem?_eq_none (by omega)] at hy; cases hy

theorem heapifyLoop_heap (ho : Preorder' cmp) (t : Nat) : ∀ (sl : List α), HeapEx cmp sl t (fun _ => False) →
    ∃ l, heapifyLoop cmp t sl = .ok l ∧ l.Perm sl ∧ HeapEx cmp l 0 (fun _ => False) := by
  induction t with
  | zero => intro sl h; exact ⟨sl, rfl, List.Perm.refl _, h⟩
  | succ t ih =>
    intro sl h
    unfold heapifyLoop
    obtain ⟨l, h1, h2, h3⟩ := siftdown_heap ho t (sl.length + 1) sl t (by omega) (Nat.le_refl _)
      (fun i j hi hne hj => h i j (by omega) (by simp) hj) (fun p j _ _ _ => by omega)
    rw [h1, Res.bind_ok]
    obtain ⟨l', g1, g2, g3⟩ := ih l h3
    exact ⟨l', g1, g2.trans h2, g3⟩

theorem heapify_heap (ho : Preorder' cmp) (sl : List α) :
    ∃ l, heapify cmp sl = .ok l ∧ l.Perm sl ∧ HeapEx cmp l 0 (fun _ => False) := by
  refine heapifyLoop_heap ho _ sl ?_
  intro i j hi _ hj x y _ hy
  rw [List.getElem?_eq_none (by omega)] at hy; cases hy

theorem heap_root (ho : Preorder' cmp) {l : List α} (h : HeapEx cmp l 0 (fun _ => False)) (i : Nat) :
    Dom cmp l 0 i := by
  induction i using Nat.strongRecOn with
  | _ i ih =>
    by_cases hi : i = 0
    · subst hi
      intro x y hx hy
      rw [hx] at hy; injection hy with hy; subst hy
      intro hb; exact ho.asymm _ _ hb hb
    · have h1 := ih ((i - 1) / 2) (by omega)
      have h2 := h ((i - 1) / 2) i (Nat.zero_le _) (by simp) (by omega)
      intro x z hx hz
      have hlt : i < l.length := by
        by_contra hc; rw [List.getElem?_eq_none (by omega)] at hz; cases hz
      have e := List.getElem?_eq_getElem (l := l) (i := (i - 1) / 2) (by omega)
      exact ho.trans _ _ _ (h1 _ _ hx e) (h2 _ _ e hz)

theorem heapifyLoop_total (t : Nat) : ∀ (sl : List α), ∃ l, heapifyLoop cmp t sl = .ok l ∧ l.Perm sl := by
  induction t with
  | zero => intro sl; exact ⟨sl, rfl, List.Perm.refl _⟩
  | succ t ih =>
    intro sl
    unfold heapifyLoop
    obtain ⟨l, h1, h2⟩ := siftdown_total (cmp := cmp) (sl.length + 1) sl t (by omega)
    rw [h1, Res.bind_ok]
    obtain ⟨l', g1, g2⟩ := ih l
    exact ⟨l', g1, g2.trans h2⟩

/-- The swap at the head of the loop of `sort`, on a list `x :: m ++ [y] ++ t`. -/
theorem swap_ends (x y : α) (m t : List α) :
    swap (x :: m ++ [y] ++ t) (m.length + 1) 0 = .ok (y :: m ++ [x] ++ t) := by
  rw [swap_ok (by simp) (by simp)]
  simp

theorem sortLoop_step (x y : α) (m t : List α) :
    sortLoop cmp (m.length + 1) (x :: m ++ [y] ++ t) =
      (siftdown cmp (m.length + 2) (y :: m) 0 >>= fun h => sortLoop cmp m.length (h ++ x :: t)) := by
  rw [sortLoop, swap_ends, Res.bind_ok, slice_prefix (by simp), Res.bind_ok]
  have e1 : (y :: m ++ [x] ++ t).take (m.length + 1) = y :: m := by
    rw [List.append_assoc, List.take_left' (by simp)]
  have e2 : (y :: m ++ [x] ++ t).drop (m.length + 1) = x :: t := by
    rw [List.append_assoc, List.drop_left' (by simp)]; rfl
  rw [e1, e2]
  simp

theorem ends_of_length {h : List α} {n : Nat} (hl : h.length = n + 2) :
    ∃ x m y, h = x :: m ++ [y] ∧ m.length = n := by
  cases h with
  | nil => simp at hl
  | cons x r =>
    have hr : r ≠ [] := by rintro rfl; simp at hl
    refine ⟨x, r.dropLast, r.getLast hr, ?_, by simp at hl ⊢; omega⟩
    simp [List.dropLast_concat_getLast]

theorem sortLoop_total (n : Nat) : ∀ (h t : List α), h.length = n + 1 →
    ∃ l, sortLoop cmp n (h ++ t) = .ok l ∧ l.Perm (h ++ t) := by
  induction n with
  | zero => intro h t _; exact ⟨_, rfl, List.Perm.refl _⟩
  | succ n ih =>
    intro h t hl
    obtain ⟨x, m, y, rfl, rfl⟩ := ends_of_length hl
    rw [sortLoop_step]
    obtain ⟨h', g1, g2⟩ := siftdown_total (cmp := cmp) (m.length + 2) (y :: m) 0 (by simp)
    rw [g1, Res.bind_ok]
    obtain ⟨l, k1, k2⟩ := ih h' (x :: t) (by rw [g2.length_eq]; simp)
    refine ⟨l, k1, k2.trans ?_⟩
    refine ((g2.append_right _).trans ?_)
    have : (y :: m ++ x :: t).Perm (x :: (y :: m) ++ t) := by simpa using List.perm_middle (l₁ := y :: m)
    refine this.trans ?_
    refine List.Perm.append_right t ?_
    exact (List.perm_append_singleton y m).symm.cons x

theorem sortLoop_sorted (ho : Preorder' cmp) (n : Nat) : ∀ (h t : List α), h.length = n + 1 →
    HeapEx cmp h 0 (fun _ => False) → Nondecreasing cmp t → (∀ a ∈ h, ∀ b ∈ t, cmp b a ≠ .before) →
    ∃ l, sortLoop cmp n (h ++ t) = .ok l ∧ Nondecreasing cmp l := by
  induction n with
  | zero =>
    intro h t hl _ ht hht
    obtain ⟨a, rfl⟩ := List.length_eq_one_iff.1 hl
    exact ⟨_, rfl, List.pairwise_cons.2 ⟨fun b hb => hht a (by simp) b hb, ht⟩⟩
  | succ n ih =>
    intro h t hl hh ht hht
    obtain ⟨x, m, y, rfl, rfl⟩ := ends_of_length hl
    rw [sortLoop_step]
    have hroot := heap_root ho hh
    have hx : ∀ a ∈ x :: m ++ [y], cmp x a ≠ .before := by
      intro a ha
      obtain ⟨i, hi, rfl⟩ := List.getElem_of_mem ha
      exact hroot i x _ (by simp) (List.getElem?_eq_getElem hi)
    obtain ⟨h', g1, g2, g3⟩ := siftdown_heap ho 0 (m.length + 2) (y :: m) 0 (by simp) (Nat.le_refl _)
      (by
        intro i j hi hne hj a b ha hb
        have hil : i < m.length + 1 := by
          by_contra hc; rw [List.getElem?_eq_none (by simp; omega)] at ha; cases ha
        have hjl : j < m.length + 1 := by
          by_contra hc; rw [List.getElem?_eq_none (by simp; omega)] at hb; cases hb
        have key : ∀ (k : Nat), k ≠ 0 → k < m.length + 1 → (y :: m)[k]? = (x :: m ++ [y])[k]? := by
          intro k hk hkl
          obtain ⟨k, rfl⟩ : ∃ k', k = k' + 1 := ⟨k - 1, by omega⟩
          simp only [List.cons_append, List.getElem?_cons_succ]
          rw [List.getElem?_append_left (by omega)]
        exact hh i j hi (by simp) hj a b (by rw [← key i hne hil]; exact ha)
          (by rw [← key j (by omega) hjl]; exact hb))
      (by intro p j _ hp _; omega)
    rw [g1, Res.bind_ok]
    have hm : ∀ a ∈ h', a ∈ x :: m ++ [y] := by
      intro a ha
      have := g2.mem_iff.1 ha
      simp at this ⊢
      tauto
    refine ih h' (x :: t) (by rw [g2.length_eq]; simp) g3 ?_ ?_
    · exact List.pairwise_cons.2 ⟨fun b hb => hht x (by simp) b hb, ht⟩
    · intro a ha b hb
      rcases List.mem_cons.1 hb with rfl | hb
      · exact hx a (hm a ha)
      · exact hht a (hm a ha) b hb

end Verif.Sort
