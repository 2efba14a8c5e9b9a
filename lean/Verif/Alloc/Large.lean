import Verif.Alloc.Free2

/-!
# Large allocations
-/

namespace Verif.Alloc

theorem regs_big {g : G} {l1 l2 L : List (Nat × Nat)} {e : Nat × Nat} (he : e.1 ≠ 0) : (regs g (l1 ++ e :: l2) L).Perm ((e.2, e.1) :: regs g (l1 ++ l2) L) := by
  have h1 : (regs g (l1 ++ e :: l2) L).Perm (regs g (e :: (l1 ++ l2)) L) := regs_perm List.perm_middle (List.Perm.refl _)
  refine h1.trans ?_
  unfold regs
  rw [List.filter_cons_of_pos (by simpa using he), List.map_cons, List.cons_append]
  exact List.perm_middle

theorem regs_big0 {g : G} {l1 l2 L : List (Nat × Nat)} {e : Nat × Nat} (he : e.1 = 0) : regs g (l1 ++ e :: l2) L = regs g (l1 ++ l2) L := by
  unfold regs
  rw [List.filter_append, List.filter_append, List.filter_cons_of_neg (by simpa using he)]

theorem regs_live {g : G} {big L : List (Nat × Nat)} {p sz : Nat} (h : 131072 < sz) : (regs g big ((p, sz) :: L)).Perm ((p, align sz 4096) :: regs g big L) := by
  unfold regs
  rw [List.filter_cons_of_pos (by simpa using h), List.map_cons, ← List.append_assoc, ← List.append_assoc]
  exact List.perm_middle

theorem regs_small {g : G} {big L : List (Nat × Nat)} {p sz : Nat} (h : sz ≤ 131072) : regs g big ((p, sz) :: L) = regs g big L := by
  unfold regs
  rw [List.filter_cons_of_neg (by simpa using h)]

theorem bigtake_spec {sz : Nat} : ∀ {big : List (Nat × Nat)} {p : Nat} {big' : List (Nat × Nat)}, bigtake sz big = some (p, big') →
    ∃ l1 e l2, big = l1 ++ e :: l2 ∧ sz < e.1 ∧ p = e.2 ∧ big' = l1 ++ (e.1 - sz, e.2 + sz) :: l2
  | [], _, _, h => by simp [bigtake] at h
  | e :: es, p, big', h => by
    rw [bigtake] at h
    split at h
    · next hlt =>
      simp only [Option.some.injEq, Prod.mk.injEq] at h
      exact ⟨[], e, es, rfl, hlt, h.1.symm, h.2.symm⟩
    · rw [Option.map_eq_some_iff] at h
      obtain ⟨r, h1, h2⟩ := h
      simp only [Prod.mk.injEq] at h2
      obtain ⟨l1, e', l2, a, b, c, d⟩ := bigtake_spec (p := r.1) (big' := r.2) h1
      exact ⟨e :: l1, e', l2, by rw [a]; rfl, b, h2.1.symm.trans c, by rw [← h2.2, d]; rfl⟩

theorem bigscan_spec {sz p : Nat} : ∀ (big : List (Nat × Nat)) (i : Nat) (ev : Evict),
    (∃ l1 e l2, big = l1 ++ e :: l2 ∧ (e.2 = p + sz ∧ (bigscan sz p big i ev).1 = l1 ++ (e.1 + sz, p) :: l2 ∨ e.2 + e.1 = p ∧ (bigscan sz p big i ev).1 = l1 ++ (e.1 + sz, e.2) :: l2) ∧
      (bigscan sz p big i ev).2.idx = none ∧ (bigscan sz p big i ev).2.sz = 0) ∨
    ((bigscan sz p big i ev).1 = big ∧ ((bigscan sz p big i ev).2 = ev ∨ ∃ l1 e l2, big = l1 ++ e :: l2 ∧ (bigscan sz p big i ev).2 = ⟨some (i + l1.length), e.1, e.2⟩))
  | [], i, ev => Or.inr ⟨rfl, Or.inl rfl⟩
  | e :: es, i, ev => by
    rw [bigscan]
    split
    · next h1 => exact Or.inl ⟨[], e, es, rfl, Or.inl ⟨h1, rfl⟩, rfl, rfl⟩
    · split
      · next h1 => exact Or.inl ⟨[], e, es, rfl, Or.inr ⟨h1, rfl⟩, rfl, rfl⟩
      · dsimp only
        rcases bigscan_spec (sz := sz) (p := p) es (i + 1) (if e.1 < ev.sz then ⟨some i, e.1, e.2⟩ else ev) with ⟨l1, e', l2, a, b, c⟩ | ⟨a, b⟩
        · refine Or.inl ⟨e :: l1, e', l2, by rw [a]; rfl, ?_, c⟩
          rcases b with ⟨b1, b2⟩ | ⟨b1, b2⟩
          · exact Or.inl ⟨b1, by rw [b2]; rfl⟩
          · exact Or.inr ⟨b1, by rw [b2]; rfl⟩
        · refine Or.inr ⟨by rw [a], ?_⟩
          rcases b with b | ⟨l1, e', l2, b1, b2⟩
          · rw [b]
            split
            · exact Or.inr ⟨[], e, es, rfl, rfl⟩
            · exact Or.inl rfl
          · refine Or.inr ⟨e :: l1, e', l2, by rw [b1]; rfl, ?_⟩
            rw [b2, List.length_cons, show i + 1 + l1.length = i + (l1.length + 1) by omega]

theorem LInv.big {g : G} {L : List (Nat × Nat)} {p sz : Nat} (h : LInv g L) (hs : 131072 < sz) : LInv g ((p, sz) :: L) := by
  refine ⟨fun x hx hx2 => ?_, List.pairwise_cons.2 ⟨fun y _ h1 => absurd h1 (by dsimp only; omega), h.ne⟩⟩
  rcases List.mem_cons.1 hx with rfl | hx
  · dsimp only at hx2; omega
  · exact h.small x hx hx2

theorem LInv.tail {g : G} {L : List (Nat × Nat)} {x : Nat × Nat} (h : LInv g (x :: L)) : LInv g L :=
  ⟨fun y hy => h.small y (List.mem_cons_of_mem _ hy), (List.pairwise_cons.1 h.ne).2⟩

theorem align_big {sz : Nat} (h : 131072 < sz) : 131072 < align sz 4096 ∧ align sz 4096 % 4096 = 0 ∧ sz ≤ align sz 4096 := by
  have := align_spec sz (a := 4096) (by decide)
  omega

theorem bigalloc_ok {os : Nat → Option Nat} {st : St} {g : G} {L : List (Nat × Nat)} {sz : Nat} (hsz : 131072 < sz) (h : Inv st g L)
    (hos : ∃ p, os (align sz 4096) = some p ∧ Grant st.mapped (align sz 4096) p) :
    ∃ p st', bigalloc os st sz = .ok (p, st') ∧ Inv st' g ((p, sz) :: L) ∧ st'.mem = st.mem := by
  obtain ⟨a1, a2, a3⟩ := align_big hsz
  unfold bigalloc
  dsimp only
  split
  · next p big' hb =>
    obtain ⟨l1, e, l2, rfl', hlt, rfl, rfl⟩ := bigtake_spec hb
    refine ⟨e.2, { st with big := l1 ++ (e.1 - align sz 4096, e.2 + align sz 4096) :: l2 }, rfl, ⟨h.mi, h.gi, h.li.big hsz, ?_, ?_⟩, rfl⟩
    · have hs := h.sep
      rw [rfl'] at hs
      have hs2 := hs.perm (regs_big (by omega))
      have he : e.1 = align sz 4096 + (e.1 - align sz 4096) := by omega
      rw [he] at hs2
      have hs3 := hs2.split (by omega) (by omega) a2
      refine hs3.perm ?_
      refine List.Perm.trans ?_ (regs_live hsz).symm
      refine List.Perm.cons _ ?_
      exact (regs_big (e := (e.1 - align sz 4096, e.2 + align sz 4096)) (by dsimp only; omega)).symm
    · intro x hx hx0
      rcases List.mem_append.1 hx with hx | hx
      · exact h.bz x (by rw [rfl']; exact List.mem_append_left _ hx) hx0
      · rcases List.mem_cons.1 hx with rfl | hx
        · dsimp only at hx0; omega
        · exact h.bz x (by rw [rfl']; exact List.mem_append_right _ (List.mem_cons_of_mem _ hx)) hx0
  · obtain ⟨p, hp, g1, g2, g3, g4⟩ := hos
    have hgm : getmem os st (align sz 4096) = (p, { st with mapped := mapin st.mapped p (align sz 4096) }) := by
      unfold getmem
      rw [hp]
      rfl
    rw [hgm]
    dsimp only
    rw [if_pos (by omega)]
    refine ⟨p, _, rfl, ⟨h.mi, h.gi, h.li.big hsz, ?_, h.bz⟩, rfl⟩
    exact (h.sep.add g1 (by omega) g2 a2 g3 g4).perm (regs_live hsz).symm

theorem bigfree_ok {st : St} {g : G} {L : List (Nat × Nat)} {p sz : Nat} (hsz : 131072 < sz) (h : Inv st g ((p, sz) :: L)) :
    Inv (bigfree st p sz) g L ∧ (bigfree st p sz).mem = st.mem := by
  obtain ⟨a1, a2, a3⟩ := align_big hsz
  have hsep := h.sep.perm (regs_live hsz)
  have hp0 : 0 < p := (hsep.2 _ (List.mem_cons_self ..)).1
  unfold bigfree
  dsimp only
  obtain ⟨n, hn⟩ : ∃ n, align sz 4096 = n := ⟨_, rfl⟩
  rw [hn] at a1 a2 a3 hsep ⊢
  rcases bigscan_spec (sz := n) (p := p) st.big 0 ⟨none, n, p⟩ with ⟨l1, e, l2, hb, hm, hi, hz⟩ | ⟨hb, hm⟩
  · rw [hi, if_neg (by omega)]
    dsimp only
    have hez : e.1 ≠ 0 := by
      intro h0
      have := h.bz e (by rw [hb]; simp) h0
      rcases hm with ⟨h1, -⟩ | ⟨h1, -⟩ <;> omega
    rw [hb] at hsep
    have hs2 := hsep.perm (List.Perm.cons _ (regs_big hez))
    have hbz : ∀ q, ∀ x ∈ l1 ++ (e.1 + n, q) :: l2, x.1 = 0 → x.2 = 0 := by
      intro q x hx hx0
      rcases List.mem_append.1 hx with hx | hx
      · exact h.bz x (by rw [hb]; exact List.mem_append_left _ hx) hx0
      · rcases List.mem_cons.1 hx with rfl | hx
        · dsimp only at hx0; omega
        · exact h.bz x (by rw [hb]; exact List.mem_append_right _ (List.mem_cons_of_mem _ hx)) hx0
    rcases hm with ⟨h1, h2⟩ | ⟨h1, h2⟩
    · rw [h2]
      refine ⟨⟨h.mi, h.gi, h.li.tail, ?_, hbz _⟩, rfl⟩
      rw [h1] at hs2
      have hs3 := hs2.merge
      rw [Nat.add_comm] at hs3
      exact hs3.perm (regs_big (e := (e.1 + n, p)) (by dsimp only; omega)).symm
    · rw [h2]
      refine ⟨⟨h.mi, h.gi, h.li.tail, ?_, hbz _⟩, rfl⟩
      rw [← h1] at hs2
      have hs3 := (hs2.perm (List.Perm.swap _ _ _)).merge
      exact hs3.perm (regs_big (e := (e.1 + n, e.2)) (by dsimp only; omega)).symm
  · rcases hm with hm | ⟨l1, e, l2, h1, h2⟩
    · rw [hm, hb]
      dsimp only
      rw [if_pos (by omega)]
      exact ⟨⟨h.mi, h.gi, h.li.tail, hsep.del, h.bz⟩, rfl⟩
    · rw [h2, hb]
      dsimp only
      rw [Nat.zero_add]
      have hset : st.big.set l1.length (n, p) = l1 ++ (n, p) :: l2 := by
        rw [h1, List.set_append_right _ _ (Nat.le_refl _), Nat.sub_self]
        rfl
      rw [hset]
      have hbz : ∀ x ∈ l1 ++ (n, p) :: l2, x.1 = 0 → x.2 = 0 := by
        intro x hx hx0
        rcases List.mem_append.1 hx with hx | hx
        · exact h.bz x (by rw [h1]; exact List.mem_append_left _ hx) hx0
        · rcases List.mem_cons.1 hx with rfl | hx
          · dsimp only at hx0; omega
          · exact h.bz x (by rw [h1]; exact List.mem_append_right _ (List.mem_cons_of_mem _ hx)) hx0
      rw [h1] at hsep
      by_cases hez : e.1 = 0
      · rw [if_neg (by omega)]
        refine ⟨⟨h.mi, h.gi, h.li.tail, ?_, hbz⟩, rfl⟩
        rw [regs_big0 hez] at hsep
        exact hsep.perm (regs_big (e := (n, p)) (by dsimp only; omega)).symm
      · rw [if_pos (by omega)]
        refine ⟨⟨h.mi, h.gi, h.li.tail, ?_, hbz⟩, rfl⟩
        have hs2 := ((hsep.perm (List.Perm.cons _ (regs_big hez))).perm (List.Perm.swap _ _ _)).del
        exact hs2.perm (regs_big (e := (n, p)) (by dsimp only; omega)).symm

end Verif.Alloc
