import Verif.Alloc.Large

/-!
# Allocating and freeing
-/

namespace Verif.Alloc

/-- What an allocation takes up. -/
def room (sz : Nat) : Nat := if sz ≤ 131072 then bsz (bktnum sz) else align sz 4096

theorem room_ge (sz : Nat) : sz ≤ room sz ∧ 16 ≤ room sz := by
  unfold room
  split
  · next h => exact ⟨(bktnum_spec h).2.1, (nper_facts (bktnum_spec h).1).2.2.2.1⟩
  · have := align_big (show 131072 < sz by omega)
    omega

/-- A live allocation is in memory which is mapped, and out of the headers. -/
theorem Inv.live {st : St} {g : G} {L : List (Nat × Nat)} (h : Inv st g L) {y : Nat × Nat} (hy : y ∈ L) :
    0 < y.1 ∧ y.1 % 16 = 0 ∧ y.1 + room y.2 ≤ 2 ^ 47 ∧ ∀ x, y.1 ≤ x → x < y.1 + room y.2 → st.mapped x = true ∧ ∀ t ∈ g.slabs, x < t ∨ t + 48 ≤ x := by
  unfold room
  by_cases hs : y.2 ≤ 131072
  · rw [if_pos hs]
    obtain ⟨s, a, b, c, d, e⟩ := h.li.small y hy hs
    obtain ⟨s1, s2, s3, s4, -⟩ := h.gi.slab s a
    have cf := chunk_facts s4 s1 c
    rw [b] at cf
    refine ⟨by omega, cf.2.2.1, by omega, fun x hx hx2 => ⟨h.slabmap a (by omega) (by omega), fun t ht => ?_⟩⟩
    have ht1 := (h.gi.slab t ht).1
    omega
  · rw [if_neg hs]
    have hm : (y.1, align y.2 4096) ∈ regs g st.big L := by
      unfold regs
      refine List.mem_append_right _ (List.mem_append_right _ (List.mem_map.2 ⟨y, List.mem_filter.2 ⟨hy, ?_⟩, rfl⟩))
      simp only [decide_eq_true_eq]
      omega
    obtain ⟨r1, r2, r3, r4, r5, r6⟩ := h.sep.2 _ hm
    dsimp only at r1 r2 r3 r4 r5 r6
    refine ⟨r1, by omega, r5, fun x hx hx2 => ⟨r6 x hx hx2, fun t ht => ?_⟩⟩
    have hdj : Dj (g.hd t, 1048576) (y.1, align y.2 4096) := by
      have := (List.pairwise_append.1 h.sep.1).2.2
      refine this _ (List.mem_map.2 ⟨t, ht, rfl⟩) _ ?_
      refine List.mem_append_right _ (List.mem_map.2 ⟨y, List.mem_filter.2 ⟨hy, ?_⟩, rfl⟩)
      simp only [decide_eq_true_eq]
      omega
    have ht1 := (h.gi.slab t ht).2.2.2.2
    unfold Dj at hdj
    dsimp only at hdj
    omega

/-- Live allocations have nothing in common. -/
theorem Inv.apart {st : St} {g : G} {L : List (Nat × Nat)} {y : Nat × Nat} (h : Inv st g (y :: L)) : ∀ z ∈ L, Dj (y.1, room y.2) (z.1, room z.2) := by
  intro z hz
  by_cases hy : y.2 ≤ 131072
  · obtain ⟨s, a, b, c, d, e⟩ := h.li.small y (List.mem_cons_self ..) hy
    obtain ⟨s1, s2, s3, s4, s5, s6⟩ := h.gi.slab s a
    have cf := chunk_facts s4 s1 c
    by_cases hz2 : z.2 ≤ 131072
    · obtain ⟨t, a', b', c', d', e'⟩ := h.li.small z (List.mem_cons_of_mem _ hz) hz2
      obtain ⟨t1, t2, t3, t4, -⟩ := h.gi.slab t a'
      have cf' := chunk_facts t4 t1 c'
      unfold room Dj
      rw [if_pos hy, if_pos hz2, ← b, ← b']
      dsimp only
      by_cases hst : s = t
      · subst hst
        exact chunk_disjoint c c' ((List.pairwise_cons.1 h.li.ne).1 z hz hy hz2)
      · omega
    · have hdj : Dj (g.hd s, 1048576) (z.1, align z.2 4096) := by
        have := (List.pairwise_append.1 h.sep.1).2.2
        refine this _ (List.mem_map.2 ⟨s, a, rfl⟩) _ ?_
        refine List.mem_append_right _ (List.mem_map.2 ⟨z, List.mem_filter.2 ⟨List.mem_cons_of_mem _ hz, ?_⟩, rfl⟩)
        simp only [decide_eq_true_eq]
        omega
      unfold Dj at hdj
      unfold room Dj
      rw [if_pos hy, if_neg hz2, ← b]
      dsimp only at hdj ⊢
      omega
  · by_cases hz2 : z.2 ≤ 131072
    · obtain ⟨s, a, b, c, d, e⟩ := h.li.small z (List.mem_cons_of_mem _ hz) hz2
      obtain ⟨s1, s2, s3, s4, s5, s6⟩ := h.gi.slab s a
      have cf := chunk_facts s4 s1 c
      have hdj : Dj (g.hd s, 1048576) (y.1, align y.2 4096) := by
        have := (List.pairwise_append.1 h.sep.1).2.2
        refine this _ (List.mem_map.2 ⟨s, a, rfl⟩) _ ?_
        refine List.mem_append_right _ (List.mem_map.2 ⟨y, List.mem_filter.2 ⟨List.mem_cons_self .., ?_⟩, rfl⟩)
        simp only [decide_eq_true_eq]
        omega
      unfold Dj at hdj
      unfold room Dj
      rw [if_neg hy, if_pos hz2, ← b]
      dsimp only at hdj ⊢
      omega
    · have hs := h.sep.perm (regs_live (p := y.1) (sz := y.2) (by omega))
      have := (List.pairwise_cons.1 hs.1).1 (z.1, align z.2 4096) (by
        unfold regs
        refine List.mem_append_right _ (List.mem_append_right _ (List.mem_map.2 ⟨z, List.mem_filter.2 ⟨hz, ?_⟩, rfl⟩))
        simp only [decide_eq_true_eq]
        omega)
      unfold room
      rw [if_neg hy, if_neg hz2]
      exact this

/-- A live allocation may be written. -/
theorem Inv.write {st : St} {g : G} {L : List (Nat × Nat)} {y : Nat × Nat} (h : Inv st g L) (hy : y ∈ L) {m' : Mem}
    (hm : ∀ x, (x < y.1 ∨ y.1 + room y.2 ≤ x) → m' x = st.mem x) : Inv { st with mem := m' } g L := by
  refine ⟨h.mi.frame h.gi (fun s hs x hx hx2 => hm x ?_) (fun s hs c hc x hx hx2 => hm x ?_), h.gi, h.li, h.sep, h.bz⟩
  · by_cases hc : x < y.1 ∨ y.1 + room y.2 ≤ x
    · exact hc
    · have := ((h.live hy).2.2.2 x (by omega) (by omega)).2 s hs
      omega
  · have hcf := h.gi.chunk hs hc
    obtain ⟨s1, s2, s3, s4, s5, s6⟩ := h.gi.slab s hs
    have hb := (nper_facts s4).2.2.2.1
    by_cases hy2 : y.2 ≤ 131072
    · obtain ⟨t, a, b, c', d, e⟩ := h.li.small y hy hy2
      obtain ⟨t1, t2, t3, t4, -⟩ := h.gi.slab t a
      have cf := chunk_facts t4 t1 c'
      unfold room
      rw [if_pos hy2, ← b]
      by_cases hst : s = t
      · subst hst
        have hne : c ≠ y.1 := fun e => d (by rw [← e]; exact hc)
        have := chunk_disjoint ((h.gi.frn s hs).2 c hc) c' hne
        omega
      · omega
    · have hdj : Dj (g.hd s, 1048576) (y.1, align y.2 4096) := by
        have := (List.pairwise_append.1 h.sep.1).2.2
        refine this _ (List.mem_map.2 ⟨s, hs, rfl⟩) _ ?_
        refine List.mem_append_right _ (List.mem_map.2 ⟨y, List.mem_filter.2 ⟨hy, ?_⟩, rfl⟩)
        simp only [decide_eq_true_eq]
        omega
      unfold Dj at hdj
      unfold room
      rw [if_neg hy2]
      dsimp only at hdj
      omega

theorem bktalloc_ok {os : Nat → Option Nat} {st : St} {g : G} {L : List (Nat × Nat)} {sz : Nat} (hsz : sz ≤ 131072) (h : Inv st g L)
    (hos : ∃ p, os 1048576 = some p ∧ Grant st.mapped 1048576 p) :
    ∃ p st' g', bktalloc os st (bktnum sz) = .ok (p, st') ∧ Inv st' g' ((p, sz) :: L) ∧
      ∀ y ∈ L, ∀ x, y.1 ≤ x → x < y.1 + room y.2 → st'.mem x = st.mem x := by
  obtain ⟨b1, b2, b3⟩ := bktnum_spec hsz
  obtain ⟨s, st1, g1, l, e1, i1, a1, -, f1, f2, f3⟩ := findslab_ok b1 h hos
  obtain ⟨c, m', b', g2, e2, i2, fr, f4⟩ := takechunk_ok i1 a1
  refine ⟨c, { st1 with mem := m', bkt := b' }, g2, ?_, ⟨i2.mi, i2.gi, ⟨?_, ?_⟩, ?_, i2.bz⟩, ?_⟩
  · unfold bktalloc
    rw [e1, Res.bind_ok]
    exact e2
  · intro x hx hx2
    rcases List.mem_cons.1 hx with rfl | hx
    · exact ⟨s, fr.slab, fr.bk, by rw [fr.bk]; exact fr.chunk, fr.nf, by rw [fr.bk]; exact fr.nc⟩
    · exact i2.li.small x hx hx2
  · exact List.pairwise_cons.2 ⟨fun y hy _ h2 e => fr.ne y hy h2 e.symm, i2.li.ne⟩
  · rw [regs_small hsz]
    exact i2.sep
  · intro y hy x hx hx2
    obtain ⟨o1, o2⟩ := (h.live hy).2.2.2 x hx hx2
    refine (f4 x fun t ht => ?_).trans (f2 x o1 o2)
    rcases f3 t ht with ht | ht
    · exact o2 t ht
    · by_cases hc : x < t ∨ t + 48 ≤ x
      · exact hc
      · have := ht x (by omega) (by omega)
        rw [o1] at this
        exact absurd this (by decide)

/-- What the system is asked for by an allocation. -/
def asks (sz : Nat) : Nat := if sz ≤ 131072 then 1048576 else align sz 4096

theorem bytealloc_ok {os : Nat → Option Nat} {st : St} {g : G} {L : List (Nat × Nat)} {sz : Nat} (h : Inv st g L)
    (hos : ∃ p, os (asks sz) = some p ∧ Grant st.mapped (asks sz) p) :
    ∃ p st' g', bytealloc os st sz = .ok (p, st') ∧ Inv st' g' ((p, sz) :: L) ∧ ∀ y ∈ L, ∀ x, y.1 ≤ x → x < y.1 + room y.2 → st'.mem x = st.mem x := by
  unfold asks at hos
  unfold bytealloc
  by_cases hsz : sz ≤ 131072
  · rw [if_pos hsz] at hos ⊢
    exact bktalloc_ok hsz h hos
  · rw [if_neg hsz] at hos ⊢
    obtain ⟨p, st', e1, e2, e3⟩ := bigalloc_ok (by omega) h hos
    exact ⟨p, st', g, e1, e2, fun y _ x _ _ => by rw [e3]⟩

theorem memfill_ok {st : St} {g : G} {L : List (Nat × Nat)} {y : Nat × Nat} (h : Inv st g L) (hy : y ∈ L) (b : Byte) :
    memfill st y.1 b y.2 = .ok { st with mem := fun x => if y.1 ≤ x ∧ x < y.1 + y.2 then b else st.mem x } ∧
      Inv { st with mem := fun x => if y.1 ≤ x ∧ x < y.1 + y.2 then b else st.mem x } g L := by
  have hr := (room_ge y.2).1
  constructor
  · unfold memfill
    rw [if_pos fun i hi => ((h.live hy).2.2.2 _ (by omega) (by omega)).1]
  · exact h.write hy fun x hx => if_neg (by omega)

theorem zbytealloc_ok {os : Nat → Option Nat} {st : St} {g : G} {L : List (Nat × Nat)} {sz : Nat} (h : Inv st g L)
    (hos : ∃ p, os (asks sz) = some p ∧ Grant st.mapped (asks sz) p) :
    ∃ p st' g', zbytealloc os st sz = .ok (p, st') ∧ Inv st' g' ((p, sz) :: L) ∧ (∀ x, p ≤ x → x < p + sz → st'.mem x = 0) ∧
      ∀ y ∈ L, ∀ x, y.1 ≤ x → x < y.1 + room y.2 → st'.mem x = st.mem x := by
  obtain ⟨p, st1, g1, e1, i1, f1⟩ := bytealloc_ok h hos
  obtain ⟨e2, i2⟩ := memfill_ok i1 (List.mem_cons_self (a := (p, sz)) (l := L)) 0
  refine ⟨p, _, g1, ?_, i2, fun x hx hx2 => if_pos ⟨hx, hx2⟩, ?_⟩
  · unfold zbytealloc
    rw [e1, Res.bind_ok]
    dsimp only at e2 ⊢
    rw [e2, Res.bind_ok]
  · intro y hy x hx hx2
    have hd := i1.apart y hy
    have hr := room_ge sz
    unfold Dj at hd
    dsimp only at hd ⊢
    rw [if_neg (by omega)]
    exact f1 y hy x hx hx2

theorem bytefree_ok {st : St} {g : G} {L : List (Nat × Nat)} {p sz : Nat} (h : Inv st g ((p, sz) :: L)) :
    ∃ st' g', bytefree st p sz = .ok st' ∧ Inv st' g' L ∧ ∀ y ∈ L, ∀ x, y.1 ≤ x → x < y.1 + room y.2 → st'.mem x = st.mem x := by
  have hl := h.live (List.mem_cons_self ..)
  obtain ⟨e1, i1⟩ := memfill_ok h (List.mem_cons_self (a := (p, sz)) (l := L)) 0xa8
  dsimp only at e1 i1 hl
  have hap := h.apart
  have hr := room_ge sz
  have fr1 : ∀ y ∈ L, ∀ x, y.1 ≤ x → x < y.1 + room y.2 → (if p ≤ x ∧ x < p + sz then (0xa8 : Byte) else st.mem x) = st.mem x := by
    intro y hy x hx hx2
    have hd := hap y hy
    unfold Dj at hd
    dsimp only at hd
    exact if_neg (by omega)
  unfold bytefree
  rw [if_neg (by omega), e1, Res.bind_ok]
  obtain ⟨m1, hm1⟩ : ∃ m1 : Mem, (fun x => if p ≤ x ∧ x < p + sz then (0xa8 : Byte) else st.mem x) = m1 := ⟨_, rfl⟩
  have fr2 : ∀ y ∈ L, ∀ x, y.1 ≤ x → x < y.1 + room y.2 → m1 x = st.mem x := by
    intro y hy x hx hx2
    rw [← hm1]
    exact fr1 y hy x hx hx2
  rw [hm1] at i1 ⊢
  by_cases hsz : sz ≤ 131072
  · rw [if_pos hsz]
    obtain ⟨s, a, b, c, d, e⟩ := i1.li.small (p, sz) (List.mem_cons_self ..) hsz
    have i2 : Inv { st with mem := m1 } g L := ⟨i1.mi, i1.gi, i1.li.tail, by have := i1.sep; rwa [regs_small hsz] at this, i1.bz⟩
    have hh : Held g L (bktnum sz) s p := ⟨a, b, by rw [← b]; exact c, d, by rw [← b]; exact e,
      fun x hx hx2 e2 => (List.pairwise_cons.1 i1.li.ne).1 x hx hsz hx2 e2.symm⟩
    obtain ⟨st', g', e1, e2, -, e4⟩ := bktfree_ok i2 hh
    refine ⟨st', g', e1, e2, fun y hy x hx hx2 => ?_⟩
    refine (e4 x ((i2.live hy).2.2.2 x hx hx2).2 ?_).trans (fr2 y hy x hx hx2)
    have hd := hap y hy
    unfold Dj at hd
    dsimp only at hd
    omega
  · rw [if_neg hsz]
    obtain ⟨e1, e2⟩ := bigfree_ok (by omega) i1
    exact ⟨_, g, rfl, e1, fun y hy x hx hx2 => by rw [e2]; exact fr2 y hy x hx hx2⟩

theorem init_inv (m : Mem) : Inv (init m) ⟨[], fun _ => 0, fun _ => 0, fun _ => [], fun _ => [], fun _ => []⟩ [] := by
  refine ⟨⟨by simp, fun _ => trivial, fun _ => trivial, by simp⟩, ⟨by simp, by simp, by simp, fun _ => ⟨rfl, rfl, rfl⟩, by simp, by simp, by simp⟩, ⟨by simp, by simp⟩, ?_, ?_⟩
  · have : regs ⟨[], fun _ => 0, fun _ => 0, fun _ => [], fun _ => [], fun _ => []⟩ (init m).big [] = [] := by
      unfold regs init
      simp
    rw [this]
    exact ⟨List.Pairwise.nil, by simp⟩
  · intro e he _
    have := List.eq_of_mem_replicate (show e ∈ List.replicate 32 (0, 0) from he)
    rw [this]

end Verif.Alloc
