import Verif.Alloc.Small

/-!
# Finding a slab to allocate from
-/

namespace Verif.Alloc

theorem initslab_ok {i p : Nat} {st : St} (hi : i < 14) (hp : p + 1048576 ≤ 2 ^ 47) (hm : ∀ x, p ≤ x → x < p + 1048576 → st.mapped x = true) :
    ∃ m', initslab i p st = .ok (align p 524288, { st with mem := m' }) ∧ SW m' p (chunks i (align p 524288)) (align p 524288) ∧
      rd m' (align p 524288 + 8) = 0 ∧ rd m' (align p 524288 + 16) = 0 ∧ ∀ x, (x < align p 524288 ∨ align p 524288 + 524288 ≤ x) → m' x = st.mem x := by
  obtain ⟨h1, h2, h3⟩ := align_spec p (a := 524288) (by decide)
  obtain ⟨f1, f2, f3, f4, f5, f6⟩ := nper_facts hi
  obtain ⟨s, hs⟩ : ∃ s, align p 524288 = s := ⟨_, rfl⟩
  rw [hs] at h1 h2 h3 ⊢
  have ok : ∀ m o, o + 8 ≤ 524288 → ok8 ({ st with mem := m } : St).mapped (s + o) := fun m o ho j hj => hm _ (by omega) (by omega)
  have ok0 : ok8 st.mapped s := fun j hj => hm _ (by omega) (by omega)
  obtain ⟨m6, hm6⟩ : ∃ m6, wr (wr (wr (wr (wr (wr st.mem s p) (s + 32) (nper i)) (s + 8) 0) (s + 16) 0) (s + 40) 17515341148653) (s + 24) (s + 48) = m6 := ⟨_, rfl⟩
  obtain ⟨m7, c1, c2, c3⟩ := chain_spec (sz := bsz i) (by omega) (nper i) 0 (s + 48) { st with mem := m6 } (fun x hx hx2 => hm x (by omega) (by omega)) (by omega)
  have hlast : (nper i - 1) * bsz i + bsz i = nper i * bsz i := by
    rw [← Nat.succ_mul, show (nper i - 1).succ = nper i by omega]
  obtain ⟨y, hy⟩ : ∃ y, (nper i - 1) * bsz i = y := ⟨_, rfl⟩
  have ey : y % 16 = 0 := by rw [← hy, Nat.mul_mod, f5]; simp
  rw [hy] at hlast
  rw [if_neg (by omega), hy] at c1
  refine ⟨wr m7 (s + 48 + y) 0, ?_, ?_, ?_, ?_, ?_⟩
  · unfold initslab
    dsimp only
    rw [hs, sw_ok ok0, Res.bind_ok, sw_ok (ok _ _ (by omega)), Res.bind_ok, sw_ok (ok _ _ (by omega)), Res.bind_ok, sw_ok (ok _ _ (by omega)), Res.bind_ok,
      sw_ok (ok _ _ (by omega)), Res.bind_ok, sw_ok (ok _ _ (by omega)), Res.bind_ok]
    dsimp only
    rw [hm6, c1, Res.bind_ok]
    dsimp only
    rw [sw_ok (by rw [Nat.add_assoc]; exact ok _ _ (by omega)), Res.bind_ok]
  · have e : ∀ o, o + 8 ≤ 48 → rd (wr m7 (s + 48 + y) 0) (s + o) = rd m6 (s + o) := by
      intro o ho
      rw [rd_wr_far (by omega)]
      exact rd_congr fun x hx hx2 => c3 x (by omega)
    refine ⟨?_, ?_, ?_, ?_, ?_⟩
    · refine (e 0 (by omega)).trans ?_
      rw [Nat.add_zero, ← hm6, rd_wr_ne (by omega) (by omega) (by omega), rd_wr_ne (by omega) (by omega) (by omega), rd_wr_ne (by omega) (by omega) (by omega),
        rd_wr_ne (by omega) (by omega) (by omega), rd_wr_ne (by omega) (by omega) (by omega), rd_wr_eq _ _ (by omega)]
    · rw [e 24 (by omega), ← hm6, rd_wr_eq _ _ (by omega)]
      unfold chunks
      obtain ⟨k, hk⟩ : ∃ k, nper i = k + 1 := ⟨nper i - 1, by omega⟩
      rw [hk, List.range_succ_eq_map]
      simp
    · rw [e 32 (by omega), ← hm6, rd_wr_ne (by omega) (by omega) (by omega), rd_wr_ne (by omega) (by omega) (by omega), rd_wr_ne (by omega) (by omega) (by omega),
        rd_wr_ne (by omega) (by omega) (by omega), rd_wr_eq _ _ (by omega)]
      unfold chunks
      rw [List.length_map, List.length_range]
    · rw [e 40 (by omega), ← hm6, rd_wr_ne (by omega) (by omega) (by omega), rd_wr_eq _ _ (by decide)]
    · refine link_range (nper i) ?_ ?_
      · intro k hk
        have hle := Nat.mul_le_mul_right (bsz i) (show k + 1 ≤ nper i - 1 by omega)
        rw [hy, Nat.add_mul] at hle
        rw [rd_wr_far (by omega)]
        exact c2 k (by omega)
      · intro _
        rw [hy]
        exact rd_wr_eq _ _ (by decide)
  · rw [rd_wr_far (by omega), rd_congr (m := m6) fun x hx hx2 => c3 x (by omega), ← hm6, rd_wr_ne (by omega) (by omega) (by omega),
      rd_wr_ne (by omega) (by omega) (by omega), rd_wr_ne (by omega) (by omega) (by omega), rd_wr_eq _ _ (by decide)]
  · rw [rd_wr_far (by omega), rd_congr (m := m6) fun x hx hx2 => c3 x (by omega), ← hm6, rd_wr_ne (by omega) (by omega) (by omega),
      rd_wr_ne (by omega) (by omega) (by omega), rd_wr_eq _ _ (by decide)]
  · intro x hx
    rw [wr_other (by omega), c3 x (by omega)]
    dsimp only
    rw [← hm6, wr_other (by omega), wr_other (by omega), wr_other (by omega), wr_other (by omega), wr_other (by omega), wr_other (by omega)]

/-- The system answers with memory which was not mapped. -/
def Grant (mp : Nat → Bool) (n p : Nat) : Prop := 0 < p ∧ p % 4096 = 0 ∧ p + n ≤ 2 ^ 47 ∧ ∀ x, p ≤ x → x < p + n → mp x = false

theorem nodup_chunks {i s : Nat} (hi : i < 14) : (chunks i s).Nodup := by
  unfold chunks
  have hb := (nper_facts hi).2.2.2.1
  rw [List.nodup_iff_pairwise_ne, List.pairwise_map]
  refine List.Pairwise.imp ?_ List.nodup_range
  intro a b hab he
  exact hab (Nat.eq_of_mul_eq_mul_right (show 0 < bsz i by omega) (by omega))

theorem findslab_ok {os : Nat → Option Nat} {st : St} {g : G} {L : List (Nat × Nat)} {i : Nat} (hi : i < 14) (h : Inv st g L)
    (hos : ∃ p, os 1048576 = some p ∧ Grant st.mapped 1048576 p) :
    ∃ s st' g' l, findslab os st i = .ok (s, st') ∧ Inv st' g' L ∧ g'.av i = s :: l ∧ st'.big = st.big ∧ (∀ x, st.mapped x = true → st'.mapped x = true) ∧
      (∀ x, st.mapped x = true → (∀ t ∈ g.slabs, x < t ∨ t + 48 ≤ x) → st'.mem x = st.mem x) ∧
      (∀ t ∈ g'.slabs, t ∈ g.slabs ∨ ∀ x, t ≤ x → x < t + 524288 → st.mapped x = false) := by
  obtain ⟨hb1, hb2, hb3⟩ := h.gi.bkts i
  have hslpos : ∀ t ∈ g.av i, 0 < t := fun t ht => (h.gi.slab t ((h.gi.avn i).2 t ht).1).2.1
  unfold findslab
  by_cases hav : g.av i = []
  · rw [if_pos (by rw [hb1, hav]; rfl)]
    cases hca : g.ca i with
    | cons s l =>
      -- a slab from the cache
      rw [hca] at hb2 hb3
      obtain ⟨hs, hbk, hfl, hsa⟩ := (h.gi.can i).2 s (by rw [hca]; simp)
      obtain ⟨hs1, hs2, hs3, hs4, -⟩ := h.gi.slab s hs
      have hln : s ∉ l ∧ l.Nodup := by
        have := (h.gi.can i).1
        rw [hca] at this
        exact List.nodup_cons.1 this
      have hsl := h.mi.sll i
      rw [hca] at hsl
      have hnp := (nper_facts hi).1
      have okb : ∀ b, ok8 ({ st with bkt := b } : St).mapped (s + 8) := fun b => h.slab8 hs (by omega) (by omega)
      unfold mkslab
      dsimp only
      rw [if_pos (by rw [hb3, List.length_cons]; omega), hb2, List.headD_cons, ld_ok (h.slab8 hs (by omega) (by omega)), Res.bind_ok, hsl.1,
        sw_ok (okb _), Res.bind_ok, Res.bind_ok, if_neg (by dsimp only; omega)]
      dsimp only
      refine ⟨s, _, { g with av := upd g.av i [s], ca := upd g.ca i l }, [], rfl, ?_, upd_same _ _ _, rfl, fun _ hx => hx, ?_, fun t ht => Or.inl ht⟩
      · refine ⟨⟨?_, ?_, ?_, ?_⟩, ⟨h.gi.nodup, h.gi.slab, h.gi.frn, ?_, ?_, ?_, ?_⟩, ⟨?_, h.li.ne⟩, h.sep, h.bz⟩
        · intro t ht
          have ht1 := (h.gi.slab t ht).1
          exact (h.mi.words t ht).wr (by omega) (by omega) (by omega) fun d hd => by have := h.gi.chunk ht hd; omega
        · intro j
          dsimp only [setslabs]
          by_cases hj : j = i
          · subst hj
            rw [upd_same]
            refine ⟨?_, rd_wr_eq _ _ (by decide), trivial⟩
            rw [rd_wr_ne (by omega) (by omega) (by omega)]
            exact h.mi.cap j s (by rw [hca]; simp)
          · rw [upd_ne _ _ hj]
            refine (h.mi.dll j).wr (by omega) fun t ht => ?_
            obtain ⟨a, b, -⟩ := (h.gi.avn j).2 t ht
            have ht1 := (h.gi.slab t a).1
            have : s ≠ t := fun e => hj (by rw [← b, ← e]; exact hbk)
            omega
        · intro j
          dsimp only [setslabs]
          by_cases hj : j = i
          · subst hj
            rw [upd_same]
            refine hsl.2.wr (by omega) fun t ht => ?_
            have ht1 := (h.gi.slab t ((h.gi.can j).2 t (by rw [hca]; simp [ht])).1).1
            have : s ≠ t := fun e => hln.1 (by rw [e]; exact ht)
            omega
          · rw [upd_ne _ _ hj]
            refine (h.mi.sll j).wr (by omega) fun t ht => ?_
            obtain ⟨a, b, -⟩ := (h.gi.can j).2 t ht
            have ht1 := (h.gi.slab t a).1
            have : s ≠ t := fun e => hj (by rw [← b, ← e]; exact hbk)
            omega
        · intro j t ht
          dsimp only [setslabs] at ht ⊢
          have htj : t ∈ g.ca j := by
            by_cases hj : j = i
            · subst hj
              rw [upd_same] at ht
              rw [hca]
              simp [ht]
            · rwa [upd_ne _ _ hj] at ht
          have ht1 := (h.gi.slab t ((h.gi.can j).2 t htj).1).1
          rw [rd_wr_ne (by omega) (by omega) (by omega)]
          exact h.mi.cap j t htj
        · intro j
          dsimp only [setslabs]
          by_cases hj : j = i
          · subst hj
            simp only [upd_same]
            refine ⟨rfl, rfl, ?_⟩
            rw [hb3]
            rfl
          · simp only [if_neg hj, upd_ne _ _ hj]
            exact h.gi.bkts j
        · intro j
          dsimp only
          by_cases hj : j = i
          · subst hj
            rw [upd_same]
            refine ⟨by simp, fun t ht => ?_⟩
            rw [List.mem_singleton] at ht
            subst ht
            refine ⟨hs, hbk, fun e => ?_⟩
            rw [e, List.length_nil] at hfl
            omega
          · rw [upd_ne _ _ hj]
            exact h.gi.avn j
        · intro j
          dsimp only
          by_cases hj : j = i
          · subst hj
            rw [upd_same, upd_same]
            refine ⟨hln.2, fun t ht => ?_⟩
            obtain ⟨a, b, c, d⟩ := (h.gi.can j).2 t (by rw [hca]; simp [ht])
            refine ⟨a, b, c, ?_⟩
            rw [List.mem_singleton]
            exact fun e => hln.1 (by rw [← e]; exact ht)
          · rw [upd_ne _ _ hj, upd_ne _ _ hj]
            exact h.gi.can j
        · intro t ht
          dsimp only
          by_cases hj : g.bk t = i
          · rw [hj, upd_same, upd_same]
            intro h1 h2
            refine h.gi.full t ht ?_ ?_
            · rw [hj, hav]; simp
            · rw [hj, hca]
              simp only [List.mem_singleton] at h1
              simp only [List.mem_cons, not_or]
              exact ⟨h1, h2⟩
          · rw [upd_ne _ _ hj, upd_ne _ _ hj]
            exact h.gi.full t ht
        · intro x hx hx2
          obtain ⟨t, a, b, c, d, e⟩ := h.li.small x hx hx2
          refine ⟨t, a, b, c, d, ?_⟩
          dsimp only
          by_cases hj : g.bk t = i
          · rw [hj, upd_same]
            rw [hj, hca] at e
            exact fun hh => e (by simp [hh])
          · rwa [upd_ne _ _ hj]
      · intro x _ hx
        have := hx s hs
        exact wr_other (by omega)
    | nil =>
      -- a new slab
      rw [hca] at hb2 hb3
      obtain ⟨p, hosp, g1, g2, g3, g4⟩ := hos
      obtain ⟨a1, a2, a3⟩ := align_spec p (a := 524288) (by decide)
      have hgm : getmem os st 1048576 = (p, { st with mapped := mapin st.mapped p 1048576 }) := by
        unfold getmem
        rw [hosp]
        rfl
      obtain ⟨m', i1, i2, i3, i4, i5⟩ := initslab_ok (i := i) (p := p) (st := { st with mapped := mapin st.mapped p 1048576 }) hi g3
        (fun x hx hx2 => if_pos ⟨hx, hx2⟩)
      obtain ⟨s, hs⟩ : ∃ s, align p 524288 = s := ⟨_, rfl⟩
      rw [hs] at a1 a2 a3 i1 i2 i3 i4 i5
      have hmk : mkslab os st i = .ok (s, { st with mem := m', mapped := mapin st.mapped p 1048576 }) := by
        unfold mkslab
        dsimp only
        rw [if_neg (by rw [hb3]; simp), hgm]
        dsimp only
        rw [if_neg (by omega)]
        exact i1
      rw [hmk, Res.bind_ok, if_neg (by dsimp only; omega)]
      dsimp only
      have hold : ∀ x, st.mapped x = true → m' x = st.mem x := by
        intro x hx
        refine i5 x ?_
        by_cases hc : x < s ∨ s + 524288 ≤ x
        · exact hc
        · rw [g4 x (by omega) (by omega)] at hx
          exact absurd hx (by decide)
      have hsn : s ∉ g.slabs := by
        intro hh
        have := h.slabmap hh (Nat.le_refl s) (by omega)
        rw [g4 s (by omega) (by omega)] at this
        exact absurd this (by decide)
      have hmf : MInv m' g := h.mi.frame h.gi (fun t ht x hx hx2 => hold x (h.slabmap ht hx (by omega)))
        fun t ht c hc x hx hx2 => hold x (h.slabmap ht (by have := h.gi.chunk ht hc; omega) (by have := h.gi.chunk ht hc; have := (nper_facts (h.gi.slab t ht).2.2.2.1).2.2.2.1; omega))
      have hup : ∀ {α : Type} (f : Nat → α) (v : α), ∀ t ∈ g.slabs, upd f s v t = f t := fun f v t ht => upd_ne f v fun e => hsn (by rw [← e]; exact ht)
      have hnp := (nper_facts hi).1
      have hfr0 : chunks i s ≠ [] := by
        unfold chunks
        rw [Ne, List.map_eq_nil_iff, List.range_eq_nil]
        omega
      refine ⟨s, _, ⟨s :: g.slabs, upd g.hd s p, upd g.bk s i, upd g.fr s (chunks i s), upd g.av i [s], g.ca⟩, [], rfl, ?_, upd_same _ _ _, rfl, ?_, fun x hx _ => hold x hx, ?_⟩
      · refine ⟨⟨?_, ?_, ?_, ?_⟩, ⟨?_, ?_, ?_, ?_, ?_, ?_, ?_⟩, ⟨?_, h.li.ne⟩, ?_, h.bz⟩
        · intro t ht
          dsimp only at ht ⊢
          rcases List.mem_cons.1 ht with rfl | ht
          · rw [upd_same, upd_same]
            exact i2
          · rw [hup _ _ t ht, hup _ _ t ht]
            exact hmf.words t ht
        · intro j
          dsimp only [setslabs]
          by_cases hj : j = i
          · subst hj
            rw [upd_same]
            exact ⟨i4, i3, trivial⟩
          · rw [upd_ne _ _ hj]
            exact hmf.dll j
        · exact hmf.sll
        · exact hmf.cap
        · exact List.nodup_cons.2 ⟨hsn, h.gi.nodup⟩
        · intro t ht
          dsimp only at ht ⊢
          rcases List.mem_cons.1 ht with rfl | ht
          · rw [upd_same, upd_same]
            omega
          · rw [hup _ _ t ht, hup _ _ t ht]
            exact h.gi.slab t ht
        · intro t ht
          dsimp only at ht ⊢
          rcases List.mem_cons.1 ht with rfl | ht
          · rw [upd_same, upd_same]
            exact ⟨nodup_chunks hi, fun c hc => hc⟩
          · rw [hup _ _ t ht, hup _ _ t ht]
            exact h.gi.frn t ht
        · intro j
          dsimp only [setslabs]
          by_cases hj : j = i
          · subst hj
            rw [if_pos rfl, upd_same]
            exact ⟨rfl, (h.gi.bkts j).2⟩
          · rw [if_neg hj, upd_ne _ _ hj]
            exact h.gi.bkts j
        · intro j
          dsimp only
          by_cases hj : j = i
          · subst hj
            rw [upd_same]
            refine ⟨by simp, fun t ht => ?_⟩
            rw [List.mem_singleton] at ht
            subst ht
            rw [upd_same, upd_same]
            exact ⟨by simp, rfl, hfr0⟩
          · rw [upd_ne _ _ hj]
            refine ⟨(h.gi.avn j).1, fun t ht => ?_⟩
            obtain ⟨a, b, c⟩ := (h.gi.avn j).2 t ht
            rw [hup _ _ t a, hup _ _ t a]
            exact ⟨by simp [a], b, c⟩
        · intro j
          dsimp only
          refine ⟨(h.gi.can j).1, fun t ht => ?_⟩
          obtain ⟨a, b, c, d⟩ := (h.gi.can j).2 t ht
          rw [hup _ _ t a, hup _ _ t a]
          refine ⟨by simp [a], b, c, ?_⟩
          by_cases hj : j = i
          · subst hj
            rw [upd_same, List.mem_singleton]
            exact fun e => hsn (by rw [← e]; exact a)
          · rwa [upd_ne _ _ hj]
        · intro t ht
          dsimp only at ht ⊢
          rcases List.mem_cons.1 ht with rfl | ht
          · intro h1
            rw [upd_same, upd_same] at h1
            exact absurd (List.mem_singleton.2 rfl) h1
          · rw [hup _ _ t ht, hup _ _ t ht]
            intro h1 h2
            refine h.gi.full t ht ?_ h2
            by_cases hj : g.bk t = i
            · rw [hj, hav]; simp
            · rwa [upd_ne _ _ hj] at h1
        · intro x hx hx2
          obtain ⟨t, a, b, c, d, e⟩ := h.li.small x hx hx2
          refine ⟨t, List.mem_cons_of_mem _ a, ?_⟩
          dsimp only
          rw [hup _ _ t a, hup _ _ t a]
          exact ⟨b, c, d, e⟩
        · have hs0 := h.sep.add g1 (show 0 < 1048576 by decide) g2 (by decide) g3 g4
          have er : regs ⟨s :: g.slabs, upd g.hd s p, upd g.bk s i, upd g.fr s (chunks i s), upd g.av i [s], g.ca⟩ st.big L = (p, 1048576) :: regs g st.big L := by
            unfold regs
            dsimp only
            rw [List.map_cons, upd_same, List.cons_append]
            congr 2
            exact List.map_congr_left fun t ht => by rw [hup _ _ t ht]
          show Sep (mapin st.mapped p 1048576) (regs _ st.big L)
          rw [er]
          exact hs0
      · intro x hx
        show mapin st.mapped p 1048576 x = true
        unfold mapin
        split
        · rfl
        · exact hx
      · intro t ht
        dsimp only at ht
        rcases List.mem_cons.1 ht with rfl | ht
        · right
          intro x hx hx2
          exact g4 x (by omega) (by omega)
        · exact Or.inl ht
  · obtain ⟨s, l, hsl⟩ : ∃ s l, g.av i = s :: l := by
      cases ha : g.av i with
      | nil => exact absurd ha hav
      | cons s l => exact ⟨s, l, rfl⟩
    have := hslpos s (by rw [hsl]; simp)
    rw [hsl, List.headD_cons] at hb1
    rw [if_neg (by rw [hb1]; omega), hb1]
    exact ⟨s, st, g, l, rfl, h, hsl, rfl, fun _ hx => hx, fun _ _ _ => rfl, fun t ht => Or.inl ht⟩

end Verif.Alloc
