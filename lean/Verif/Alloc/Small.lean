import Verif.Alloc.Size
import Mathlib.Data.List.Perm.Subperm

/-!
# Small allocations
-/

namespace Verif.Alloc

theorem headD_ne {l : List Nat} (h : ∀ x ∈ l, 0 < x) : l.headD 0 = 0 ↔ l = [] := by
  cases l with
  | nil => simp
  | cons a l =>
    have := h a (by simp)
    simp only [List.headD_cons, reduceCtorEq, iff_false]
    omega

/-- What a new chunk is. -/
structure Fresh (g : G) (L : List (Nat × Nat)) (i s c : Nat) : Prop where
  slab : s ∈ g.slabs
  bk : g.bk s = i
  chunk : c ∈ chunks i s
  nf : c ∉ g.fr s
  nc : s ∉ g.ca i
  ne : ∀ x ∈ L, x.2 ≤ 131072 → x.1 ≠ c

theorem takechunk_ok {st : St} {g : G} {L : List (Nat × Nat)} {i s : Nat} {l : List Nat} (h : Inv st g L) (hav : g.av i = s :: l) :
    ∃ c m' b' g', takechunk st i s = .ok (c, { st with mem := m', bkt := b' }) ∧ Inv { st with mem := m', bkt := b' } g' L ∧ Fresh g' L i s c ∧
      ∀ x, (∀ t ∈ g.slabs, x < t ∨ t + 48 ≤ x) → m' x = st.mem x := by
  obtain ⟨hs, hbk, hne⟩ := (h.gi.avn i).2 s (by rw [hav]; simp)
  obtain ⟨hs1, hs2, hs3, hs4, -⟩ := h.gi.slab s hs
  obtain ⟨c, fs, hfr⟩ : ∃ c fs, g.fr s = c :: fs := by
    cases hf : g.fr s with
    | nil => exact absurd hf hne
    | cons c fs => exact ⟨c, fs, rfl⟩
  have hw := h.mi.words s hs
  rw [hfr] at hw
  have hcm : c ∈ g.fr s := by rw [hfr]; simp
  have hc := h.gi.chunk hs hcm
  have hb := (nper_facts hs4).2.2.2.1
  have hcn : c ∉ fs := by
    have := (h.gi.frn s hs).1
    rw [hfr] at this
    exact (List.nodup_cons.1 this).1
  have hfsn : fs.Nodup := by
    have := (h.gi.frn s hs).1
    rw [hfr] at this
    exact (List.nodup_cons.1 this).2
  have hfs : ∀ d ∈ fs, s + 48 ≤ d ∧ d + bsz (g.bk s) ≤ s + 524288 ∧ d % 16 = 0 ∧ 48 ≤ d % 524288 ∧ d / 524288 * 524288 = s :=
    fun d hd => h.gi.chunk hs (by rw [hfr]; simp [hd])
  have hlen : fs.length < 2 ^ 16 := by
    have h1 := (h.gi.frn s hs)
    have h2 := (List.Nodup.subperm h1.1 h1.2).length_le
    rw [hfr, chunks, List.length_map, List.length_range, List.length_cons] at h2
    have := (nper_facts hs4).2.2.1
    omega
  have hn : rd st.mem c = fs.headD 0 := hw.link.1
  have hn64 : fs.headD 0 < 2 ^ 64 := by rw [← hn]; exact rd_lt _ _
  have e1 : takechunk st i s = (let m2 := wr (wr st.mem (s + 24) (fs.headD 0)) (s + 32) fs.length
      if fs.headD 0 = 0 then do
        let st' ← setprev (setslabs { st with mem := m2 } i (l.headD 0)) (l.headD 0) 0
        .ok (c, st')
      else .ok (c, { st with mem := m2 })) := by
    unfold takechunk
    rw [ld_ok (h.slab8 hs (by omega) (by omega)), Res.bind_ok, hw.freehd, List.headD_cons, ld_ok (h.slab8 hs (by omega) (by omega)), Res.bind_ok, hn,
      sw_ok (h.slab8 hs (by omega) (by omega)), Res.bind_ok]
    have ok2 : ∀ m o, o + 8 ≤ 524288 → ok8 ({ st with mem := m } : St).mapped (s + o) := fun m o ho => h.slab8 hs (by omega) (by omega)
    rw [ld_ok (ok2 _ _ (by omega)), Res.bind_ok]
    dsimp only
    rw [rd_wr_ne (by omega) (by omega) (by omega), hw.nfree, List.length_cons, Nat.add_sub_cancel, sw_ok (ok2 _ _ (by omega)), Res.bind_ok]
    dsimp only
    split
    · rw [ld_ok (ok2 _ _ (by omega)), Res.bind_ok]
      dsimp only
      rw [rd_wr_ne (by omega) (by omega) (by omega), rd_wr_ne (by omega) (by omega) (by omega)]
      have := (h.mi.dll i)
      rw [hav] at this
      rw [this.2.1]
    · rfl
  rw [e1]
  dsimp only
  -- words after the two writes
  obtain ⟨m2, hm2⟩ : ∃ m2, wr (wr st.mem (s + 24) (fs.headD 0)) (s + 32) fs.length = m2 := ⟨_, rfl⟩
  rw [hm2]
  have hout : ∀ x, (∀ t ∈ g.slabs, x < t ∨ t + 48 ≤ x) → m2 x = st.mem x := by
    intro x hx
    have := hx s hs
    rw [← hm2, wr_other (by omega), wr_other (by omega)]
  have w2 : ∀ t ∈ g.slabs, SW m2 (g.hd t) (upd g.fr s fs t) t := by
    intro t ht
    have ht1 := (h.gi.slab t ht).1
    by_cases hts : t = s
    · subst hts
      rw [upd_same, ← hm2]
      refine ⟨?_, ?_, ?_, ?_, ?_⟩
      · rw [rd_wr_ne (by omega) (by omega) (by omega), rd_wr_ne (by omega) (by omega) (by omega)]; exact hw.head
      · rw [rd_wr_ne (by omega) (by omega) (by omega), rd_wr_eq _ _ hn64]
      · rw [rd_wr_eq _ _ (by omega)]
      · rw [rd_wr_ne (by omega) (by omega) (by omega), rd_wr_ne (by omega) (by omega) (by omega)]; exact hw.magic
      · exact (hw.link.2.wr (by omega) fun d hd => by have := hfs d hd; omega).wr (by omega) fun d hd => by have := hfs d hd; omega
    · rw [upd_ne _ _ hts, ← hm2]
      have hcf : ∀ d ∈ g.fr t, _ := fun d hd => h.gi.chunk ht hd
      exact ((h.mi.words t ht).wr (by omega) (by omega) (by omega) fun d hd => by have := hcf d hd; omega).wr (by omega) (by omega) (by omega)
        fun d hd => by have := hcf d hd; omega
  have d2 : ∀ j, Seg m2 0 (g.av j) 0 := by
    intro j
    have hal : ∀ t ∈ g.av j, t % 524288 = 0 := fun t ht => (h.gi.slab t ((h.gi.avn j).2 t ht).1).1
    rw [← hm2]
    exact ((h.mi.dll j).wr (by omega) fun t ht => by have := hal t ht; omega).wr (by omega) fun t ht => by have := hal t ht; omega
  have l2 : ∀ j, Link m2 8 (g.ca j) := by
    intro j
    have hal : ∀ t ∈ g.ca j, t % 524288 = 0 := fun t ht => (h.gi.slab t ((h.gi.can j).2 t ht).1).1
    rw [← hm2]
    exact ((h.mi.sll j).wr (by omega) fun t ht => by have := hal t ht; omega).wr (by omega) fun t ht => by have := hal t ht; omega
  have c2 : ∀ j, ∀ t ∈ g.ca j, rd m2 (t + 16) = 0 := by
    intro j t ht
    have hal := (h.gi.slab t ((h.gi.can j).2 t ht).1).1
    rw [← hm2, rd_wr_ne (by omega) (by omega) (by omega), rd_wr_ne (by omega) (by omega) (by omega)]
    exact h.mi.cap j t ht
  have hca : ∀ j, s ∉ g.ca j := by
    intro j hj
    obtain ⟨-, h2, -, h3⟩ := (h.gi.can j).2 s hj
    rw [← h2, hbk, hav] at h3
    exact h3 (by simp)
  have frn' : ∀ t ∈ g.slabs, (upd g.fr s fs t).Nodup ∧ ∀ d ∈ upd g.fr s fs t, d ∈ chunks (g.bk t) t := by
    intro t ht
    by_cases hts : t = s
    · subst hts
      rw [upd_same]
      exact ⟨hfsn, fun d hd => (h.gi.frn t ht).2 d (by rw [hfr]; simp [hd])⟩
    · rw [upd_ne _ _ hts]
      exact h.gi.frn t ht
  have can' : ∀ j (A : Nat → List Nat), (∀ t ∈ g.ca j, t ∉ A j) → (g.ca j).Nodup ∧ ∀ t ∈ g.ca j, t ∈ g.slabs ∧ g.bk t = j ∧ (upd g.fr s fs t).length + 1 = nper j ∧ t ∉ A j := by
    intro j A hA
    refine ⟨(h.gi.can j).1, fun t ht => ?_⟩
    obtain ⟨a, b, c1, d⟩ := (h.gi.can j).2 t ht
    rw [upd_ne _ _ (fun e => hca j (by rw [← e]; exact ht))]
    exact ⟨a, b, c1, hA t ht⟩
  have li' : ∀ A : Nat → List Nat, LInv { g with fr := upd g.fr s fs, av := A } L := by
    intro A
    refine ⟨fun x hx hx2 => ?_, h.li.ne⟩
    obtain ⟨t, a, b, c1, d, e⟩ := h.li.small x hx hx2
    refine ⟨t, a, b, c1, ?_, e⟩
    dsimp only
    by_cases hts : t = s
    · subst hts
      rw [upd_same]
      rw [hfr] at d
      exact fun hh => d (by simp [hh])
    · rw [upd_ne _ _ hts]
      exact d
  have fresh' : ∀ A : Nat → List Nat, Fresh { g with fr := upd g.fr s fs, av := A } L i s c := by
    intro A
    refine ⟨hs, hbk, hbk ▸ (h.gi.frn s hs).2 c hcm, ?_, hca i, ?_⟩
    · dsimp only
      rw [upd_same]
      exact hcn
    · intro x hx hx2 hxc
      obtain ⟨t, a, b, c1, d, e⟩ := h.li.small x hx hx2
      have ht := h.gi.slab t a
      have hf := chunk_facts ht.2.2.2.1 ht.1 c1
      have : t = s := by omega
      subst this
      rw [hxc] at d
      exact d hcm
  have hlpos : ∀ t ∈ l, 0 < t := fun t ht => (h.gi.slab t ((h.gi.avn i).2 t (by rw [hav]; simp [ht])).1).2.1
  by_cases hf0 : fs = []
  · subst hf0
    rw [if_pos (c := ([] : List Nat).headD 0 = 0) rfl]
    have hln : s ∉ l ∧ l.Nodup := by
      have := (h.gi.avn i).1
      rw [hav] at this
      exact List.nodup_cons.1 this
    have hl : ∀ t ∈ l, t ∈ g.slabs ∧ g.bk t = i ∧ g.fr t ≠ [] := fun t ht => (h.gi.avn i).2 t (by rw [hav]; simp [ht])
    -- the last write
    obtain ⟨m3, hm3, hsp⟩ : ∃ m3, ((∀ t, l.head? = some t → m3 = wr m2 (t + 16) 0) ∧ (l = [] → m3 = m2)) ∧
        setprev (setslabs { st with mem := m2 } i (l.headD 0)) (l.headD 0) 0 = .ok { setslabs { st with mem := m2 } i (l.headD 0) with mem := m3 } := by
      cases l with
      | nil => exact ⟨m2, ⟨fun t ht => by simp at ht, fun _ => rfl⟩, rfl⟩
      | cons t l =>
        refine ⟨wr m2 (t + 16) 0, ⟨fun u hu => by simp at hu; rw [hu], fun hh => by simp at hh⟩, ?_⟩
        unfold setprev
        have ht0 := hlpos t (by simp)
        rw [List.headD_cons, if_pos (by omega)]
        have hm : ok8 (setslabs { st with mem := m2 } i t).mapped (t + 16) := h.slab8 (hl t (by simp)).1 (by omega) (by omega)
        rw [sw_ok hm]
        rfl
    rw [hsp, Res.bind_ok]
    have cases3 : m3 = m2 ∨ ∃ t, t ∈ l ∧ m3 = wr m2 (t + 16) 0 := by
      cases l with
      | nil => exact Or.inl (hm3.2 rfl)
      | cons t l => exact Or.inr ⟨t, by simp, hm3.1 t rfl⟩
    refine ⟨c, m3, (setslabs { st with mem := m2 } i (l.headD 0)).bkt, { g with fr := upd g.fr s [], av := upd g.av i l }, rfl, ?_, fresh' _, ?_⟩
    · refine ⟨⟨?_, ?_, ?_, ?_⟩, ⟨h.gi.nodup, h.gi.slab, frn', ?_, ?_, ?_, ?_⟩, li' _, h.sep, h.bz⟩
      · intro t ht
        rcases cases3 with e | ⟨u, hu, e⟩
        · rw [show ({ st with mem := m3, bkt := (setslabs { st with mem := m2 } i (l.headD 0)).bkt } : St).mem = m3 from rfl, e]; exact w2 t ht
        · rw [show ({ st with mem := m3, bkt := (setslabs { st with mem := m2 } i (l.headD 0)).bkt } : St).mem = m3 from rfl, e]
          have ht1 := (h.gi.slab t ht).1
          have hu1 := (h.gi.slab u (hl u hu).1).1
          refine (w2 t ht).wr (by omega) (by omega) (by omega) fun d hd => ?_
          have hd' := chunk_facts (h.gi.slab t ht).2.2.2.1 ht1 ((frn' t ht).2 d hd)
          omega
      · intro j
        dsimp only
        by_cases hj : j = i
        · subst hj
          rw [upd_same]
          have hd := d2 j
          rw [hav] at hd
          cases l with
          | nil => trivial
          | cons t l =>
            rw [hm3.1 t rfl]
            have ht1 := (h.gi.slab t (hl t (by simp)).1).1
            have hl1 : ∀ u ∈ l, u % 524288 = 0 := fun u hu => (h.gi.slab u (hl u (by simp [hu])).1).1
            have htl := (List.nodup_cons.1 hln.2).1
            refine Seg.prev hd.2.2 hln.2 ?_ ?_ ?_
            · intro u hu
              have : u % 524288 = 0 := (h.gi.slab u (hl u hu).1).1
              exact rd_wr_ne (by omega) (by omega) (by omega)
            · intro u hu
              have h1 : u % 524288 = 0 := hl1 u hu
              have : t ≠ u := fun e => htl (e ▸ hu)
              exact rd_wr_ne (by omega) (by omega) (by omega)
            · intro u hu
              simp at hu
              subst hu
              exact rd_wr_eq _ _ (by decide)
        · rw [upd_ne _ _ hj]
          rcases cases3 with e | ⟨u, hu, e⟩
          · rw [e]; exact d2 j
          · rw [e]
            have hu1 := (h.gi.slab u (hl u hu).1).1
            refine (d2 j).wr (by omega) fun t ht => ?_
            obtain ⟨a, b, -⟩ := (h.gi.avn j).2 t ht
            have ht1 := (h.gi.slab t a).1
            have : u ≠ t := fun e => hj (by rw [← b, ← e]; exact (hl u hu).2.1)
            omega
      · intro j
        dsimp only
        rcases cases3 with e | ⟨u, hu, e⟩
        · rw [e]; exact l2 j
        · rw [e]
          have hu1 := (h.gi.slab u (hl u hu).1).1
          refine (l2 j).wr (by omega) fun t ht => ?_
          have ht1 := (h.gi.slab t ((h.gi.can j).2 t ht).1).1
          omega
      · intro j t ht
        dsimp only at ht ⊢
        rcases cases3 with e | ⟨u, hu, e⟩
        · rw [e]; exact c2 j t ht
        · rw [e]
          have hu1 := (h.gi.slab u (hl u hu).1).1
          obtain ⟨a, b, -, d⟩ := (h.gi.can j).2 t ht
          have ht1 := (h.gi.slab t a).1
          have : u ≠ t := by
            rintro rfl
            have : j = i := by rw [← b]; exact (hl u hu).2.1
            subst this
            rw [hav] at d
            exact d (by simp [hu])
          rw [rd_wr_ne (by omega) (by omega) (by omega)]
          exact c2 j t ht
      · intro j
        dsimp only [setslabs]
        by_cases hj : j = i
        · subst hj
          rw [if_pos rfl, upd_same]
          exact ⟨rfl, (h.gi.bkts j).2⟩
        · rw [if_neg hj, upd_ne _ _ hj]
          exact h.gi.bkts j
      · intro j
        dsimp only
        by_cases hj : j = i
        · subst hj
          rw [upd_same]
          refine ⟨hln.2, fun t ht => ?_⟩
          obtain ⟨a, b, c1⟩ := hl t ht
          rw [upd_ne _ _ (fun e => hln.1 (by rw [← e]; exact ht))]
          exact ⟨a, b, c1⟩
        · rw [upd_ne _ _ hj]
          refine ⟨(h.gi.avn j).1, fun t ht => ?_⟩
          obtain ⟨a, b, c1⟩ := (h.gi.avn j).2 t ht
          rw [upd_ne _ _ (fun e => hj (by rw [← b, e]; exact hbk))]
          exact ⟨a, b, c1⟩
      · intro j
        refine can' j _ fun t ht => ?_
        dsimp only
        have := ((h.gi.can j).2 t ht).2.2.2
        by_cases hj : j = i
        · subst hj
          rw [upd_same]
          rw [hav] at this
          exact fun hh => this (by simp [hh])
        · rw [upd_ne _ _ hj]
          exact this
      · intro t ht
        dsimp only
        by_cases hts : t = s
        · subst hts
          intro _ _
          rw [upd_same]
        · rw [upd_ne _ _ hts]
          intro h1 h2
          refine h.gi.full t ht ?_ h2
          by_cases hj : g.bk t = i
          · rw [hj, upd_same] at h1
            rw [hj, hav]
            simp only [List.mem_cons, not_or]
            exact ⟨hts, h1⟩
          · rwa [upd_ne _ _ hj] at h1
    · intro x hx
      rcases cases3 with e | ⟨u, hu, e⟩
      · rw [e]; exact hout x hx
      · rw [e, wr_other (by have := hx u (hl u hu).1; omega)]
        exact hout x hx
  · have hn0 : fs.headD 0 ≠ 0 := fun e => hf0 ((headD_ne fun d hd => by have := hfs d hd; omega).1 e)
    rw [if_neg hn0]
    refine ⟨c, m2, st.bkt, { g with fr := upd g.fr s fs, av := g.av }, rfl, ?_, fresh' _, hout⟩
    refine ⟨⟨w2, d2, l2, c2⟩, ⟨h.gi.nodup, h.gi.slab, frn', h.gi.bkts, ?_, ?_, ?_⟩, li' _, h.sep, h.bz⟩
    · intro j
      refine ⟨(h.gi.avn j).1, fun t ht => ?_⟩
      obtain ⟨a, b, c1⟩ := (h.gi.avn j).2 t ht
      refine ⟨a, b, ?_⟩
      dsimp only
      by_cases hts : t = s
      · subst hts
        rw [upd_same]
        exact hf0
      · rw [upd_ne _ _ hts]
        exact c1
    · intro j
      exact can' j _ fun t ht => ((h.gi.can j).2 t ht).2.2.2
    · intro t ht h1 h2
      dsimp only at h1 h2 ⊢
      by_cases hts : t = s
      · subst hts
        rw [hbk, hav] at h1
        exact absurd (List.mem_cons_self ..) h1
      · rw [upd_ne _ _ hts]
        exact h.gi.full t ht h1 h2

end Verif.Alloc
