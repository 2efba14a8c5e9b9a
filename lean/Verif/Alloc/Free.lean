import Verif.Alloc.Find

/-!
# Freeing small allocations
-/

namespace Verif.Alloc

/-- Memory after `prev` of a slab is set, if there is one. -/
def sp (m : Mem) (a v : Nat) : Mem := if a ≠ 0 then wr m (a + 16) v else m
/-- Memory after `next` of a slab is set, if there is one. -/
def sn (m : Mem) (a v : Nat) : Mem := if a ≠ 0 then wr m (a + 8) v else m

theorem setprev_ok {st : St} {a : Nat} (h : a ≠ 0 → ok8 st.mapped (a + 16)) (v : Nat) : setprev st a v = .ok { st with mem := sp st.mem a v } := by
  unfold setprev sp
  split
  · next h0 => rw [sw_ok (h h0)]
  · rfl

theorem setnext_ok {st : St} {a : Nat} (h : a ≠ 0 → ok8 st.mapped (a + 8)) (v : Nat) : setnext st a v = .ok { st with mem := sn st.mem a v } := by
  unfold setnext sn
  split
  · next h0 => rw [sw_ok (h h0)]
  · rfl

theorem sp_cases (m : Mem) (a v : Nat) : sp m a v = m ∨ a ≠ 0 ∧ sp m a v = wr m (a + 16) v := by
  unfold sp
  split
  · exact Or.inr ⟨by assumption, rfl⟩
  · exact Or.inl rfl

theorem sn_cases (m : Mem) (a v : Nat) : sn m a v = m ∨ a ≠ 0 ∧ sn m a v = wr m (a + 8) v := by
  unfold sn
  split
  · exact Or.inr ⟨by assumption, rfl⟩
  · exact Or.inl rfl

theorem rd_sp {m : Mem} {a v b : Nat} (ha : a % 8 = 0) (hb : b % 8 = 0) (h : a ≠ 0 → a + 16 ≠ b) : rd (sp m a v) b = rd m b := by
  rcases sp_cases m a v with e | ⟨h0, e⟩
  · rw [e]
  · rw [e, rd_wr_ne (by omega) hb (h h0)]

theorem rd_sn {m : Mem} {a v b : Nat} (ha : a % 8 = 0) (hb : b % 8 = 0) (h : a ≠ 0 → a + 8 ≠ b) : rd (sn m a v) b = rd m b := by
  rcases sn_cases m a v with e | ⟨h0, e⟩
  · rw [e]
  · rw [e, rd_wr_ne (by omega) hb (h h0)]

/-- Only the words `next` and `prev` of slabs were changed. -/
structure Hdr (g : G) (m m' : Mem) : Prop where
  rd : ∀ a, a % 8 = 0 → (∀ t ∈ g.slabs, a ≠ t + 8 ∧ a ≠ t + 16) → Alloc.rd m' a = Alloc.rd m a
  out : ∀ x, (∀ t ∈ g.slabs, x < t ∨ t + 48 ≤ x) → m' x = m x

theorem Hdr.refl (g : G) (m : Mem) : Hdr g m m := ⟨fun _ _ _ => rfl, fun _ _ => rfl⟩

theorem Hdr.wr8 {g : G} {m m' : Mem} {bkt : Nat → Bkt} (hg : GInv bkt g) (h : Hdr g m m') {s : Nat} (hs : s ∈ g.slabs) (v : Nat) : Hdr g m (wr m' (s + 8) v) := by
  have hs1 := (hg.slab s hs).1
  constructor
  · intro a ha hn
    rw [rd_wr_ne (by omega) ha (fun e => (hn s hs).1 e.symm)]
    exact h.rd a ha hn
  · intro x hx
    rw [wr_other (by have := hx s hs; omega)]
    exact h.out x hx

theorem Hdr.wr16 {g : G} {m m' : Mem} {bkt : Nat → Bkt} (hg : GInv bkt g) (h : Hdr g m m') {s : Nat} (hs : s ∈ g.slabs) (v : Nat) : Hdr g m (wr m' (s + 16) v) := by
  have hs1 := (hg.slab s hs).1
  constructor
  · intro a ha hn
    rw [rd_wr_ne (by omega) ha (fun e => (hn s hs).2 e.symm)]
    exact h.rd a ha hn
  · intro x hx
    rw [wr_other (by have := hx s hs; omega)]
    exact h.out x hx

theorem Hdr.words {g : G} {m m' : Mem} {bkt : Nat → Bkt} (hg : GInv bkt g) (h : Hdr g m m') (hw : ∀ s ∈ g.slabs, SW m (g.hd s) (g.fr s) s) :
    ∀ s ∈ g.slabs, SW m' (g.hd s) (g.fr s) s := by
  intro s hs
  have w := hw s hs
  have hs1 := (hg.slab s hs).1
  have al : ∀ t ∈ g.slabs, t % 524288 = 0 := fun t ht => (hg.slab t ht).1
  refine ⟨?_, ?_, ?_, ?_, ?_⟩
  · rw [h.rd s (by omega) fun t ht => by have := al t ht; omega]; exact w.head
  · rw [h.rd _ (by omega) fun t ht => by have := al t ht; omega]; exact w.freehd
  · rw [h.rd _ (by omega) fun t ht => by have := al t ht; omega]; exact w.nfree
  · rw [h.rd _ (by omega) fun t ht => by have := al t ht; omega]; exact w.magic
  · refine w.link.frame fun c hc => ?_
    have := hg.chunk hs hc
    exact h.rd _ (by omega) fun t ht => by have := al t ht; omega

/-! ## Putting a chunk on the free list -/

theorem putback_ok {st : St} {g : G} {bkt : Nat → Bkt} {s c : Nat} (hg : GInv bkt g) (hs : s ∈ g.slabs) (hm : ∀ x, s ≤ x → x < s + 524288 → st.mapped x = true)
    (hw : ∀ t ∈ g.slabs, SW st.mem (g.hd t) (g.fr t) t) (hc : c ∈ chunks (g.bk s) s) (hn : c ∉ g.fr s) (hlen : (g.fr s).length + 1 < 2 ^ 64) :
    ∃ m', putback st s c = .ok { st with mem := m' } ∧ (∀ t ∈ g.slabs, SW m' (g.hd t) (upd g.fr s (c :: g.fr s) t) t) ∧
      (∀ t ∈ g.slabs, rd m' (t + 8) = rd st.mem (t + 8) ∧ rd m' (t + 16) = rd st.mem (t + 16)) ∧
      ∀ x, (∀ t ∈ g.slabs, x < t ∨ t + 48 ≤ x) → (x < c ∨ c + 8 ≤ x) → m' x = st.mem x := by
  have w := hw s hs
  obtain ⟨hs1, hs2, hs3, hs4, -⟩ := hg.slab s hs
  have hcf := chunk_facts hs4 hs1 hc
  have hb := (nper_facts hs4).2.2.2.1
  have ok : ∀ m a, s ≤ a → a + 8 ≤ s + 524288 → ok8 ({ st with mem := m } : St).mapped a := fun m a h1 h2 j hj => hm _ (by omega) (by omega)
  obtain ⟨f, hf⟩ : ∃ f, (g.fr s).headD 0 = f := ⟨_, rfl⟩
  have hf64 : f < 2 ^ 64 := by rw [← hf, ← w.freehd]; exact rd_lt _ _
  obtain ⟨m3, hm3⟩ : ∃ m3, wr (wr (wr st.mem (s + 32) ((g.fr s).length + 1)) c f) (s + 24) c = m3 := ⟨_, rfl⟩
  refine ⟨m3, ?_, ?_, ?_, ?_⟩
  · unfold putback
    rw [ld_ok (ok st.mem _ (by omega) (by omega)), Res.bind_ok, sw_ok (ok st.mem _ (by omega) (by omega)), Res.bind_ok, ld_ok (ok _ _ (by omega) (by omega)), Res.bind_ok]
    dsimp only
    rw [sw_ok (ok _ _ (by omega) (by omega)), Res.bind_ok, sw_ok (ok _ _ (by omega) (by omega))]
    dsimp only
    rw [rd_wr_ne (by omega) (by omega) (by omega), w.freehd, w.nfree, hf, hm3]
  · intro t ht
    have ht1 := (hg.slab t ht).1
    rw [← hm3]
    by_cases hts : t = s
    · subst hts
      rw [upd_same]
      refine ⟨?_, ?_, ?_, ?_, ?_, ?_⟩
      · rw [rd_wr_ne (by omega) (by omega) (by omega), rd_wr_ne (by omega) (by omega) (by omega), rd_wr_ne (by omega) (by omega) (by omega)]; exact w.head
      · rw [rd_wr_eq _ _ (by omega)]; rfl
      · rw [rd_wr_ne (by omega) (by omega) (by omega), rd_wr_ne (by omega) (by omega) (by omega), rd_wr_eq _ _ (by omega)]; rfl
      · rw [rd_wr_ne (by omega) (by omega) (by omega), rd_wr_ne (by omega) (by omega) (by omega), rd_wr_ne (by omega) (by omega) (by omega)]; exact w.magic
      · show rd _ c = _
        rw [rd_wr_ne (by omega) (by omega) (by omega), rd_wr_eq _ _ hf64, hf]
      · have cf : ∀ d ∈ g.fr t, d % 16 = 0 ∧ 48 ≤ d % 524288 ∧ d ≠ c := fun d hd => ⟨(hg.chunk hs hd).2.2.1, (hg.chunk hs hd).2.2.2.1, fun e => hn (by rw [← e]; exact hd)⟩
        exact ((w.link.wr (by omega) fun d hd => by have := cf d hd; omega).wr (by omega) fun d hd => by have := cf d hd; omega).wr (by omega) fun d hd => by have := cf d hd; omega
    · rw [upd_ne _ _ hts]
      have cf : ∀ d ∈ g.fr t, _ := fun d hd => hg.chunk ht hd
      exact (((hw t ht).wr (by omega) (by omega) (by omega) fun d hd => by have := cf d hd; omega).wr (by omega) (by omega) (by omega)
        fun d hd => by have := cf d hd; omega).wr (by omega) (by omega) (by omega) fun d hd => by have := cf d hd; omega
  · intro t ht
    have ht1 := (hg.slab t ht).1
    rw [← hm3]
    constructor
    · rw [rd_wr_ne (by omega) (by omega) (by omega), rd_wr_ne (by omega) (by omega) (by omega), rd_wr_ne (by omega) (by omega) (by omega)]
    · rw [rd_wr_ne (by omega) (by omega) (by omega), rd_wr_ne (by omega) (by omega) (by omega), rd_wr_ne (by omega) (by omega) (by omega)]
  · intro x hx hx2
    have := hx s hs
    rw [← hm3, wr_other (by omega), wr_other (by omega), wr_other (by omega)]

/-! ## The three cases -/

/-- The freed chunk. -/
structure Held (g : G) (L : List (Nat × Nat)) (i s c : Nat) : Prop where
  slab : s ∈ g.slabs
  bk : g.bk s = i
  chunk : c ∈ chunks i s
  nf : c ∉ g.fr s
  nc : s ∉ g.ca i
  ne : ∀ x ∈ L, x.2 ≤ 131072 → x.1 ≠ c

/-- The free list grows; `A` are the available slabs afterwards. -/
theorem put_inv {st : St} {g : G} {L : List (Nat × Nat)} {i s c : Nat} {A : Nat → List Nat} {m' : Mem} {b' : Nat → Bkt} (h : Inv st g L) (hh : Held g L i s c)
    (hw : ∀ t ∈ g.slabs, SW m' (g.hd t) (upd g.fr s (c :: g.fr s) t) t) (hd : ∀ j, Seg m' 0 (A j) 0) (hl : ∀ j, Link m' 8 (g.ca j)) (hp : ∀ j, ∀ t ∈ g.ca j, rd m' (t + 16) = 0)
    (hb : ∀ j, (b' j).slabs = (A j).headD 0 ∧ (b' j).cache = (g.ca j).headD 0 ∧ (b' j).ncache = (g.ca j).length)
    (hA : ∀ j, (A j).Nodup ∧ ∀ t ∈ A j, t = s ∧ j = i ∨ t ∈ g.av j) (hA2 : ∀ j, ∀ t ∈ g.av j, t ∈ A j) (hA3 : s ∈ A i) :
    Inv { st with mem := m', bkt := b' } { g with fr := upd g.fr s (c :: g.fr s), av := A } L := by
  refine ⟨⟨hw, hd, hl, hp⟩, ⟨h.gi.nodup, h.gi.slab, ?_, hb, ?_, ?_, ?_⟩, ⟨?_, h.li.ne⟩, h.sep, h.bz⟩
  · intro t ht
    dsimp only
    by_cases hts : t = s
    · subst hts
      rw [upd_same]
      refine ⟨List.nodup_cons.2 ⟨hh.nf, (h.gi.frn t ht).1⟩, fun d hd => ?_⟩
      rcases List.mem_cons.1 hd with rfl | hd
      · rw [hh.bk]; exact hh.chunk
      · exact (h.gi.frn t ht).2 d hd
    · rw [upd_ne _ _ hts]
      exact h.gi.frn t ht
  · intro j
    dsimp only
    refine ⟨(hA j).1, fun t ht => ?_⟩
    rcases (hA j).2 t ht with ⟨rfl, rfl⟩ | ha
    · rw [upd_same]
      exact ⟨hh.slab, hh.bk, by simp⟩
    · obtain ⟨a, b, c1⟩ := (h.gi.avn j).2 t ha
      refine ⟨a, b, ?_⟩
      by_cases hts : t = s
      · subst hts; rw [upd_same]; simp
      · rw [upd_ne _ _ hts]; exact c1
  · intro j
    dsimp only
    refine ⟨(h.gi.can j).1, fun t ht => ?_⟩
    obtain ⟨a, b, c1, d⟩ := (h.gi.can j).2 t ht
    have hts : t ≠ s := by
      rintro rfl
      rw [hh.bk] at b
      subst b
      exact hh.nc ht
    rw [upd_ne _ _ hts]
    refine ⟨a, b, c1, fun ha => ?_⟩
    rcases (hA j).2 t ha with ⟨e, -⟩ | ha
    · exact hts e
    · exact d ha
  · intro t ht
    dsimp only
    intro h1 h2
    by_cases hts : t = s
    · subst hts
      rw [hh.bk] at h1
      exact absurd hA3 h1
    · rw [upd_ne _ _ hts]
      exact h.gi.full t ht (fun ha => h1 (hA2 _ t ha)) h2
  · intro x hx hx2
    obtain ⟨t, a, b, c1, d, e⟩ := h.li.small x hx hx2
    refine ⟨t, a, b, c1, ?_, e⟩
    dsimp only
    by_cases hts : t = s
    · subst hts
      rw [upd_same, List.mem_cons, not_or]
      exact ⟨hh.ne x hx hx2, d⟩
    · rwa [upd_ne _ _ hts]

/-- Another live chunk would be one too many. -/
theorem alone {st : St} {g : G} {L : List (Nat × Nat)} {i s c : Nat} (h : Inv st g L) (hh : Held g L i s c) (hl : (g.fr s).length + 1 = nper i) {x : Nat × Nat} (hx : x ∈ L)
    (hx2 : x.2 ≤ 131072) (h1 : x.1 ∈ chunks (g.bk s) s) (h2 : x.1 ∉ g.fr s) : False := by
  have hn : (c :: x.1 :: g.fr s).Nodup := by
    rw [List.nodup_cons, List.nodup_cons, List.mem_cons, not_or]
    exact ⟨⟨fun e => hh.ne x hx hx2 e.symm, hh.nf⟩, h2, (h.gi.frn s hh.slab).1⟩
  have hs : (c :: x.1 :: g.fr s) ⊆ chunks (g.bk s) s := by
    intro d hd
    simp only [List.mem_cons] at hd
    rcases hd with rfl | rfl | hd
    · rw [hh.bk]; exact hh.chunk
    · exact h1
    · exact (h.gi.frn s hh.slab).2 d hd
  have := (List.Nodup.subperm hn hs).length_le
  rw [List.length_cons, List.length_cons, chunks, List.length_map, List.length_range, hh.bk] at this
  omega

/-- The slab is taken out of the list of available ones. -/
theorem unlink_ok {st : St} {g : G} {L : List (Nat × Nat)} {i s : Nat} {l1 l2 : List Nat} (h : Inv st g L) (hav : g.av i = l1 ++ s :: l2) :
    rd st.mem (s + 8) = l2.headD 0 ∧ rd st.mem (s + 16) = l1.getLastD 0 ∧
      Hdr g st.mem (sn (sp st.mem (l2.headD 0) (l1.getLastD 0)) (l1.getLastD 0) (l2.headD 0)) ∧
      (∀ t ∈ g.slabs, t ∉ l1 → t ∉ l2 → rd (sn (sp st.mem (l2.headD 0) (l1.getLastD 0)) (l1.getLastD 0) (l2.headD 0)) (t + 8) = rd st.mem (t + 8) ∧
        rd (sn (sp st.mem (l2.headD 0) (l1.getLastD 0)) (l1.getLastD 0) (l2.headD 0)) (t + 16) = rd st.mem (t + 16)) ∧
      Seg (sn (sp st.mem (l2.headD 0) (l1.getLastD 0)) (l1.getLastD 0) (l2.headD 0)) 0 (l1 ++ l2) 0 := by
  have hd := h.mi.dll i
  rw [hav, Seg.append] at hd
  obtain ⟨d1, d2, d3, d4⟩ := hd
  rw [List.headD_cons] at d1
  have hnd := (h.gi.avn i).1
  rw [hav] at hnd
  obtain ⟨n1, n2, n3⟩ := List.nodup_append.1 hnd
  obtain ⟨n4, n5⟩ := List.nodup_cons.1 n2
  have hsl : ∀ t, t ∈ l1 ∨ t ∈ l2 → t ∈ g.slabs := fun t ht => ((h.gi.avn i).2 t (by rw [hav]; rcases ht with ht | ht <;> simp [ht])).1
  obtain ⟨nx, hnx⟩ : ∃ nx, l2.headD 0 = nx := ⟨_, rfl⟩
  obtain ⟨pv, hpv⟩ : ∃ pv, l1.getLastD 0 = pv := ⟨_, rfl⟩
  have nxm : nx ≠ 0 → nx ∈ l2 := by
    intro h0
    cases l2 with
    | nil => exact absurd hnx.symm h0
    | cons t l => rw [← hnx]; simp
  have pvm : pv ≠ 0 → pv ∈ l1 := by
    intro h0
    rcases List.eq_nil_or_concat l1 with e | ⟨k, d, e⟩
    · subst e; exact absurd hpv.symm h0
    · subst e; rw [← hpv]; simp
  have al : ∀ t ∈ g.slabs, t % 524288 = 0 ∧ t < 2 ^ 47 := fun t ht => ⟨(h.gi.slab t ht).1, by have := (h.gi.slab t ht).2.2.1; omega⟩
  have nxa : nx % 8 = 0 ∧ nx < 2 ^ 64 := by
    by_cases h0 : nx = 0
    · omega
    · have := al nx (hsl nx (Or.inr (nxm h0))); omega
  have pva : pv % 8 = 0 ∧ pv < 2 ^ 64 := by
    by_cases h0 : pv = 0
    · omega
    · have := al pv (hsl pv (Or.inl (pvm h0))); omega
  rw [hnx] at d3 ⊢
  rw [hpv] at d2 ⊢
  have sep : ∀ t ∈ l1, t ∉ l2 := fun t ht ht2 => n3 t ht t (by simp [ht2]) rfl
  refine ⟨d3, d2, ?_, ?_, ?_⟩
  · have e1 : Hdr g st.mem (sp st.mem nx pv) := by
      rcases sp_cases st.mem nx pv with e | ⟨h0, e⟩
      · rw [e]; exact Hdr.refl _ _
      · rw [e]; exact (Hdr.refl _ _).wr16 h.gi (hsl nx (Or.inr (nxm h0))) _
    rcases sn_cases (sp st.mem nx pv) pv nx with e | ⟨h0, e⟩
    · rw [e]; exact e1
    · rw [e]; exact e1.wr8 h.gi (hsl pv (Or.inl (pvm h0))) _
  · intro t ht t1 t2
    have ht1 := (al t ht).1
    have hp : pv ≠ 0 → pv ≠ t := fun h0 e => t1 (by rw [← e]; exact pvm h0)
    have hn : nx ≠ 0 → nx ≠ t := fun h0 e => t2 (by rw [← e]; exact nxm h0)
    constructor
    · rw [rd_sn pva.1 (by omega) (fun h0 => by have := hp h0; omega), rd_sp nxa.1 (by omega) (fun h0 => by have := al nx (hsl nx (Or.inr (nxm h0))); omega)]
    · rw [rd_sn pva.1 (by omega) (fun h0 => by have := al pv (hsl pv (Or.inl (pvm h0))); omega), rd_sp nxa.1 (by omega) (fun h0 => by have := hn h0; omega)]
  · rw [Seg.append, hnx, hpv]
    constructor
    · refine Seg.next d1 n1 ?_ ?_ ?_
      · intro t ht
        have ht1 := (al t (hsl t (Or.inl ht))).1
        have hn : nx ≠ 0 → nx ≠ t := fun h0 e => sep t ht (by rw [← e]; exact nxm h0)
        rw [rd_sn pva.1 (by omega) (fun h0 => by have := al pv (hsl pv (Or.inl (pvm h0))); omega), rd_sp nxa.1 (by omega) (fun h0 => by have := hn h0; omega)]
      · intro t ht
        have htm : t ∈ l1 := List.dropLast_subset _ ht
        have ht1 := (al t (hsl t (Or.inl htm))).1
        have hp : pv ≠ t := by
          intro e
          rcases List.eq_nil_or_concat l1 with e2 | ⟨k, d, e2⟩
          · subst e2; simp at ht
          · subst e2
            simp only [List.concat_eq_append] at *
            rw [List.dropLast_concat] at ht
            have : d = pv := by rw [← hpv]; simp
            subst this
            rw [List.nodup_append] at n1
            exact n1.2.2 t ht d (by simp) e.symm
        rw [rd_sn pva.1 (by omega) (fun h0 => by omega), rd_sp nxa.1 (by omega) (fun h0 => by have := al nx (hsl nx (Or.inr (nxm h0))); omega)]
      · intro t ht
        have htm : t ∈ l1 := List.mem_of_getLast? ht
        have ht1 := h.gi.slab t (hsl t (Or.inl htm))
        have : pv = t := by rw [← hpv, List.getLastD_eq_getLast?, ht]; rfl
        subst this
        unfold sn
        rw [if_pos (by omega)]
        exact rd_wr_eq _ _ nxa.2
    · refine Seg.prev d4 n5 ?_ ?_ ?_
      · intro t ht
        have ht1 := (al t (hsl t (Or.inr ht))).1
        have hp : pv ≠ 0 → pv ≠ t := fun h0 e => sep pv (pvm h0) (by rw [e]; exact ht)
        rw [rd_sn pva.1 (by omega) (fun h0 => by have := hp h0; omega), rd_sp nxa.1 (by omega) (fun h0 => by have := al nx (hsl nx (Or.inr (nxm h0))); omega)]
      · intro t ht
        have htm : t ∈ l2 := List.mem_of_mem_tail ht
        have ht1 := (al t (hsl t (Or.inr htm))).1
        have hn : nx ≠ t := by
          intro e
          cases l2 with
          | nil => simp at ht
          | cons u l =>
            rw [List.headD_cons] at hnx
            rw [List.tail_cons] at ht
            exact (List.nodup_cons.1 n5).1 (by rw [hnx, e]; exact ht)
        rw [rd_sn pva.1 (by omega) (fun h0 => by have := al pv (hsl pv (Or.inl (pvm h0))); omega), rd_sp nxa.1 (by omega) (fun h0 => by omega)]
      · intro t ht
        have htm : t ∈ l2 := List.mem_of_head? ht
        have ht1 := h.gi.slab t (hsl t (Or.inr htm))
        have : nx = t := by rw [← hnx, List.headD_eq_head?_getD, ht]; rfl
        subst this
        rw [rd_sn pva.1 (by omega) (fun h0 => by have := al pv (hsl pv (Or.inl (pvm h0))); omega)]
        unfold sp
        rw [if_pos (by omega)]
        exact rd_wr_eq _ _ pva.2

end Verif.Alloc
