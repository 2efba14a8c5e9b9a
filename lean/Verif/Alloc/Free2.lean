import Verif.Alloc.Free

/-!
# Freeing small allocations: the three cases
-/

namespace Verif.Alloc

theorem Held.facts {st : St} {g : G} {L : List (Nat × Nat)} {i s c : Nat} (h : Inv st g L) (hh : Held g L i s c) :
    i < 14 ∧ c / 524288 * 524288 = s ∧ (∀ j, s ∉ g.ca j) ∧ (g.fr s).length + 1 ≤ nper i := by
  have hi : i < 14 := by rw [← hh.bk]; exact (h.gi.slab s hh.slab).2.2.2.1
  refine ⟨hi, (chunk_facts hi (h.gi.slab s hh.slab).1 hh.chunk).2.2.2.2, fun j hj => ?_, ?_⟩
  · have := ((h.gi.can j).2 s hj).2.1
    rw [hh.bk] at this
    subst this
    exact hh.nc hj
  · have hn : (c :: g.fr s).Nodup := List.nodup_cons.2 ⟨hh.nf, (h.gi.frn s hh.slab).1⟩
    have hs : (c :: g.fr s) ⊆ chunks i s := by
      intro d hd
      rcases List.mem_cons.1 hd with rfl | hd
      · exact hh.chunk
      · rw [← hh.bk]; exact (h.gi.frn s hh.slab).2 d hd
    have := (List.Nodup.subperm hn hs).length_le
    rwa [List.length_cons, chunks, List.length_map, List.length_range] at this

/-- The outcome of a free. -/
def Freed (st : St) (g : G) (L : List (Nat × Nat)) (c : Nat) (r : Res St) : Prop :=
  ∃ st' g', r = .ok st' ∧ Inv st' g' L ∧ st'.big = st.big ∧
    ∀ x, (∀ t ∈ g.slabs, x < t ∨ t + 48 ≤ x) → (x < c ∨ c + 8 ≤ x) → st'.mem x = st.mem x

theorem free_part {st : St} {g : G} {L : List (Nat × Nat)} {i s c : Nat} (h : Inv st g L) (hh : Held g L i s c) (h0 : g.fr s ≠ []) : Freed st g L c (putback st s c) := by
  obtain ⟨hi, hcs, hnc, hlen⟩ := hh.facts h
  have hav : s ∈ g.av i := by
    by_cases hc : s ∈ g.av i
    · exact hc
    · exact absurd (h.gi.full s hh.slab (by rw [hh.bk]; exact hc) (hnc _)) h0
  have hnp := (nper_facts hi).2.2.1
  obtain ⟨m', e1, e2, e3, e4⟩ := putback_ok (st := st) h.gi hh.slab (fun x hx hx2 => h.slabmap hh.slab hx hx2) h.mi.words (by rw [hh.bk]; exact hh.chunk) hh.nf (by omega)
  refine ⟨{ st with mem := m' }, _, e1, put_inv (A := g.av) (b' := st.bkt) h hh e2 ?_ ?_ ?_ h.gi.bkts (fun j => ⟨(h.gi.avn j).1, fun t ht => Or.inr ht⟩) (fun j t ht => ht) hav, rfl, e4⟩
  · exact fun j => (h.mi.dll j).frame fun t ht => e3 t ((h.gi.avn j).2 t ht).1
  · exact fun j => (h.mi.sll j).frame fun t ht => (e3 t ((h.gi.can j).2 t ht).1).1
  · exact fun j t ht => (e3 t ((h.gi.can j).2 t ht).1).2.trans (h.mi.cap j t ht)

theorem free_full {st : St} {g : G} {L : List (Nat × Nat)} {i s c : Nat} (h : Inv st g L) (hh : Held g L i s c) (h0 : g.fr s = []) :
    Freed st g L c (do let st ← relink st i s; putback st s c) := by
  obtain ⟨hi, hcs, hnc, hlen⟩ := hh.facts h
  obtain ⟨hs1, hs2, hs3, hs4, -⟩ := h.gi.slab s hh.slab
  have hav : ∀ j, s ∉ g.av j := fun j hj => ((h.gi.avn j).2 s hj).2.2 h0
  obtain ⟨hb1, hb2, hb3⟩ := h.gi.bkts i
  obtain ⟨hd, hhd⟩ : ∃ hd, (g.av i).headD 0 = hd := ⟨_, rfl⟩
  rw [hhd] at hb1
  have hdm : hd ≠ 0 → hd ∈ g.av i := by
    intro hne
    cases ha : g.av i with
    | nil => rw [ha] at hhd; exact absurd hhd.symm hne
    | cons t l => rw [ha] at hhd; rw [← hhd]; simp
  have hdal : hd % 8 = 0 ∧ hd < 2 ^ 64 := by
    by_cases hz : hd = 0
    · omega
    · have := h.gi.slab hd ((h.gi.avn i).2 hd (hdm hz)).1; omega
  have hdal2 : hd ≠ 0 → hd % 524288 = 0 := fun hz => (h.gi.slab hd ((h.gi.avn i).2 hd (hdm hz)).1).1
  have hds : hd ≠ 0 → hd ≠ s := fun hz e => hav i (by rw [← e]; exact hdm hz)
  obtain ⟨m3, hm3⟩ : ∃ m3, wr (wr (sp st.mem hd s) (s + 8) hd) (s + 16) 0 = m3 := ⟨_, rfl⟩
  have ok : ∀ m o, o + 8 ≤ 524288 → ok8 ({ st with mem := m } : St).mapped (s + o) := fun m o ho => h.slab8 hh.slab (by omega) (by omega)
  have hrl : relink st i s = .ok (setslabs { st with mem := m3 } i s) := by
    unfold relink
    dsimp only
    rw [hb1, setprev_ok (fun hz => h.slab8 ((h.gi.avn i).2 hd (hdm hz)).1 (by omega) (by omega)), Res.bind_ok, sw_ok (ok _ _ (by omega)), Res.bind_ok]
    dsimp only
    rw [sw_ok (ok _ _ (by omega)), Res.bind_ok]
    dsimp only
    rw [hm3]
  rw [hrl, Res.bind_ok]
  have hh3 : Hdr g st.mem m3 := by
    rw [← hm3]
    refine Hdr.wr16 h.gi (Hdr.wr8 h.gi ?_ hh.slab _) hh.slab _
    rcases sp_cases st.mem hd s with e | ⟨hz, e⟩
    · rw [e]; exact Hdr.refl _ _
    · rw [e]; exact (Hdr.refl _ _).wr16 h.gi ((h.gi.avn i).2 hd (hdm hz)).1 _
  have hnp := (nper_facts hi).2.2.1
  obtain ⟨m', e1, e2, e3, e4⟩ := putback_ok (st := setslabs { st with mem := m3 } i s) h.gi hh.slab (fun x hx hx2 => h.slabmap hh.slab hx hx2) (hh3.words h.gi h.mi.words)
    (by rw [hh.bk]; exact hh.chunk) hh.nf (by omega)
  -- the other slabs
  have other : ∀ t ∈ g.slabs, t ≠ s → rd m3 (t + 8) = rd st.mem (t + 8) ∧ (t ≠ hd → rd m3 (t + 16) = rd st.mem (t + 16)) := by
    intro t ht hts
    have ht1 := h.gi.slab t ht
    rw [← hm3]
    constructor
    · rw [rd_wr_ne (by omega) (by omega) (by omega), rd_wr_ne (by omega) (by omega) (by omega), rd_sp hdal.1 (by omega) (fun hz => by have := hdal2 hz; omega)]
    · intro htd
      rw [rd_wr_ne (by omega) (by omega) (by omega), rd_wr_ne (by omega) (by omega) (by omega), rd_sp hdal.1 (by omega) (fun hz => by omega)]
  have self : rd m3 (s + 8) = hd ∧ rd m3 (s + 16) = 0 := by
    rw [← hm3]
    constructor
    · rw [rd_wr_ne (by omega) (by omega) (by omega), rd_wr_eq _ _ hdal.2]
    · rw [rd_wr_eq _ _ (by decide)]
  have seg3 : ∀ j, Seg m3 0 (upd g.av i (s :: g.av i) j) 0 := by
    intro j
    by_cases hj : j = i
    · subst hj
      rw [upd_same]
      refine ⟨self.2, by rw [self.1, hhd], ?_⟩
      refine Seg.prev (h.mi.dll j) (h.gi.avn j).1 ?_ ?_ ?_
      · intro t ht
        exact (other t ((h.gi.avn j).2 t ht).1 (fun e => hav j (by rw [← e]; exact ht))).1
      · intro t ht
        have htm := List.mem_of_mem_tail ht
        refine (other t ((h.gi.avn j).2 t htm).1 (fun e => hav j (by rw [← e]; exact htm))).2 ?_
        rintro rfl
        have hn := (h.gi.avn j).1
        cases ha : g.av j with
        | nil => rw [ha] at ht; simp at ht
        | cons u l =>
          rw [ha] at hn ht hhd
          rw [List.headD_cons] at hhd
          subst hhd
          exact (List.nodup_cons.1 hn).1 ht
      · intro t ht
        have htm : t ∈ g.av j := List.mem_of_head? ht
        have ht1 := h.gi.slab t ((h.gi.avn j).2 t htm).1
        have : hd = t := by rw [← hhd, List.headD_eq_head?_getD, ht]; rfl
        subst this
        have := hds (by omega)
        rw [← hm3, rd_wr_ne (by omega) (by omega) (by omega), rd_wr_ne (by omega) (by omega) (by omega)]
        unfold sp
        rw [if_pos (by omega)]
        exact rd_wr_eq _ _ (by omega)
    · rw [upd_ne _ _ hj]
      refine (h.mi.dll j).frame fun t ht => ?_
      obtain ⟨a, b, -⟩ := (h.gi.avn j).2 t ht
      obtain ⟨o1, o2⟩ := other t a (fun e => hav j (by rw [← e]; exact ht))
      refine ⟨o1, o2 ?_⟩
      rintro rfl
      have ht1 := h.gi.slab t a
      exact hj (by rw [← b]; exact ((h.gi.avn i).2 t (hdm (by omega))).2.1)
  have caother : ∀ j, ∀ t ∈ g.ca j, rd m3 (t + 8) = rd st.mem (t + 8) ∧ rd m3 (t + 16) = rd st.mem (t + 16) := by
    intro j t ht
    obtain ⟨a, b, -, d⟩ := (h.gi.can j).2 t ht
    obtain ⟨o1, o2⟩ := other t a (fun e => hnc j (by rw [← e]; exact ht))
    refine ⟨o1, o2 ?_⟩
    rintro rfl
    have ht1 := h.gi.slab t a
    have hm := hdm (by omega)
    have : j = i := by rw [← b]; exact ((h.gi.avn i).2 t hm).2.1
    subst this
    exact d hm
  have inA : ∀ j, ∀ t ∈ upd g.av i (s :: g.av i) j, t = s ∧ j = i ∨ t ∈ g.av j := by
    intro j t ht
    by_cases hj : j = i
    · subst hj
      rw [upd_same] at ht
      rcases List.mem_cons.1 ht with e | e
      · exact Or.inl ⟨e, rfl⟩
      · exact Or.inr e
    · rw [upd_ne _ _ hj] at ht
      exact Or.inr ht
  refine ⟨{ st with mem := m', bkt := (setslabs { st with mem := m3 } i s).bkt }, _, e1, put_inv (A := upd g.av i (s :: g.av i)) (b' := (setslabs { st with mem := m3 } i s).bkt) h hh e2 ?_ ?_ ?_ ?_ ?_ ?_ ?_, rfl, ?_⟩
  · intro j
    refine (seg3 j).frame fun t ht => e3 t ?_
    rcases inA j t ht with ⟨rfl, -⟩ | ha
    · exact hh.slab
    · exact ((h.gi.avn j).2 t ha).1
  · exact fun j => (h.mi.sll j).frame fun t ht => (e3 t ((h.gi.can j).2 t ht).1).1.trans (caother j t ht).1
  · exact fun j t ht => ((e3 t ((h.gi.can j).2 t ht).1).2.trans (caother j t ht).2).trans (h.mi.cap j t ht)
  · intro j
    dsimp only [setslabs]
    by_cases hj : j = i
    · subst hj
      rw [if_pos rfl, upd_same]
      exact ⟨rfl, hb2, hb3⟩
    · rw [if_neg hj, upd_ne _ _ hj]
      exact h.gi.bkts j
  · intro j
    refine ⟨?_, inA j⟩
    by_cases hj : j = i
    · subst hj
      rw [upd_same]
      exact List.nodup_cons.2 ⟨hav j, (h.gi.avn j).1⟩
    · rw [upd_ne _ _ hj]
      exact (h.gi.avn j).1
  · intro j t ht
    by_cases hj : j = i
    · subst hj
      rw [upd_same]
      exact List.mem_cons_of_mem _ ht
    · rwa [upd_ne _ _ hj]
  · rw [upd_same]
    exact List.mem_cons_self ..
  · intro x hx hx2
    exact (e4 x hx hx2).trans (hh3.out x hx)

theorem free_last {st : St} {g : G} {L : List (Nat × Nat)} {i s c : Nat} (h : Inv st g L) (hh : Held g L i s c) (h0 : (g.fr s).length + 1 = nper i) :
    Freed st g L c (retire st i s) := by
  obtain ⟨hi, hcs, hnc, hlen⟩ := hh.facts h
  have hnp := nper_facts hi
  obtain ⟨hs1, hs2, hs3, hs4, -⟩ := h.gi.slab s hh.slab
  have hfr : g.fr s ≠ [] := by
    intro e
    rw [e, List.length_nil] at h0
    omega
  have hav : s ∈ g.av i := by
    by_cases hc : s ∈ g.av i
    · exact hc
    · exact absurd (h.gi.full s hh.slab (by rw [hh.bk]; exact hc) (hnc _)) hfr
  obtain ⟨l1, l2, hl⟩ := List.append_of_mem hav
  obtain ⟨u1, u2, u3, u4, u5⟩ := unlink_ok h hl
  have hnd := (h.gi.avn i).1
  rw [hl] at hnd
  obtain ⟨n1, n2, n3⟩ := List.nodup_append.1 hnd
  obtain ⟨n4, n5⟩ := List.nodup_cons.1 n2
  have n6 : s ∉ l1 := fun hm => n3 s hm s (by simp) rfl
  have hsl : ∀ t, t ∈ l1 ∨ t ∈ l2 → t ∈ g.slabs ∧ g.bk t = i ∧ g.fr t ≠ [] := fun t ht => (h.gi.avn i).2 t (by rw [hl]; rcases ht with ht | ht <;> simp [ht])
  have hpos : ∀ t, t ∈ l1 ∨ t ∈ l2 → 0 < t ∧ t % 524288 = 0 := fun t ht => ⟨(h.gi.slab t (hsl t ht).1).2.1, (h.gi.slab t (hsl t ht).1).1⟩
  obtain ⟨nx, hnx⟩ : ∃ nx, l2.headD 0 = nx := ⟨_, rfl⟩
  obtain ⟨pv, hpv⟩ : ∃ pv, l1.getLastD 0 = pv := ⟨_, rfl⟩
  have nxm : nx ≠ 0 → nx ∈ l2 := by
    intro hz
    cases l2 with
    | nil => exact absurd hnx.symm hz
    | cons t l => rw [← hnx]; simp
  have pvm : pv ≠ 0 → pv ∈ l1 := by
    intro hz
    rcases List.eq_nil_or_concat l1 with e | ⟨k, d, e⟩
    · subst e; exact absurd hpv.symm hz
    · subst e; rw [← hpv]; simp
  rw [hnx] at u1 u3 u4 u5
  rw [hpv] at u2 u3 u4 u5
  have nxs : nx ≠ 0 → nx ≠ s ∧ nx % 524288 = 0 := fun hz => ⟨fun e => n4 (by rw [← e]; exact nxm hz), (hpos nx (Or.inr (nxm hz))).2⟩
  have pvs : pv ≠ 0 → pv ≠ s ∧ pv % 524288 = 0 := fun hz => ⟨fun e => n6 (by rw [← e]; exact pvm hz), (hpos pv (Or.inl (pvm hz))).2⟩
  have nx8 : nx % 8 = 0 := by by_cases hz : nx = 0; omega; have := nxs hz; omega
  have pv8 : pv % 8 = 0 := by by_cases hz : pv = 0; omega; have := pvs hz; omega
  obtain ⟨m2, hm2⟩ : ∃ m2, sn (sp st.mem nx pv) pv nx = m2 := ⟨_, rfl⟩
  rw [hm2] at u3 u4 u5
  have u8 := (u4 s hh.slab n6 n4).1
  have u16 := (u4 s hh.slab n6 n4).2
  obtain ⟨hb1, hb2, hb3⟩ := h.gi.bkts i
  have ok : ∀ m o, o + 8 ≤ 524288 → ok8 ({ st with mem := m } : St).mapped (s + o) := fun m o ho => h.slab8 hh.slab (by omega) (by omega)
  have hbk' : (if (st.bkt i).slabs = s then setslabs { st with mem := m2 } i nx else { st with mem := m2 }) =
      { st with mem := m2, bkt := fun j => if j = i then { st.bkt i with slabs := (l1 ++ l2).headD 0 } else st.bkt j } := by
    rw [hb1, hl]
    cases l1 with
    | nil =>
      rw [List.nil_append, List.headD_cons, if_pos rfl, List.nil_append, hnx]
      rfl
    | cons t l =>
      rw [List.cons_append, List.headD_cons, if_neg (fun e => n6 (by rw [e]; simp)), List.cons_append, List.headD_cons]
      congr 1
      funext j
      split
      · next e =>
        subst e
        rw [hl, List.cons_append, List.headD_cons] at hb1
        rw [← hb1]
      · rfl
  have hret : retire st i s = dropslab { st with mem := m2, bkt := fun j => if j = i then { st.bkt i with slabs := (l1 ++ l2).headD 0 } else st.bkt j } i s := by
    unfold retire
    have r1 : ∀ o, (o = 8 ∨ o = 16) → rd (sp st.mem nx pv) (s + o) = rd st.mem (s + o) := by
      intro o ho
      exact rd_sp nx8 (by omega) (fun hz => by have := nxs hz; omega)
    rw [ld_ok (ok st.mem _ (by omega)), Res.bind_ok, ld_ok (ok st.mem _ (by omega)), Res.bind_ok, u1, u2,
      setprev_ok (fun hz => h.slab8 (hsl nx (Or.inr (nxm hz))).1 (by omega) (by omega)), Res.bind_ok, ld_ok (ok _ _ (by omega)), Res.bind_ok, ld_ok (ok _ _ (by omega)), Res.bind_ok]
    dsimp only
    have okp : ∀ m, pv ≠ 0 → ok8 ({ st with mem := m } : St).mapped (pv + 8) := fun m hz => h.slab8 (hsl pv (Or.inl (pvm hz))).1 (by omega) (by omega)
    rw [r1 8 (Or.inl rfl), r1 16 (Or.inr rfl), u1, u2, setnext_ok (okp _), Res.bind_ok]
    dsimp only
    rw [hm2, ld_ok (ok _ _ (by omega)), Res.bind_ok]
    dsimp only
    rw [u8, u1, hbk']
  rw [hret]
  -- facts about the slabs which are left
  have hav2 : ∀ t, t ∈ l1 ++ l2 ↔ t ∈ g.av i ∧ t ≠ s := by
    intro t
    rw [hl]
    simp only [List.mem_append, List.mem_cons]
    constructor
    · rintro (hm | hm)
      · exact ⟨Or.inl hm, fun e => n6 (by rw [← e]; exact hm)⟩
      · exact ⟨Or.inr (Or.inr hm), fun e => n4 (by rw [← e]; exact hm)⟩
    · rintro ⟨hm | hm | hm, hne⟩
      · exact Or.inl hm
      · exact absurd hm hne
      · exact Or.inr hm
  have w2 := u3.words h.gi h.mi.words
  have notav : ∀ t ∈ g.slabs, g.bk t ≠ i ∨ t ∉ g.av i → rd m2 (t + 8) = rd st.mem (t + 8) ∧ rd m2 (t + 16) = rd st.mem (t + 16) := by
    intro t ht hor
    refine u4 t ht ?_ ?_
    · intro hm
      rcases hor with e | e
      · exact e (hsl t (Or.inl hm)).2.1
      · exact e (by rw [hl]; simp [hm])
    · intro hm
      rcases hor with e | e
      · exact e (hsl t (Or.inr hm)).2.1
      · exact e (by rw [hl]; simp [hm])
  have caold : ∀ j, ∀ t ∈ g.ca j, rd m2 (t + 8) = rd st.mem (t + 8) ∧ rd m2 (t + 16) = rd st.mem (t + 16) := by
    intro j t ht
    obtain ⟨a, b, -, d⟩ := (h.gi.can j).2 t ht
    refine notav t a ?_
    by_cases hj : j = i
    · subst hj; exact Or.inr d
    · exact Or.inl (by rw [b]; exact hj)
  have seg2 : ∀ j, Seg m2 0 (upd g.av i (l1 ++ l2) j) 0 := by
    intro j
    by_cases hj : j = i
    · subst hj; rw [upd_same]; exact u5
    · rw [upd_ne _ _ hj]
      exact (h.mi.dll j).frame fun t ht => notav t ((h.gi.avn j).2 t ht).1 (Or.inl (by rw [((h.gi.avn j).2 t ht).2.1]; exact hj))
  have avn2 : ∀ j, (upd g.av i (l1 ++ l2) j).Nodup ∧ ∀ t ∈ upd g.av i (l1 ++ l2) j, t ∈ g.slabs ∧ g.bk t = j ∧ g.fr t ≠ [] ∧ t ≠ s := by
    intro j
    by_cases hj : j = i
    · subst hj
      rw [upd_same]
      refine ⟨List.nodup_append.2 ⟨n1, n5, fun a ha b hb => n3 a ha b (by simp [hb])⟩, fun t ht => ?_⟩
      obtain ⟨a, b⟩ := (hav2 t).1 ht
      obtain ⟨c1, d, e⟩ := (h.gi.avn j).2 t a
      exact ⟨c1, d, e, b⟩
    · rw [upd_ne _ _ hj]
      refine ⟨(h.gi.avn j).1, fun t ht => ?_⟩
      obtain ⟨c1, d, e⟩ := (h.gi.avn j).2 t ht
      refine ⟨c1, d, e, ?_⟩
      rintro rfl
      exact hj (by rw [← d]; exact hh.bk)
  have lives : ∀ x ∈ L, x.2 ≤ 131072 → ∀ t ∈ g.slabs, x.1 ∈ chunks (g.bk t) t → x.1 ∉ g.fr t → t ≠ s := by
    intro x hx hx2 t ht h1 h2 e
    subst e
    exact alone h hh h0 hx hx2 h1 h2
  have updav : ∀ j t, t ≠ s → t ∉ upd g.av i (l1 ++ l2) j → t ∉ g.av j := by
    intro j t hts hn hm
    by_cases hj : j = i
    · subst hj
      rw [upd_same] at hn
      exact hn ((hav2 t).2 ⟨hm, hts⟩)
    · rw [upd_ne _ _ hj] at hn
      exact hn hm
  unfold dropslab
  dsimp only
  rw [if_pos rfl]
  dsimp only
  by_cases hcc : (st.bkt i).ncache < 4
  · -- kept
    rw [if_pos hcc]
    obtain ⟨m4, hm4⟩ : ∃ m4, wr (wr m2 (s + 8) (st.bkt i).cache) (s + 16) 0 = m4 := ⟨_, rfl⟩
    have ok2 : ∀ m b o, o + 8 ≤ 524288 → ok8 ({ st with mem := m, bkt := b } : St).mapped (s + o) := fun m b o ho => h.slab8 hh.slab (by omega) (by omega)
    rw [sw_ok (ok2 _ _ _ (by omega)), Res.bind_ok]
    dsimp only
    rw [sw_ok (ok2 _ _ _ (by omega)), Res.bind_ok]
    dsimp only
    rw [hm4]
    have hh4 : Hdr g st.mem m4 := by
      rw [← hm4]
      exact Hdr.wr16 h.gi (Hdr.wr8 h.gi u3 hh.slab _) hh.slab _
    have keep4 : ∀ t ∈ g.slabs, t ≠ s → rd m4 (t + 8) = rd m2 (t + 8) ∧ rd m4 (t + 16) = rd m2 (t + 16) := by
      intro t ht hts
      have ht1 := (h.gi.slab t ht).1
      rw [← hm4]
      constructor
      · rw [rd_wr_ne (by omega) (by omega) (by omega), rd_wr_ne (by omega) (by omega) (by omega)]
      · rw [rd_wr_ne (by omega) (by omega) (by omega), rd_wr_ne (by omega) (by omega) (by omega)]
    have hcl : (st.bkt i).cache < 2 ^ 64 := by
      rw [hb2]
      cases hca : g.ca i with
      | nil => simp
      | cons t l =>
        have := h.gi.slab t ((h.gi.can i).2 t (by rw [hca]; simp)).1
        rw [List.headD_cons]
        omega
    have w4 := hh4.words h.gi h.mi.words
    refine ⟨_, { g with av := upd g.av i (l1 ++ l2), ca := upd g.ca i (s :: g.ca i) }, rfl, ?_, rfl, fun x hx _ => hh4.out x hx⟩
    refine ⟨⟨w4, ?_, ?_, ?_⟩, ⟨h.gi.nodup, h.gi.slab, h.gi.frn, ?_, ?_, ?_, ?_⟩, ⟨?_, h.li.ne⟩, h.sep, h.bz⟩
    · intro j
      exact (seg2 j).frame fun t ht => keep4 t ((avn2 j).2 t ht).1 ((avn2 j).2 t ht).2.2.2
    · intro j
      dsimp only
      by_cases hj : j = i
      · subst hj
        rw [upd_same]
        refine ⟨?_, (h.mi.sll j).frame fun t ht => ?_⟩
        · rw [← hm4, rd_wr_ne (by omega) (by omega) (by omega), rd_wr_eq _ _ hcl, hb2]
        · rw [(keep4 t ((h.gi.can j).2 t ht).1 (fun e => hnc j (by rw [← e]; exact ht))).1, (caold j t ht).1]
      · rw [upd_ne _ _ hj]
        refine (h.mi.sll j).frame fun t ht => ?_
        rw [(keep4 t ((h.gi.can j).2 t ht).1 (fun e => hnc j (by rw [← e]; exact ht))).1, (caold j t ht).1]
    · intro j t ht
      dsimp only at ht ⊢
      have hor : t = s ∨ t ∈ g.ca j := by
        by_cases hj : j = i
        · subst hj
          rw [upd_same] at ht
          exact List.mem_cons.1 ht
        · rw [upd_ne _ _ hj] at ht
          exact Or.inr ht
      rcases hor with rfl | hm
      · rw [← hm4, rd_wr_eq _ _ (by decide)]
      · rw [(keep4 t ((h.gi.can j).2 t hm).1 (fun e => hnc j (by rw [← e]; exact hm))).2, (caold j t hm).2]
        exact h.mi.cap j t hm
    · intro j
      dsimp only
      by_cases hj : j = i
      · subst hj
        simp only [upd_same, if_true]
        refine ⟨trivial, ?_, ?_⟩
        · rfl
        · rw [hb3, List.length_cons]
      · simp only [if_neg hj, upd_ne _ _ hj]
        exact h.gi.bkts j
    · intro j
      exact ⟨(avn2 j).1, fun t ht => ⟨((avn2 j).2 t ht).1, ((avn2 j).2 t ht).2.1, ((avn2 j).2 t ht).2.2.1⟩⟩
    · intro j
      dsimp only
      have old : ∀ t ∈ g.ca j, t ∈ g.slabs ∧ g.bk t = j ∧ (g.fr t).length + 1 = nper j ∧ t ∉ upd g.av i (l1 ++ l2) j := by
        intro t ht
        obtain ⟨a, b, c1, d⟩ := (h.gi.can j).2 t ht
        refine ⟨a, b, c1, ?_⟩
        by_cases hj : j = i
        · subst hj
          rw [upd_same]
          exact fun hm => d ((hav2 t).1 hm).1
        · rwa [upd_ne _ _ hj]
      by_cases hj : j = i
      · subst hj
        rw [upd_same]
        refine ⟨List.nodup_cons.2 ⟨hnc j, (h.gi.can j).1⟩, fun t ht => ?_⟩
        rcases List.mem_cons.1 ht with rfl | ht
        · exact ⟨hh.slab, hh.bk, h0, fun hm => ((avn2 j).2 t hm).2.2.2 rfl⟩
        · exact old t ht
      · rw [upd_ne _ _ hj]
        exact ⟨(h.gi.can j).1, old⟩
    · intro t ht
      dsimp only
      intro h1 h2
      by_cases hts : t = s
      · subst hts
        rw [hh.bk, upd_same] at h2
        exact absurd (List.mem_cons_self ..) h2
      · refine h.gi.full t ht (updav _ t hts h1) ?_
        by_cases hj : g.bk t = i
        · rw [hj, upd_same] at h2
          rw [hj]
          exact fun hm => h2 (List.mem_cons_of_mem _ hm)
        · rwa [upd_ne _ _ hj] at h2
    · intro x hx hx2
      obtain ⟨t, a, b, c1, d, e⟩ := h.li.small x hx hx2
      refine ⟨t, a, b, c1, d, ?_⟩
      have hts := lives x hx hx2 t a c1 d
      dsimp only
      by_cases hj : g.bk t = i
      · rw [hj, upd_same]
        rw [hj] at e
        rw [List.mem_cons, not_or]
        exact ⟨hts, e⟩
      · rwa [upd_ne _ _ hj]
  · -- given back to the system
    rw [if_neg hcc, ld_ok (by exact h.slab8 hh.slab (by omega) (by omega)), Res.bind_ok]
    dsimp only
    rw [(w2 s hh.slab).head]
    have hsub : ∀ t, t ∈ g.slabs.erase s ↔ t ≠ s ∧ t ∈ g.slabs := fun t => h.gi.nodup.mem_erase_iff
    refine ⟨_, { g with slabs := g.slabs.erase s, av := upd g.av i (l1 ++ l2) }, rfl, ?_, rfl, fun x hx _ => u3.out x hx⟩
    refine ⟨⟨?_, seg2, ?_, ?_⟩, ⟨?_, ?_, ?_, ?_, ?_, ?_, ?_⟩, ⟨?_, h.li.ne⟩, ?_, h.bz⟩
    · intro t ht
      exact w2 t ((hsub t).1 ht).2
    · intro j
      exact (h.mi.sll j).frame fun t ht => (caold j t ht).1
    · intro j t ht
      exact (caold j t ht).2.trans (h.mi.cap j t ht)
    · exact h.gi.nodup.erase s
    · intro t ht
      exact h.gi.slab t ((hsub t).1 ht).2
    · intro t ht
      exact h.gi.frn t ((hsub t).1 ht).2
    · intro j
      dsimp only [freemem]
      by_cases hj : j = i
      · subst hj
        rw [if_pos rfl, upd_same]
        exact ⟨rfl, hb2, hb3⟩
      · rw [if_neg hj, upd_ne _ _ hj]
        exact h.gi.bkts j
    · intro j
      refine ⟨(avn2 j).1, fun t ht => ?_⟩
      obtain ⟨a, b, c1, d⟩ := (avn2 j).2 t ht
      exact ⟨(hsub t).2 ⟨d, a⟩, b, c1⟩
    · intro j
      refine ⟨(h.gi.can j).1, fun t ht => ?_⟩
      obtain ⟨a, b, c1, d⟩ := (h.gi.can j).2 t ht
      refine ⟨(hsub t).2 ⟨fun e => hnc j (by rw [← e]; exact ht), a⟩, b, c1, ?_⟩
      dsimp only
      by_cases hj : j = i
      · subst hj
        rw [upd_same]
        exact fun hm => d ((hav2 t).1 hm).1
      · rwa [upd_ne _ _ hj]
    · intro t ht h1 h2
      obtain ⟨a, b⟩ := (hsub t).1 ht
      exact h.gi.full t b (updav _ t a h1) h2
    · intro x hx hx2
      obtain ⟨t, a, b, c1, d, e⟩ := h.li.small x hx hx2
      exact ⟨t, (hsub t).2 ⟨lives x hx hx2 t a c1 d, a⟩, b, c1, d, e⟩
    · have hp : (regs g st.big L).Perm ((g.hd s, 1048576) :: regs { g with slabs := g.slabs.erase s, av := upd g.av i (l1 ++ l2) } st.big L) := by
        unfold regs
        exact (List.Perm.append_right _ ((List.perm_cons_erase hh.slab).map fun t => (g.hd t, 1048576)))
      exact (h.sep.perm hp).del

theorem bktfree_ok {st : St} {g : G} {L : List (Nat × Nat)} {i s c : Nat} (h : Inv st g L) (hh : Held g L i s c) : Freed st g L c (bktfree st i c) := by
  obtain ⟨hi, hcs, hnc, hlen⟩ := hh.facts h
  have w := h.mi.words s hh.slab
  unfold bktfree
  dsimp only
  rw [hcs, ld_ok (h.slab8 hh.slab (by omega) (by omega)), Res.bind_ok, w.magic, if_neg (by decide), ld_ok (h.slab8 hh.slab (by omega) (by omega)), Res.bind_ok, w.nfree]
  by_cases h1 : g.fr s = []
  · rw [if_pos (by rw [h1]; rfl)]
    exact free_full h hh h1
  · rw [if_neg (fun e => h1 (List.eq_nil_of_length_eq_zero e))]
    by_cases h2 : (g.fr s).length = nper i - 1
    · rw [if_pos h2]
      exact free_last h hh (by have := (nper_facts hi).1; omega)
    · rw [if_neg h2]
      exact free_part h hh h1

end Verif.Alloc
