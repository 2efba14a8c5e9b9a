import Verif.Alloc.SliceSpec
import Verif.Alloc.Props

/-!
# Lemmas on slices
-/

namespace Verif.Alloc

theorem reach_block {st : St} {L : List (Nat × Nat)} (h : Reach Answers st L) {y : Nat × Nat} (hy : y ∈ L) :
    0 < y.1 ∧ y.1 + y.2 ≤ 2 ^ 47 ∧ ∀ x, y.1 ≤ x → x < y.1 + y.2 → st.mapped x = true := by
  obtain ⟨g, hi⟩ := reach_inv h
  have hl := hi.live hy
  have hr := (room_ge y.2).1
  exact ⟨hl.1, by omega, fun x h1 h2 => (hl.2.2.2 x h1 (by omega)).1⟩

theorem reach_apart {st : St} {L : List (Nat × Nat)} (h : Reach Answers st L) {y z : Nat × Nat} (hy : y ∈ L) (hz : z ∈ L.erase y) : Disjoint y z := by
  have hp := ((sound_partial st L h).1).perm (List.perm_cons_erase hy) (fun {a b} hab => by unfold Disjoint at hab ⊢; omega)
  exact (List.pairwise_cons.1 hp).1 z hz

theorem allocsz_bounds {n : Nat} (h : 16 ≤ n) : ∃ sz, allocsz n = .ok sz ∧ n ≤ sz ∧ (if sz + 8 ≤ 131072 then 1048576 else (sz + 8 + 4095) / 4096 * 4096) ≤ max 1048576 (n + 8200) := by
  by_cases hs : n ≤ 131072
  · obtain ⟨h1, h2, h3⟩ := size_classes hs
    refine ⟨_, h3, h2.2.1, ?_⟩
    have h4 := h2.2.2 13 (by omega)
    split <;> omega
  · obtain ⟨m, h1, h2, h3, h4⟩ := large_classes (show 131072 < n by omega)
    refine ⟨m, h1, h3, ?_⟩
    split <;> omega

theorem rich_answers {os : Nat → Option Nat} {n sz : Nat} (h : Rich os n) (hb : (if sz ≤ 131072 then 1048576 else (sz + 4095) / 4096 * 4096) ≤ n) : Answers os sz := by
  refine h _ ?_ hb
  split <;> omega

theorem rich_mono {os : Nat → Option Nat} {c a b : Nat} (h : a ≤ b) (ho : Rich os (max c (b + 8300))) : Rich os (max c (a + 8300)) :=
  fun k h1 h2 => ho k h1 (by omega)

theorem inithdr_ok {st : St} {L : List (Nat × Nat)} {p sz : Nat} (h : Reach Answers st L) (hm : (p, sz + 8) ∈ L) (hsz : 16 ≤ sz) :
    ∃ m', inithdr st p sz = .ok (p + 16, { st with mem := m' }) ∧ rd m' p = sz - 16 ∧ rd m' (p + 8) = Headmagic ∧ rd m' (p + sz) = Tailmagic ∧
      ∀ x, (x < p ∨ p + 16 ≤ x) → (x < p + sz ∨ p + sz + 8 ≤ x) → m' x = st.mem x := by
  obtain ⟨h1, h2, h3⟩ := reach_block h hm
  dsimp only at h1 h2 h3
  have ok : ∀ m o, o ≤ sz → ok8 ({ st with mem := m } : St).mapped (p + o) := fun m o ho i hi => h3 _ (by omega) (by omega)
  refine ⟨wr (wr (wr st.mem p (sz - 16)) (p + 8) Headmagic) (p + sz) Tailmagic, ?_, ?_, ?_, ?_, ?_⟩
  · unfold inithdr
    dsimp only
    rw [show p + 16 + sz - 16 = p + sz by omega, sw_ok (show ok8 st.mapped p from ok st.mem 0 (by omega))]
    simp only [Res.bind_ok]
    rw [sw_ok (ok _ 8 (by omega))]
    simp only [Res.bind_ok]
    rw [sw_ok (ok _ sz (by omega))]
    simp only [Res.bind_ok]
  · rw [rd_wr_far (by omega), rd_wr_far (by omega), rd_wr_eq _ _ (by omega)]
  · rw [rd_wr_far (by omega), rd_wr_eq _ _ (by omega)]
  · rw [rd_wr_eq _ _ (by omega)]
  · intro x hx hx2
    rw [wr_other (by omega), wr_other (by omega), wr_other (by omega)]

/-- The result of an allocation, once the block is there. -/
theorem hold_ok {st st0 : St} {L : List (Nat × Nat)} {p sz len es : Nat} (h : Reach Answers st ((p, sz + 8) :: L)) (hsz : len * es + 16 ≤ sz) (hk : ∀ y ∈ L, Kept st0 st y) :
    ∃ st', inithdr st p sz = .ok (p + 16, st') ∧ Reach Answers st' ((p, sz + 8) :: L) ∧ Held1 st' ((p, sz + 8) :: L) es ⟨p + 16, len⟩ (p, sz + 8) ∧
      (∀ x, p + 16 ≤ x → x < p + sz → st'.mem x = st.mem x) ∧ ∀ y ∈ L, Kept st0 st' y := by
  have hm : (p, sz + 8) ∈ (p, sz + 8) :: L := List.mem_cons_self
  obtain ⟨m', e, r1, r2, r3, f⟩ := inithdr_ok h hm (by omega)
  refine ⟨_, e, Reach.write h hm fun x hx => f x (by omega) (by omega), ⟨hm, rfl, sz - 16, ?_, r1, r2, ?_, ?_⟩, fun x h1 h2 => f x (by omega) (by omega), ?_⟩
  · dsimp only; omega
  · rw [show (⟨p + 16, len⟩ : Sl).p + (sz - 16) = p + sz by dsimp only; omega]; exact r3
  · dsimp only; omega
  · intro y hy x hx hx2
    have hd := reach_apart h hm (show y ∈ ((p, sz + 8) :: L).erase (p, sz + 8) by rwa [List.erase_cons_head])
    unfold Disjoint at hd
    dsimp only at hd
    exact (f x (by omega) (by omega)).trans (hk y hy x hx hx2)

theorem held_ld {st : St} {L : List (Nat × Nat)} {s : Sl} {es : Nat} {blk : Nat × Nat} (h : Reach Answers st L) (hh : Held1 st L es s blk) :
    s.p - 16 = blk.1 ∧ ∃ cap, blk.2 = cap + 24 ∧ slcap st s.p = .ok cap ∧ checkhdr st s.p = .ok () ∧ s.len * es ≤ cap := by
  obtain ⟨hm, hp, cap, hb, r1, r2, r3, hl⟩ := hh
  obtain ⟨h1, h2, h3⟩ := reach_block h hm
  have he : s.p - 16 = blk.1 := by omega
  have ok0 : ok8 st.mapped blk.1 := fun i hi => h3 _ (by omega) (by omega)
  have ok : ∀ o, o ≤ cap + 16 → ok8 st.mapped (blk.1 + o) := fun o ho i hi => h3 _ (by omega) (by omega)
  refine ⟨he, cap, hb, ?_, ?_, hl⟩
  · unfold slcap
    rw [he, ld_ok (ok 8 (by omega)), r2]
    simp only [Res.bind_ok, if_true]
    rw [ld_ok ok0, r1]
  · unfold checkhdr
    rw [he, ld_ok (ok 8 (by omega)), r2]
    simp only [Res.bind_ok, ne_eq, not_true_eq_false, if_false]
    rw [ld_ok ok0, r1]
    simp only [Res.bind_ok]
    rw [ld_ok (by have := ok (16 + cap) (by omega); rwa [← Nat.add_assoc, ← hp] at this), r3]
    simp only [Res.bind_ok, if_true]

theorem growLoop_ge {len : Nat} : ∀ (f nel : Nat), len ≤ nel + f → len ≤ growLoop f nel len
  | 0, nel, h => h
  | f + 1, nel, h => by
    rw [growLoop]
    split
    · exact growLoop_ge f _ (by omega)
    · omega

theorem growLoop_le {len : Nat} : ∀ (f nel : Nat), nel ≤ len + len / 4 → growLoop f nel len ≤ len + len / 4
  | 0, nel, h => h
  | f + 1, nel, h => by
    rw [growLoop]
    split
    · exact growLoop_le f _ (by omega)
    · exact h

theorem grow_ge (nel len : Nat) : len ≤ grow nel len := growLoop_ge _ _ (by omega)

theorem grow_le (nel len : Nat) (h : nel < len) : grow nel len ≤ len + len / 4 := growLoop_le _ _ (by omega)

end Verif.Alloc
