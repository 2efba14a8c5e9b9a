import Verif.Alloc.SliceLemmas

/-!
# C80: slices on the heap
-/

namespace Verif.Alloc

/-- **C80.** A new slice has a live block of its own which is large enough; what was in other blocks stays. -/
theorem slalloc_fresh {st : St} {L : List (Nat × Nat)} (h : Reach Answers st L) {os : Nat → Option Nat} {len es : Nat} (hc : Contract st os)
    (ho : Rich os (max 1048576 (len * es + 8300))) (hl : 0 < len) :
    ∃ s st' blk, slalloc os st len es = .ok (s, st') ∧ s.len = len ∧ Reach Answers st' (blk :: L) ∧ Held1 st' (blk :: L) es s blk ∧ ∀ y ∈ L, Kept st st' y := by
  obtain ⟨sz, e1, h1, h2⟩ := allocsz_bounds (show 16 ≤ len * es + 16 by omega)
  have ha : Answers os (sz + 8) := rich_answers ho (by omega)
  obtain ⟨p, st1, e2⟩ := (alloc_total_partial h hc ha).1
  obtain ⟨st2, e3, r, hh, -, k⟩ := hold_ok (len := len) (es := es) (Reach.alloc h hc ha e2) h1 (fun y hy => (contents_kept h).1 os _ p hc ha e2 y hy)
  refine ⟨⟨p + 16, len⟩, st2, (p, sz + 8), ?_, rfl, r, hh, k⟩
  unfold slalloc
  rw [if_neg (by omega), e1]
  simp only [Res.bind_ok]
  rw [e2]
  simp only [Res.bind_ok]
  rw [e3]
  simp only [Res.bind_ok]

/-- **C80**: `slzalloc` likewise, and the elements are zeros. -/
theorem slzalloc_fresh {st : St} {L : List (Nat × Nat)} (h : Reach Answers st L) {os : Nat → Option Nat} {len es : Nat} (hc : Contract st os)
    (ho : Rich os (max 1048576 (len * es + 8300))) (hl : 0 < len) :
    ∃ s st' blk, slzalloc os st len es = .ok (s, st') ∧ s.len = len ∧ Reach Answers st' (blk :: L) ∧ Held1 st' (blk :: L) es s blk ∧ (∀ y ∈ L, Kept st st' y) ∧
      ∀ k, k < len * es → st'.mem (s.p + k) = 0 := by
  obtain ⟨sz, e1, h1, h2⟩ := allocsz_bounds (show 16 ≤ len * es + 16 by omega)
  have ha : Answers os (sz + 8) := rich_answers ho (by omega)
  obtain ⟨p, st1, e2⟩ := (alloc_total_partial h hc ha).2
  obtain ⟨z1, z2⟩ := zeroed h hc ha e2
  obtain ⟨st2, e3, r, hh, f, k⟩ := hold_ok (len := len) (es := es) (Reach.zalloc h hc ha e2) h1 z2
  refine ⟨⟨p + 16, len⟩, st2, (p, sz + 8), ?_, rfl, r, hh, k, fun k hk => ?_⟩
  · unfold slzalloc
    rw [if_neg (by omega), e1]
    simp only [Res.bind_ok]
    rw [e2]
    simp only [Res.bind_ok]
    rw [e3]
    simp only [Res.bind_ok]
  · dsimp only
    rw [f _ (by omega) (by omega), z1 _ (by omega) (by omega)]

/-- **C80**: a slice is freed with the block it was given, which is live no more; what is in other blocks stays. -/
theorem slfree_frees {st : St} {L : List (Nat × Nat)} (h : Reach Answers st L) {s : Sl} {es : Nat} {blk : Nat × Nat} (hh : Held1 st L es s blk) :
    ∃ st', slfree st s = .ok st' ∧ Reach Answers st' (L.erase blk) ∧ ∀ y ∈ L.erase blk, Kept st st' y := by
  obtain ⟨he, cap, hb, e1, e2, -⟩ := held_ld h hh
  have hb' : blk = (blk.1, cap + 24) := by rw [← hb]
  have hm : (blk.1, cap + 24) ∈ L := hb' ▸ hh.1
  obtain ⟨st', e3⟩ := free_total h hm
  refine ⟨st', ?_, ?_, ?_⟩
  · unfold slfree
    rw [if_neg (by have := hh.2.1; omega), e2]
    simp only [Res.bind_ok]
    rw [e1]
    simp only [Res.bind_ok]
    rw [he]
    exact e3
  · rw [hb']; exact Reach.free h hm e3
  · rw [hb']; exact fun y hy x => (contents_kept h).2 _ _ hm e3 y hy x

/-- **C80**: a slice whose block is kept is still good. -/
theorem held_kept {st st' : St} {L L' : List (Nat × Nat)} {s : Sl} {es : Nat} {blk : Nat × Nat} (hh : Held1 st L es s blk) (hm : blk ∈ L') (hk : Kept st st' blk) : Held1 st' L' es s blk := by
  obtain ⟨-, hp, cap, hb, r1, r2, r3, hl⟩ := hh
  refine ⟨hm, hp, cap, hb, ?_, ?_, ?_, hl⟩
  · rw [rd_congr fun x h1 h2 => hk x (by omega) (by omega)]; exact r1
  · rw [rd_congr fun x h1 h2 => hk x (by omega) (by omega)]; exact r2
  · rw [rd_congr fun x h1 h2 => hk x (by omega) (by omega)]; exact r3

/-- The elements may be written. -/
theorem held_write {st : St} {L : List (Nat × Nat)} {s : Sl} {es : Nat} {blk : Nat × Nat} (h : Reach Answers st L) (hh : Held1 st L es s blk) {m' : Mem}
    (hw : ∀ x, (x < s.p ∨ s.p + s.len * es ≤ x) → m' x = st.mem x) :
    Reach Answers { st with mem := m' } L ∧ Held1 { st with mem := m' } L es s blk ∧ ∀ y ∈ L, y ≠ blk → Kept st { st with mem := m' } y := by
  obtain ⟨hm, hp, cap, hb, r1, r2, r3, hl⟩ := hh
  refine ⟨Reach.write (p := blk.1) (sz := blk.2) h hm fun x hx => hw x (by omega), ⟨hm, hp, cap, hb, ?_, ?_, ?_, hl⟩, ?_⟩
  · exact (rd_congr fun x h1 h2 => hw x (by omega)).trans r1
  · exact (rd_congr fun x h1 h2 => hw x (by omega)).trans r2
  · exact (rd_congr fun x h1 h2 => hw x (by omega)).trans r3
  · intro y hy hn x h1 h2
    have hd := reach_apart h hm ((List.mem_erase_of_ne hn).2 hy)
    unfold Disjoint at hd
    exact hw x (by omega)

/-- **C80**: a slice grown or shrunk has the length asked for and a block large enough for it; its elements stay, as many as
there are in both; the blocks of others stay live and keep what is in them. -/
theorem slgrow_keeps {st : St} {L : List (Nat × Nat)} (h : Reach Answers st L) {s : Sl} {es : Nat} (hs : Holds st L es s) {os : Nat → Option Nat} {len : Nat} (hc : Contract st os)
    (ho : Rich os (max 1048576 ((len + len / 4) * es + 8300))) :
    ∃ s' st' L', slgrow os st s len es = .ok (s', st') ∧ s'.len = len ∧ Reach Answers st' L' ∧ Holds st' L' es s' ∧
      (∀ k, k < min s.len len * es → st'.mem (s'.p + k) = st.mem (s.p + k)) ∧ ∀ y ∈ L, y.1 + 16 ≠ s.p → y.1 + 16 ≠ s'.p ∧ y ∈ L' ∧ Kept st st' y := by
  obtain ⟨cap, ec, hcap⟩ : ∃ cap, capof st s = .ok cap ∧ ((s.p = 0 ∧ s.len * es = 0 ∧ cap = 0) ∨ ∃ blk, Held1 st L es s blk ∧ blk.2 = cap + 24 ∧ s.len * es ≤ cap) := by
    unfold capof
    rcases hs with ⟨h1, h2⟩ | ⟨blk, hh⟩
    · exact ⟨0, by rw [if_neg (by omega)], Or.inl ⟨h1, h2, rfl⟩⟩
    · obtain ⟨-, cap, hb, e1, -, e3⟩ := held_ld h hh
      exact ⟨cap, by rw [if_pos (by have := hh.2.1; omega), e1], Or.inr ⟨blk, hh, hb, e3⟩⟩
  unfold slgrow
  rw [ec]
  simp only [Res.bind_ok]
  by_cases hle : len * es ≤ cap
  · rw [if_pos hle]
    refine ⟨_, st, L, rfl, rfl, h, ?_, fun k _ => rfl, fun y hy hn => ⟨hn, hy, fun x _ _ => rfl⟩⟩
    rcases hcap with ⟨h1, h2, rfl⟩ | ⟨blk, hh, hb, h3⟩
    · exact Or.inl ⟨h1, by dsimp only; omega⟩
    · obtain ⟨hm, hp, c, hb2, r1, r2, r3, hl⟩ := hh
      exact Or.inr ⟨blk, hm, hp, c, hb2, r1, r2, r3, by dsimp only; omega⟩
  · rw [if_neg hle]
    have hes : s.len * es < len * es := by rcases hcap with ⟨h1, h2, rfl⟩ | ⟨blk, hh, hb, h3⟩ <;> omega
    have hlt : s.len < len := Nat.lt_of_mul_lt_mul_right hes
    have hn1 := grow_ge s.len len
    have hn2 := grow_le s.len len hlt
    have hn3 := Nat.mul_le_mul_right es hn2
    have hn4 := Nat.mul_le_mul_right es hn1
    obtain ⟨t, st1, nb, e1, tl, r1, hh1, k1⟩ := slalloc_fresh (len := grow s.len len) (es := es) h hc (rich_mono hn3 ho) (by omega)
    rw [e1]
    simp only [Res.bind_ok]
    have hmin : min len s.len = s.len := by omega
    have hmin2 : min s.len len = s.len := by omega
    rw [hmin, hmin2]
    have hsrc : ∀ i, i < s.len * es → st1.mapped (s.p + i) = true ∧ st1.mem (s.p + i) = st.mem (s.p + i) := by
      intro i hi
      rcases hcap with ⟨-, h2, -⟩ | ⟨blk, hh, hb, h3⟩
      · omega
      · obtain ⟨hm, hp, -⟩ := hh
        exact ⟨(reach_block r1 (List.mem_cons_of_mem _ hm)).2.2 _ (by omega) (by omega), k1 blk hm _ (by omega) (by omega)⟩
    have hdst : ∀ i, i < s.len * es → st1.mapped (t.p + i) = true := by
      intro i hi
      obtain ⟨hm, hp, c, hb, -, -, -, hl⟩ := hh1
      rw [tl] at hl
      exact (reach_block r1 hm).2.2 _ (by omega) (by omega)
    have e2 : memblit st1 t.p s.p (s.len * es) = .ok { st1 with mem := fun x => if t.p ≤ x ∧ x < t.p + s.len * es then st1.mem (s.p + (x - t.p)) else st1.mem x } := by
      unfold memblit
      rw [if_pos ⟨hdst, fun i hi => (hsrc i hi).1⟩]
    rw [e2]
    simp only [Res.bind_ok]
    obtain ⟨r2, hh2, k2⟩ := held_write r1 hh1 (m' := fun x => if t.p ≤ x ∧ x < t.p + s.len * es then st1.mem (s.p + (x - t.p)) else st1.mem x) (fun x hx => if_neg (by rw [tl] at hx; omega))
    obtain ⟨st2, hst2⟩ : ∃ st2 : St, ({ st1 with mem := fun x => if t.p ≤ x ∧ x < t.p + s.len * es then st1.mem (s.p + (x - t.p)) else st1.mem x } : St) = st2 := ⟨_, rfl⟩
    have hcopy : ∀ k, k < s.len * es → st2.mem (t.p + k) = st.mem (s.p + k) := by
      intro k hk
      rw [← hst2]
      dsimp only
      rw [if_pos (by omega), Nat.add_sub_cancel_left]
      exact (hsrc k hk).2
    rw [hst2] at r2 hh2 k2 ⊢
    have hnew : ∀ y ∈ L, y.1 ≠ nb.1 := by
      intro y hy e
      have hd := reach_apart r1 (List.mem_cons_self (a := nb)) (show y ∈ (nb :: L).erase nb by rwa [List.erase_cons_head])
      unfold Disjoint at hd
      omega
    have k3 : ∀ y ∈ L, Kept st st2 y := fun y hy x h1 h2 => (k2 y (List.mem_cons_of_mem _ hy) (fun e => hnew y hy (by rw [e])) x h1 h2).trans (k1 y hy x h1 h2)
    have hne : ∀ y ∈ L, y.1 + 16 ≠ t.p := fun y hy e => hnew y hy (by have := hh1.2.1; omega)
    have hshrink : ∀ {st' : St} {L' : List (Nat × Nat)}, Held1 st' L' es t nb → Held1 st' L' es ⟨t.p, len⟩ nb := by
      rintro st' L' ⟨hm, hp, c, hb2, q1, q2, q3, hl⟩
      exact ⟨hm, hp, c, hb2, q1, q2, q3, by rw [tl] at hl; dsimp only; omega⟩
    unfold freeold
    by_cases hz : 0 < s.len
    · rw [if_pos hz]
      rcases hcap with ⟨-, h2, -⟩ | ⟨blk, hh, hb, h3⟩
      · exfalso
        have : s.len = 0 ∨ es = 0 := Nat.mul_eq_zero.1 h2
        rcases this with h0 | h0
        · omega
        · rw [h0] at hes; omega
      · have hho : Held1 st2 (nb :: L) es s blk := held_kept hh (List.mem_cons_of_mem _ hh.1) (k3 blk hh.1)
        obtain ⟨st3, e3, r3, k4⟩ := slfree_frees r2 hho
        rw [e3]
        simp only [Res.bind_ok]
        have hnb : nb ∈ (nb :: L).erase blk := (List.mem_erase_of_ne fun e => hnew blk hh.1 (by rw [e])).2 List.mem_cons_self
        refine ⟨_, st3, _, rfl, rfl, r3, Or.inr ⟨nb, hshrink (held_kept hh2 hnb (k4 nb hnb))⟩, ?_, ?_⟩
        · intro k hk
          rw [← hcopy k hk]
          obtain ⟨-, hp, c, hb2, -, -, -, hl⟩ := hh2
          rw [tl] at hl
          exact k4 nb hnb _ (by dsimp only; omega) (by dsimp only; omega)
        · intro y hy hn
          have hy2 : y ∈ (nb :: L).erase blk := (List.mem_erase_of_ne fun e => hn (by rw [e]; exact hh.2.1.symm)).2 (List.mem_cons_of_mem _ hy)
          exact ⟨hne y hy, hy2, fun x h1 h2 => (k4 y hy2 x h1 h2).trans (k3 y hy x h1 h2)⟩
    · rw [if_neg hz]
      simp only [Res.bind_ok]
      exact ⟨_, st2, _, rfl, rfl, r2, Or.inr ⟨nb, hshrink hh2⟩, hcopy, fun y hy _ => ⟨hne y hy, List.mem_cons_of_mem _ hy, k3 y hy⟩⟩

/-- **C80**: `slzgrow` likewise, and the elements added are zeros. -/
theorem slzgrow_keeps {st : St} {L : List (Nat × Nat)} (h : Reach Answers st L) {s : Sl} {es : Nat} (hs : Holds st L es s) {os : Nat → Option Nat} {len : Nat} (hc : Contract st os)
    (ho : Rich os (max 1048576 ((len + len / 4) * es + 8300))) :
    ∃ s' st' L', slzgrow os st s len es = .ok (s', st') ∧ s'.len = len ∧ Reach Answers st' L' ∧ Holds st' L' es s' ∧
      (∀ k, k < min s.len len * es → st'.mem (s'.p + k) = st.mem (s.p + k)) ∧ (∀ k, s.len * es ≤ k → k < len * es → st'.mem (s'.p + k) = 0) ∧
      ∀ y ∈ L, y.1 + 16 ≠ s.p → y.1 + 16 ≠ s'.p ∧ y ∈ L' ∧ Kept st st' y := by
  obtain ⟨s', st1, L', e1, hl, r1, hh, hk, ho⟩ := slgrow_keeps h hs hc ho
  unfold slzgrow
  rw [e1]
  simp only [Res.bind_ok]
  by_cases hlt : s.len < len
  · rw [if_pos hlt]
    have hmul : s.len * es ≤ len * es := Nat.mul_le_mul_right es (by omega)
    have hsub : (len - s.len) * es = len * es - s.len * es := Nat.sub_mul _ _ _
    rw [hsub]
    rcases hh with ⟨h1, h2⟩ | ⟨blk, hh⟩
    · rw [hl] at h2
      have e2 : memfill st1 (s'.p + s.len * es) 0 (len * es - s.len * es) = .ok { st1 with mem := st1.mem } := by
        unfold memfill
        rw [if_pos (fun i hi => by omega)]
        congr 2
        funext x
        exact if_neg (by omega)
      rw [e2]
      simp only [Res.bind_ok]
      exact ⟨s', _, L', rfl, hl, r1, Or.inl ⟨h1, by rw [hl]; exact h2⟩, hk, fun k h3 h4 => by omega, ho⟩
    · have hmap : ∀ i, i < len * es - s.len * es → st1.mapped (s'.p + s.len * es + i) = true := by
        intro i hi
        obtain ⟨hm, hp, c, hb, -, -, -, hl2⟩ := hh
        rw [hl] at hl2
        exact (reach_block r1 hm).2.2 _ (by omega) (by omega)
      have e2 : memfill st1 (s'.p + s.len * es) 0 (len * es - s.len * es) = .ok { st1 with mem := fun x => if s'.p + s.len * es ≤ x ∧ x < s'.p + s.len * es + (len * es - s.len * es) then 0 else st1.mem x } := if_pos hmap
      rw [e2]
      simp only [Res.bind_ok]
      obtain ⟨r2, hh2, k2⟩ := held_write r1 hh (m' := fun x => if s'.p + s.len * es ≤ x ∧ x < s'.p + s.len * es + (len * es - s.len * es) then 0 else st1.mem x) (fun x hx => if_neg (by rw [hl] at hx; omega))
      refine ⟨s', _, L', rfl, hl, r2, Or.inr ⟨blk, hh2⟩, ?_, ?_, ?_⟩
      · intro k h3
        rw [← hk k h3]
        rw [Nat.min_eq_left (Nat.le_of_lt hlt)] at h3
        exact if_neg (by omega)
      · intro k h3 h4
        exact if_pos (by omega)
      · intro y hy hn
        obtain ⟨q1, q2, q3⟩ := ho y hy hn
        exact ⟨q1, q2, fun x h3 h4 => (k2 y q2 (fun e => q1 (by rw [e]; exact hh.2.1.symm)) x h3 h4).trans (q3 x h3 h4)⟩
  · rw [if_neg hlt]
    have hmul : len * es ≤ s.len * es := Nat.mul_le_mul_right es (by omega)
    exact ⟨s', st1, L', rfl, hl, r1, hh, hk, fun k h3 h4 => by omega, ho⟩

/-- A system which has as much memory as is asked for here, at one place. -/
def os2 (n : Nat) : Option Nat := if n ≤ 2000000 then some 1048576 else none

theorem os2_contract (m : Mem) : Contract (init m) os2 := by
  intro n p hp
  unfold os2 at hp
  split at hp
  · next e =>
    simp only [Option.some.injEq] at hp
    subst hp
    exact ⟨by decide, by decide, by omega, fun _ _ _ => rfl⟩
  · simp at hp

theorem os2_rich {n : Nat} (h : n ≤ 2000000) : Rich os2 n := by
  intro k _ hk
  unfold os2
  rw [if_pos (by omega)]
  rfl

/-- The empty slice grown to three elements of four bytes. -/
example (m : Mem) : ∃ s' st' L', slzgrow os2 (init m) ⟨0, 0⟩ 3 4 = .ok (s', st') ∧ s'.len = 3 ∧ Reach Answers st' L' ∧ Holds st' L' 4 s' ∧ ∀ k, k < 12 → st'.mem (s'.p + k) = 0 := by
  obtain ⟨s', st', L', e, hl, r, hh, -, hz, -⟩ := slzgrow_keeps (Reach.init m) (s := ⟨0, 0⟩) (es := 4) (Or.inl ⟨rfl, rfl⟩) (len := 3) (os2_contract m) (os2_rich (by decide))
  exact ⟨s', st', L', e, hl, r, hh, fun k hk => hz k (by rw [Nat.zero_mul]; omega) (by omega)⟩

/-- Run on the model: a slice is shrunk and grown in place. -/
example : (match slalloc os2 (init fun _ => 0) 400 100 with
    | .ok (s, st) => (match slgrow os2 st s 1 100 with
      | .ok (t, st2) => (match slgrow os2 st2 t 655 100 with
        | .ok (u, _) => decide (t.p = s.p ∧ t.len = 1 ∧ u.p = s.p ∧ u.len = 655)
        | _ => false)
      | _ => false)
    | _ => false) = true := by decide +kernel

/-- A slice of one element of eight bytes, and one which is grown from it and moved. -/
example (m : Mem) (os : Nat → Option Nat) : ∃ s st L, slalloc os2 (init m) 1 8 = .ok (s, st) ∧ Reach Answers st L ∧ Holds st L 8 s ∧
    (Contract st os → Rich os 1048576 → ∃ s' st' L', slgrow os st s 100 8 = .ok (s', st') ∧ Reach Answers st' L' ∧ ∀ k, k < 8 → st'.mem (s'.p + k) = st.mem (s.p + k)) := by
  obtain ⟨s, st, blk, e, hl, r, hh, -⟩ := slalloc_fresh (Reach.init m) (len := 1) (es := 8) (os2_contract m) (os2_rich (by decide)) (by decide)
  refine ⟨s, st, _, e, r, Or.inr ⟨blk, hh⟩, fun hc ho => ?_⟩
  obtain ⟨s', st', L', e', -, r', -, hk, -⟩ := slgrow_keeps r (Or.inr ⟨blk, hh⟩) (len := 100) hc (by simpa using ho)
  exact ⟨s', st', L', e', r', fun k h => hk k (by rw [hl]; omega)⟩

end Verif.Alloc
