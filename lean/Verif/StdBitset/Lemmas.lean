import Verif.StdBitset.Model
import Verif.Bitset.Lemmas

/-! Helper lemmas for lib/std/bitset.myr. -/

namespace Verif.StdBitset
open Verif.CBitset (mem and_bit_ne mem_of_ge mem_lt)

theorem bshas_eq (bs : BS) (e : Nat) : bshas bs e = .ok (mem bs e) := by
  unfold bshas
  split
  · next h =>
    rw [mem_of_ge]
    have : bs.length * 64 ≤ e := (Nat.le_div_iff_mul_le (by decide)).1 h
    exact this
  · next h =>
    have hl : e / 64 < bs.length := by omega
    rw [rdChk_ok hl]
    simp only [Res.bind_ok, Res.pure_eq, Res.ok.injEq, mem, List.getD, List.getElem?_eq_getElem hl,
      Option.getD_some]
    have := and_bit_ne bs[e / 64] (e % 64) (Nat.mod_lt _ (by decide))
    rw [Bool.eq_iff_iff, bne_iff_ne]
    exact this

theorem bit_zero (c : BitVec 64) (k : Nat) (hk : k < 64) :
    (c &&& (1#64 <<< k) == 0) = !c.getLsbD k := by
  have hb := and_bit_ne c k hk
  cases hg : c.getLsbD k with
  | true => rw [hg] at hb; simpa using hb
  | false => rw [hg] at hb; simpa using hb

theorem getD_ensurelen (a : BS) (sz i : Nat) : (ensurelen a sz).getD i 0 = a.getD i 0 := by
  unfold ensurelen
  split
  · simp only [List.getD, List.getElem?_append, List.getElem?_replicate]
    split
    · rfl
    · rw [List.getElem?_eq_none (by omega)]
      split <;> rfl
  · rfl

theorem mem_ensurelen (a : BS) (sz e : Nat) : mem (ensurelen a sz) e = mem a e := by
  unfold mem; rw [getD_ensurelen]

theorem length_ensurelen (a : BS) (sz : Nat) : sz < (ensurelen a sz).length := by
  unfold ensurelen; split
  · simp; omega
  · omega

theorem length_ensurelen_eq (a : BS) (sz : Nat) (h : a.length ≤ sz) :
    (ensurelen a sz).length = sz + 1 := by
  unfold ensurelen; rw [if_pos h]; simp; omega

theorem eqsz_length (a b : BS) : (eqsz a b).1.length = (eqsz a b).2.length := by
  simp only [eqsz]
  rw [length_ensurelen_eq _ _ (by omega), length_ensurelen_eq _ _ (by omega)]

theorem bsput_spec (bs : BS) (e : Nat) :
    ∃ r, bsput bs e = .ok (r, !mem bs e) ∧ ∀ x, mem r x = (x == e || mem bs x) := by
  have hl := length_ensurelen bs (e / 64)
  obtain ⟨r, h1, h2⟩ := CBitset.bsput_spec (ensurelen bs (e / 64)) e
  have hlt : e < (ensurelen bs (e/64)).length * 64 := (Nat.div_lt_iff_lt_mul (by decide)).1 hl
  unfold CBitset.bsput at h1
  simp only at h1
  rw [if_neg (by simp only [CBitset.W]; omega), rdUB_ok hl] at h1
  simp only [Res.bind_ok] at h1
  rw [wrUB_ok _ hl] at h1
  refine ⟨r, ?_, ?_⟩
  · unfold bsput
    simp only
    rw [rdChk_ok hl]
    simp only [Res.bind_ok]
    rw [wrChk_ok _ hl]
    simp only [Res.bind_ok, Res.pure_eq]
    rw [Res.ok.injEq] at h1
    have hm : mem bs e = ((ensurelen bs (e/64))[e / 64]).getLsbD (e % 64) := by
      rw [← mem_ensurelen bs (e/64), mem]
      simp [List.getD, List.getElem?_eq_getElem hl]
    rw [h1, hm, Res.ok.injEq, Prod.mk.injEq]
    exact ⟨rfl, bit_zero _ _ (Nat.mod_lt _ (by decide))⟩
  · intro x
    rw [h2, mem_ensurelen]

theorem bsdel_spec (bs : BS) (e : Nat) :
    ∃ r, bsdel bs e = .ok (r, mem bs e) ∧ ∀ x, mem r x = (x != e && mem bs x) := by
  unfold bsdel
  obtain ⟨r, h1, h2⟩ := CBitset.bsdel_spec bs e
  unfold CBitset.bsdel at h1
  split
  · next hl =>
    have hlt : e < bs.length * 64 := (Nat.div_lt_iff_lt_mul (by decide)).1 hl
    rw [if_pos hlt, rdUB_ok hl] at h1
    simp only [Res.bind_ok] at h1
    rw [wrUB_ok _ hl, Res.ok.injEq] at h1
    refine ⟨r, ?_, h2⟩
    rw [rdChk_ok hl]
    simp only [Res.bind_ok]
    rw [wrChk_ok _ hl]
    simp only [Res.bind_ok, Res.pure_eq]
    have hm : mem bs e = (bs[e / 64]).getLsbD (e % 64) := by
      rw [mem]
      simp [List.getD, List.getElem?_eq_getElem hl]
    rw [h1, hm, Res.ok.injEq, Prod.mk.injEq]
    refine ⟨rfl, ?_⟩
    have := bit_zero bs[e / 64] (e % 64) (Nat.mod_lt _ (by decide))
    rw [bne, this, Bool.not_not]
  · next hl =>
    have hge : bs.length * 64 ≤ e := by
      have : bs.length ≤ e / 64 := by omega
      exact (Nat.le_div_iff_mul_le (by decide)).1 this
    refine ⟨bs, by rw [mem_of_ge hge], ?_⟩
    intro x
    by_cases hx : x = e
    · subst hx; simp [mem_of_ge hge]
    · simp [hx]

theorem loop2_eq (f) : ∀ (n : Nat) (a b : BS), n ≤ a.length → n ≤ b.length →
    loop2 f n a b = .ok (List.zipWith f (a.take n) (b.take n) ++ a.drop n)
  | 0, a, b, _, _ => by simp [loop2]
  | n + 1, [], _, h, _ => by simp at h
  | n + 1, _ :: _, [], _, h => by simp at h
  | n + 1, x :: xs, y :: ys, h1, h2 => by
    simp only [List.length_cons] at h1 h2
    simp [loop2, loop2_eq f n xs ys (by omega) (by omega)]

theorem getD_loop2 (f) (n : Nat) (a b : BS) (ha : n ≤ a.length) (hb : n ≤ b.length) (i : Nat) :
    (List.zipWith f (a.take n) (b.take n) ++ a.drop n).getD i 0 =
      if i < n then f (a.getD i 0) (b.getD i 0) else a.getD i 0 := by
  simp only [List.getD, List.getElem?_append, List.length_zipWith, List.length_take]
  have hmin : min (min n a.length) (min n b.length) = n := by omega
  rw [hmin]
  split
  · next h =>
    rw [List.getElem?_zipWith, List.getElem?_take_of_lt h, List.getElem?_take_of_lt h,
      List.getElem?_eq_getElem (by omega), List.getElem?_eq_getElem (by omega)]
    simp
  · next h =>
    rw [List.getElem?_drop]
    congr 2
    omega

theorem mem_loop2 (f : BitVec 64 → BitVec 64 → BitVec 64) (g : Bool → Bool → Bool)
    (hf : ∀ x y k, k < 64 → (f x y).getLsbD k = g (x.getLsbD k) (y.getLsbD k))
    (n : Nat) (a b : BS) (ha : n ≤ a.length) (hb : n ≤ b.length) (e : Nat) :
    mem (List.zipWith f (a.take n) (b.take n) ++ a.drop n) e =
      if e < n * 64 then g (mem a e) (mem b e) else mem a e := by
  unfold mem
  rw [getD_loop2 f n a b ha hb]
  have : e / CBitset.W < n ↔ e < n * 64 := Nat.div_lt_iff_lt_mul (by decide)
  by_cases h : e < n * 64
  · rw [if_pos (this.2 h), if_pos h, hf _ _ _ (Nat.mod_lt _ (by decide))]
  · rw [if_neg (fun h' => h (this.1 h')), if_neg h]

theorem all2_eq (f) : ∀ (a b : BS), a.length ≤ b.length →
    all2 f a b = .ok (decide (∀ i, i < a.length → f (a.getD i 0) (b.getD i 0) = true))
  | [], _, _ => by simp [all2]
  | _ :: _, [], h => by simp at h
  | x :: xs, y :: ys, h => by
    have ih := all2_eq f xs ys (by simpa using h)
    unfold all2
    split
    · next hxy =>
      rw [ih]
      congr 1
      rw [decide_eq_decide]
      constructor
      · intro hh i hi
        cases i with
        | zero => simpa using hxy
        | succ i => simpa using hh i (by simpa using hi)
      · intro hh i hi
        simpa using hh (i+1) (by simpa using hi)
    · next hxy =>
      rw [eq_comm, Res.ok.injEq, decide_eq_false_iff_not]
      intro hh
      exact hxy (by simpa using hh 0 (by simp))

theorem getD_bit (a : BS) (i k : Nat) (hk : k < 64) : (a.getD i 0).getLsbD k = mem a (64 * i + k) := by
  unfold mem
  rw [Nat.mul_add_div (by decide), Nat.mul_add_mod, Nat.div_eq_of_lt hk, Nat.mod_eq_of_lt hk,
    Nat.add_zero]

theorem chunk_zero_iff (a : BS) (i : Nat) :
    a.getD i 0 = 0 ↔ ∀ k, k < 64 → mem a (64 * i + k) = false := by
  constructor
  · intro h k hk
    rw [← getD_bit a i k hk, h]; exact BitVec.getLsbD_zero
  · intro h
    apply BitVec.eq_of_getLsbD_eq
    intro k hk
    rw [getD_bit a i k hk, h k hk]; exact BitVec.getLsbD_zero.symm

theorem skip_spec (bs : BS) (n : Nat) (hn : n = bsmax bs) (i : Nat) :
    ∃ j, skip bs n i = .ok j ∧ i ≤ j ∧ (∀ e, i ≤ e → e < j → mem bs e = false) := by
  induction hm : n - i using Nat.strong_induction_on generalizing i with
  | _ m ih =>
    unfold skip
    split
    · next h =>
      have hl : i / 64 < bs.length := (Nat.div_lt_iff_lt_mul (by decide)).2 (by rw [hn] at h; exact h)
      rw [rdChk_ok hl]
      simp only [Res.bind_ok]
      split
      · next hz =>
        obtain ⟨j, h1, h2, h3⟩ := ih (n - (i + 64) / 64 * 64) (by omega) _ rfl
        refine ⟨j, h1, by omega, ?_⟩
        intro e he1 he2
        by_cases hb : (i + 64) / 64 * 64 ≤ e
        · exact h3 e hb he2
        · have hq : e / 64 = i / 64 := by omega
          have := (chunk_zero_iff bs (i / 64)).1 (by
            simp only [List.getD, List.getElem?_eq_getElem hl, Option.getD_some]; exact hz) (e % 64)
            (Nat.mod_lt _ (by decide))
          rw [← hq, Nat.div_add_mod] at this
          exact this
      · exact ⟨i, rfl, Nat.le_refl _, fun e h1 h2 => by omega⟩
    · exact ⟨i, rfl, Nat.le_refl _, fun e h1 h2 => by omega⟩

theorem nextLoop_spec (bs : BS) (n : Nat) (hn : n = bsmax bs) : ∀ (fuel i : Nat), n + 1 ≤ fuel + i → 0 < fuel →
    (∃ e, nextLoop bs n fuel i = .ok (some e) ∧ i ≤ e ∧ mem bs e = true ∧
      ∀ j, i ≤ j → j < e → mem bs j = false) ∨
    (nextLoop bs n fuel i = .ok none ∧ ∀ j, i ≤ j → mem bs j = false)
  | 0, i, _, h => by omega
  | fuel + 1, i, hf, _ => by
    unfold nextLoop
    split
    · next hlt =>
      obtain ⟨j, h1, h2, h3⟩ := skip_spec bs n hn i
      rw [h1]
      simp only [Res.bind_ok, bshas_eq]
      by_cases hm : mem bs j = true
      · left
        exact ⟨j, by simp [hm], h2, hm, h3⟩
      · have hm : mem bs j = false := by simpa using hm
        simp only [hm, Bool.false_eq_true, if_false]
        rcases nextLoop_spec bs n hn fuel (j+1) (by omega) (by omega) with ⟨e, k1, k2, k3, k4⟩ | ⟨k1, k2⟩
        · left
          refine ⟨e, k1, by omega, k3, ?_⟩
          intro x hx1 hx2
          rcases Nat.lt_trichotomy x j with h | h | h
          · exact h3 x hx1 h
          · rw [h]; exact hm
          · exact k4 x (by omega) hx2
        · right
          refine ⟨k1, ?_⟩
          intro x hx1
          rcases Nat.lt_trichotomy x j with h | h | h
          · exact h3 x hx1 h
          · rw [h]; exact hm
          · exact k2 x (by omega)
    · next hge =>
      right
      refine ⟨rfl, ?_⟩
      intro j hj
      apply mem_of_ge
      rw [hn] at hge
      unfold bsmax at hge
      show bs.length * 64 ≤ j
      omega

theorem iternext_spec (bs : BS) (i : Nat) :
    (∃ e, iternext bs i = .ok (some e) ∧ i ≤ e ∧ mem bs e = true ∧
      ∀ j, i ≤ j → j < e → mem bs j = false) ∨
    (iternext bs i = .ok none ∧ ∀ j, i ≤ j → mem bs j = false) :=
  nextLoop_spec bs _ rfl _ _ (by omega) (by omega)

theorem iterate_spec (bs : BS) : ∀ fuel i, bsmax bs + 1 ≤ fuel + i → 0 < fuel →
    ∃ l, iterate bs fuel i = .ok l ∧ l.Pairwise (· < ·) ∧
      ∀ x, x ∈ l ↔ i ≤ x ∧ mem bs x = true := by
  intro fuel
  induction fuel with
  | zero => intro i _ h; omega
  | succ n ih =>
    intro i hle _
    rcases iternext_spec bs i with ⟨e, h1, h2, h3, h4⟩ | ⟨h1, h2⟩
    · have hlt : e < bsmax bs := mem_lt h3
      obtain ⟨l, k1, k2, k3⟩ := ih (e + 1) (by omega) (by omega)
      refine ⟨e :: l, by simp [iterate, h1, k1], ?_, ?_⟩
      · rw [List.pairwise_cons]
        refine ⟨?_, k2⟩
        intro a ha
        have := (k3 a).1 ha
        omega
      · intro x
        rw [List.mem_cons, k3]
        constructor
        · rintro (rfl | ⟨a, b⟩)
          · exact ⟨h2, h3⟩
          · exact ⟨by omega, b⟩
        · rintro ⟨a, b⟩
          by_cases hx : x = e
          · exact .inl hx
          · right
            refine ⟨?_, b⟩
            by_contra hc
            rw [h4 x a (by omega)] at b
            exact absurd b (by decide)
    · refine ⟨[], by simp [iterate, h1], List.Pairwise.nil, ?_⟩
      intro x
      constructor
      · intro h; simp at h
      · rintro ⟨a, b⟩
        rw [h2 x a] at b
        exact absurd b (by decide)

theorem trimEnd_spec (a : BS) : ∀ n, trimEnd a n ≤ n ∧ (∀ i, trimEnd a n ≤ i → i < n → a.getD i 0 = 0) ∧
    (0 < trimEnd a n → a.getD (trimEnd a n - 1) 0 ≠ 0)
  | 0 => by simp [trimEnd]
  | n + 1 => by
    obtain ⟨h1, h2, h3⟩ := trimEnd_spec a n
    unfold trimEnd
    split
    · next h =>
      refine ⟨by omega, ?_, h3⟩
      intro i hi1 hi2
      by_cases hin : i = n
      · rw [hin]; exact h
      · exact h2 i hi1 (by omega)
    · next h =>
      refine ⟨by omega, ?_, ?_⟩
      · intro i hi1 hi2; omega
      · intro _; simpa using h

theorem trim_eq (a b : BS) (h : ∀ x, mem a x = mem b x) :
    a.take (trimEnd a a.length) = b.take (trimEnd b b.length) := by
  have hg : ∀ i, a.getD i 0 = b.getD i 0 := by
    intro i
    apply BitVec.eq_of_getLsbD_eq
    intro k hk
    rw [getD_bit a i k hk, getD_bit b i k hk, h]
  obtain ⟨a1, a2, a3⟩ := trimEnd_spec a a.length
  obtain ⟨b1, b2, b3⟩ := trimEnd_spec b b.length
  have az : ∀ i, trimEnd a a.length ≤ i → a.getD i 0 = 0 := by
    intro i hi
    by_cases hl : i < a.length
    · exact a2 i hi hl
    · simp only [List.getD, List.getElem?_eq_none (show a.length ≤ i by omega)]; rfl
  have bz : ∀ i, trimEnd b b.length ≤ i → b.getD i 0 = 0 := by
    intro i hi
    by_cases hl : i < b.length
    · exact b2 i hi hl
    · simp only [List.getD, List.getElem?_eq_none (show b.length ≤ i by omega)]; rfl
  have heq : trimEnd a a.length = trimEnd b b.length := by
    rcases Nat.lt_trichotomy (trimEnd a a.length) (trimEnd b b.length) with hl | hl | hl
    · exact absurd (by rw [← hg]; exact az _ (by omega)) (b3 (by omega))
    · exact hl
    · exact absurd (by rw [hg]; exact bz _ (by omega)) (a3 (by omega))
  rw [heq]
  apply List.ext_getElem?
  intro i
  rw [List.getElem?_take, List.getElem?_take]
  split
  · have := hg i
    simp only [List.getD] at this
    rw [List.getElem?_eq_getElem (show i < a.length by omega),
      List.getElem?_eq_getElem (show i < b.length by omega)] at this ⊢
    simpa using this
  · rfl

end Verif.StdBitset
