import Verif.Crypto.Md

/-! Lemmas: the compression functions of SHA-2. -/

namespace Verif.Crypto

open Spec (part)

theorem forall8 {p : Fin 8 → Prop} (h0 : p 0) (h1 : p 1) (h2 : p 2) (h3 : p 3) (h4 : p 4) (h5 : p 5) (h6 : p 6) (h7 : p 7) : ∀ j, p j
  | 0 => h0 | 1 => h1 | 2 => h2 | 3 => h3 | 4 => h4 | 5 => h5 | 6 => h6 | 7 => h7

theorem ch_eq {w : Nat} (x y z : BitVec w) : z ^^^ (x &&& (y ^^^ z)) = Spec.ch x y z := by
  unfold Spec.ch
  apply BitVec.eq_of_getLsbD_eq
  intro i hi
  simp only [BitVec.getLsbD_xor, BitVec.getLsbD_and, BitVec.getLsbD_not]
  cases x.getLsbD i <;> cases y.getLsbD i <;> cases z.getLsbD i <;> simp [hi]

theorem maj_eq {w : Nat} (x y z : BitVec w) : (x &&& (y ||| z)) ||| (y &&& z) = Spec.maj x y z := by
  unfold Spec.maj
  apply BitVec.eq_of_getLsbD_eq
  intro i hi
  simp only [BitVec.getLsbD_xor, BitVec.getLsbD_and, BitVec.getLsbD_or]
  cases x.getLsbD i <;> cases y.getLsbD i <;> cases z.getLsbD i <;> rfl

/-- The shift counts are those of the family. -/
def Fits {w : Nat} (c : Sha2Cfg) (F : Spec.Family w) : Prop :=
  ∀ x, small c.s0 x = F.s0 x ∧ small c.s1 x = F.s1 x ∧ big c.b0 x = F.S0 x ∧ big c.b1 x = F.S1 x

theorem fits256 : Fits cfg256 Spec.f256 := by
  intro x
  refine ⟨?_, ?_, ?_, ?_⟩ <;> (simp only [small, big, cfg256, Spec.f256]; repeat rw [rot_right _ (by decide) (by decide)])

theorem fits512 : Fits cfg512 Spec.f512 := by
  intro x
  refine ⟨?_, ?_, ?_, ?_⟩ <;> (simp only [small, big, cfg512, Spec.f512]; repeat rw [rot_right _ (by decide) (by decide)])

/-- What line `i` of the schedule should be. -/
def schLineAt (m : Nat) [NeZero m] (i : Nat) : SchLine m :=
  ⟨Fin.ofNat m (i + 16), Fin.ofNat m i, Fin.ofNat m (i + 9), Fin.ofNat m (i + 1), Fin.ofNat m (i + 14)⟩

/-- What the lines of round `t` should be. -/
def rndLineAt (w m : Nat) [NeZero m] (t : Nat) : RndLine w m :=
  ⟨reg 8 t 0, reg 8 t 1, reg 8 t 2, reg 8 t 3, reg 8 t 4, reg 8 t 5, reg 8 t 6, reg 8 t 7, Spec.sha2K w t, Fin.ofNat m t⟩

theorem sch256_eq : sch256 = (List.range 48).map (schLineAt 64) := by decide +kernel

theorem sch512_eq : sch512 = (List.range 64).map (schLineAt 80) := by decide +kernel

theorem rnd256_eq : rnd256 = (List.range 64).map (rndLineAt 32 64) := by decide +kernel

theorem rnd512_eq : rnd512 = (List.range 80).map (rndLineAt 64 80) := by decide +kernel

theorem sch_lines {w m : Nat} [NeZero m] {c : Sha2Cfg} {F : Spec.Family w} (hf : Fits c F) {blk : List Byte} {s : Vector (BitVec w) m}
    (hs : ∀ u, u < 16 → get s (Fin.ofNat m u) = Spec.sha2W F blk u) :
    ∀ n, 16 + n ≤ m → ∀ u, u < 16 + n → get (((List.range n).map (schLineAt m)).foldl (schExec c) s) (Fin.ofNat m u) = Spec.sha2W F blk u := by
  intro n
  induction n with
  | zero => intro _ u hu; exact hs u hu
  | succ n ih =>
    intro hn u hu
    have ih := ih (by omega)
    rw [List.range_succ, List.map_append, List.foldl_append]
    obtain ⟨S, hS⟩ : ∃ S, ((List.range n).map (schLineAt m)).foldl (schExec c) s = S := ⟨_, rfl⟩
    rw [hS] at ih ⊢
    show get (schExec c S (schLineAt m n)) _ = _
    unfold schExec
    rw [get_upd]
    by_cases h : u = n + 16
    · subst h
      rw [if_pos (show (schLineAt m n).t = Fin.ofNat m (n + 16) from rfl), Spec.sha2W, if_neg (by omega)]
      have e1 := ih n (by omega)
      have e2 := ih (n + 9) (by omega)
      have e3 := ih (n + 1) (by omega)
      have e4 := ih (n + 14) (by omega)
      simp only [schLineAt]
      rw [e1, e2, e3, e4, (hf _).1, (hf _).2.1, show n + 16 - 2 = n + 14 by omega, show n + 16 - 7 = n + 9 by omega,
        show n + 16 - 15 = n + 1 by omega, show n + 16 - 16 = n by omega]
      ac_rfl
    · rw [if_neg]
      · exact ih u (by omega)
      · intro hc
        have hc : (n + 16) % m = u % m := congrArg Fin.val hc
        rw [Nat.mod_eq_of_lt (by omega), Nat.mod_eq_of_lt (by omega)] at hc
        omega

theorem rnd_line {w m : Nat} [NeZero m] {c : Sha2Cfg} {F : Spec.Family w} (hf : Fits c F) {blk : List Byte} {s : Vector (BitVec w) m}
    {v : Vector (BitVec w) 8} {V : Fin 8 → BitVec w} {t : Nat}
    (hs : get s (Fin.ofNat m t) = Spec.sha2W F blk t) (hv : ∀ j, V j = get v (reg 8 t j)) :
    ∀ j, Spec.sha2Op F blk V t j = get (rndExec c s v (rndLineAt w m t)) (reg 8 (t + 1) j) := by
  have hd : ∀ c : Fin 8, (7 - c ≠ 0 - c ∧ 7 - c ≠ 1 - c ∧ 7 - c ≠ 2 - c ∧ 7 - c ≠ 3 - c ∧ 7 - c ≠ 4 - c ∧ 7 - c ≠ 5 - c ∧ 7 - c ≠ 6 - c) ∧
      (3 - c ≠ 0 - c ∧ 3 - c ≠ 1 - c ∧ 3 - c ≠ 2 - c ∧ 3 - c ≠ 4 - c ∧ 3 - c ≠ 5 - c ∧ 3 - c ≠ 6 - c ∧ 3 - c ≠ 7 - c) ∧
      0 - (c + 1) = 7 - c ∧ 1 - (c + 1) = 0 - c ∧ 2 - (c + 1) = 1 - c ∧ 3 - (c + 1) = 2 - c ∧ 4 - (c + 1) = 3 - c ∧ 5 - (c + 1) = 4 - c ∧
      6 - (c + 1) = 5 - c ∧ 7 - (c + 1) = 6 - c := by decide
  obtain ⟨⟨a0, a1, a2, a3, a4, a5, a6⟩, ⟨b0, b1, b2, b4, b5, b6, b7⟩, e0, e1, e2, e3, e4, e5, e6, e7⟩ := hd (Fin.ofNat 8 t)
  have h0 := hv 0
  have h1 := hv 1
  have h2 := hv 2
  have h3 := hv 3
  have h4 := hv 4
  have h5 := hv 5
  have h6 := hv 6
  have h7 := hv 7
  unfold reg at h0 h1 h2 h3 h4 h5 h6 h7
  apply forall8
  · show V 7 + F.S1 (V 4) + Spec.ch (V 4) (V 5) (V 6) + Spec.sha2K w t + Spec.sha2W F blk t + (F.S0 (V 0) + Spec.maj (V 0) (V 1) (V 2)) = _
    unfold reg
    rw [ofNat_succ, e0]
    simp only [rndExec, rndLineAt, reg, get_upd, if_neg a0, if_neg a1, if_neg a2, if_neg b0, if_neg b1, if_neg b2, if_neg b7, if_true]
    rw [← h0, ← h1, ← h2, ← h4, ← h5, ← h6, ← h7, hs, ch_eq, maj_eq, (hf _).2.2.1, (hf _).2.2.2]
    ac_rfl
  · show V 0 = _
    unfold reg
    rw [ofNat_succ, e1]
    simp only [rndExec, rndLineAt, reg, get_upd, if_neg a0, if_neg b0]
    exact h0
  · show V 1 = _
    unfold reg
    rw [ofNat_succ, e2]
    simp only [rndExec, rndLineAt, reg, get_upd, if_neg a1, if_neg b1]
    exact h1
  · show V 2 = _
    unfold reg
    rw [ofNat_succ, e3]
    simp only [rndExec, rndLineAt, reg, get_upd, if_neg a2, if_neg b2]
    exact h2
  · show V 3 + (V 7 + F.S1 (V 4) + Spec.ch (V 4) (V 5) (V 6) + Spec.sha2K w t + Spec.sha2W F blk t) = _
    unfold reg
    rw [ofNat_succ, e4]
    simp only [rndExec, rndLineAt, reg, get_upd, if_neg a3, if_true]
    rw [← h3, ← h4, ← h5, ← h6, ← h7, hs, ch_eq, (hf _).2.2.2]
    ac_rfl
  · show V 4 = _
    unfold reg
    rw [ofNat_succ, e5]
    simp only [rndExec, rndLineAt, reg, get_upd, if_neg a4, if_neg b4]
    exact h4
  · show V 5 = _
    unfold reg
    rw [ofNat_succ, e6]
    simp only [rndExec, rndLineAt, reg, get_upd, if_neg a5, if_neg b5]
    exact h5
  · show V 6 = _
    unfold reg
    rw [ofNat_succ, e7]
    simp only [rndExec, rndLineAt, reg, get_upd, if_neg a6, if_neg b6]
    exact h6

theorem rnd_lines {w m : Nat} [NeZero m] {c : Sha2Cfg} {F : Spec.Family w} (hf : Fits c F) {blk : List Byte} {s : Vector (BitVec w) m}
    (x : Vector (BitVec w) 8) (hs : ∀ u, u < m → get s (Fin.ofNat m u) = Spec.sha2W F blk u) :
    ∀ n, n ≤ m → ∀ j, (List.range n).foldl (Spec.sha2Op F blk) (ab x) j =
      get (((List.range n).map (rndLineAt w m)).foldl (rndExec c s) x) (reg 8 n j) := by
  intro n
  induction n with
  | zero =>
    intro _ j
    show get x j = get x (j - Fin.ofNat 8 0)
    congr 1; revert j; decide
  | succ n ih =>
    intro hn j
    rw [List.range_succ, List.foldl_append, List.map_append, List.foldl_append]
    exact rnd_line hf (hs n (by omega)) (ih (by omega)) j

theorem mem16_64 : ∀ u, u < 16 → Fin.ofNat 64 u ∈ ([0, 1, 2, 3, 4, 5, 6, 7, 8, 9, 10, 11, 12, 13, 14, 15] : List (Fin 64)) := by decide

theorem mem16_80 : ∀ u, u < 16 → Fin.ofNat 80 u ∈ ([0, 1, 2, 3, 4, 5, 6, 7, 8, 9, 10, 11, 12, 13, 14, 15] : List (Fin 80)) := by decide

theorem lt16_64 : ∀ i ∈ ([0, 1, 2, 3, 4, 5, 6, 7, 8, 9, 10, 11, 12, 13, 14, 15] : List (Fin 64)), i.val < 16 := by decide

theorem lt16_80 : ∀ i ∈ ([0, 1, 2, 3, 4, 5, 6, 7, 8, 9, 10, 11, 12, 13, 14, 15] : List (Fin 80)), i.val < 16 := by decide

theorem sha256_steps : Steps 64 sha256Step ab (Spec.sha2Block Spec.f256) := by
  intro x blk hb
  obtain ⟨s, h1, h2⟩ := load_ok (msg := blk) (n := 4) (fun b h => unpack_be h) ([0, 1, 2, 3, 4, 5, 6, 7, 8, 9, 10, 11, 12, 13, 14, 15] : List (Fin 64))
    (.replicate 64 0#32) (fun i hi => by have := lt16_64 i hi; omega)
  unfold sha256Step
  rw [h1, Res.bind_ok]
  refine ⟨_, rfl, ?_⟩
  funext j
  have hs : ∀ u, u < 16 → get s (Fin.ofNat 64 u) = Spec.sha2W Spec.f256 blk u := by
    intro u hu
    rw [h2, if_pos (mem16_64 u hu), Spec.sha2W, if_pos hu]
    show BitVec.ofNat 32 (Spec.beNum (part 4 blk (u % 64))) = _
    rw [Nat.mod_eq_of_lt (by omega)]
  have hs2 := sch_lines fits256 hs 48 (Nat.le_refl _)
  rw [← sch256_eq] at hs2
  show get (Vector.zipWith (· + ·) x (rnd256.foldl (rndExec cfg256 (sch256.foldl (schExec cfg256) s)) x)) j =
    get x j + (List.range 64).foldl (Spec.sha2Op Spec.f256 blk) (ab x) j
  rw [get_zipWith, rnd_lines fits256 x hs2 64 (Nat.le_refl _) j, rnd256_eq]
  congr 2
  revert j; decide

theorem sha512_steps : Steps 128 sha512Step ab (Spec.sha2Block Spec.f512) := by
  intro x blk hb
  obtain ⟨s, h1, h2⟩ := load_ok (msg := blk) (n := 8) (fun b h => unpack_be64 h) ([0, 1, 2, 3, 4, 5, 6, 7, 8, 9, 10, 11, 12, 13, 14, 15] : List (Fin 80))
    (.replicate 80 0#64) (fun i hi => by have := lt16_80 i hi; omega)
  unfold sha512Step
  rw [h1, Res.bind_ok]
  refine ⟨_, rfl, ?_⟩
  funext j
  have hs : ∀ u, u < 16 → get s (Fin.ofNat 80 u) = Spec.sha2W Spec.f512 blk u := by
    intro u hu
    rw [h2, if_pos (mem16_80 u hu), Spec.sha2W, if_pos hu]
    show BitVec.ofNat 64 (Spec.beNum (part 8 blk (u % 80))) = _
    rw [Nat.mod_eq_of_lt (by omega)]
  have hs2 := sch_lines fits512 hs 64 (Nat.le_refl _)
  rw [← sch512_eq] at hs2
  show get (Vector.zipWith (· + ·) x (rnd512.foldl (rndExec cfg512 (sch512.foldl (schExec cfg512) s)) x)) j =
    get x j + (List.range 80).foldl (Spec.sha2Op Spec.f512 blk) (ab x) j
  rw [get_zipWith, rnd_lines fits512 x hs2 80 (Nat.le_refl _) j, rnd512_eq]
  congr 2
  revert j; decide

end Verif.Crypto
