import Verif.Crypto.Words

/-! Lemmas: the compression functions of MD5 and SHA-1. -/

namespace Verif.Crypto

open Spec (part)

/-- A register file as a function. -/
def ab {n w : Nat} (v : Vector (BitVec w) n) : Fin n → BitVec w := fun i => get v i

/-- Where the variable in role `j` is at operation `t`. -/
def reg (n : Nat) [NeZero n] (t : Nat) (j : Fin n) : Fin n := j - Fin.ofNat n t

theorem forall4 {p : Fin 4 → Prop} (h0 : p 0) (h1 : p 1) (h2 : p 2) (h3 : p 3) : ∀ j, p j
  | 0 => h0 | 1 => h1 | 2 => h2 | 3 => h3

theorem forall5 {p : Fin 5 → Prop} (h0 : p 0) (h1 : p 1) (h2 : p 2) (h3 : p 3) (h4 : p 4) : ∀ j, p j
  | 0 => h0 | 1 => h1 | 2 => h2 | 3 => h3 | 4 => h4

theorem ofNat_succ {n : Nat} [NeZero n] (t : Nat) : Fin.ofNat n (t + 1) = Fin.ofNat n t + 1 := by
  apply Fin.ext
  rw [Fin.val_add]
  show (t + 1) % n = (t % n + 1 % n) % n
  rw [Nat.add_mod]

/-! ## MD5 -/

theorem md5F_eq (t : Nat) (f : Nat) (hf : f = t / 16) (ht : t < 64) (x y z : BitVec 32) :
    md5F f x y z = Spec.md5Fun t x y z := by
  unfold Spec.md5Fun
  split
  · rw [show f = 0 by omega]
    show z ^^^ (x &&& (y ^^^ z)) = _
    apply BitVec.eq_of_getLsbD_eq
    intro i hi
    simp only [BitVec.getLsbD_xor, BitVec.getLsbD_and, BitVec.getLsbD_or, BitVec.getLsbD_not]
    cases x.getLsbD i <;> cases y.getLsbD i <;> cases z.getLsbD i <;> simp [hi]
  · split
    · rw [show f = 1 by omega]
      show y ^^^ (z &&& (x ^^^ y)) = _
      apply BitVec.eq_of_getLsbD_eq
      intro i hi
      simp only [BitVec.getLsbD_xor, BitVec.getLsbD_and, BitVec.getLsbD_or, BitVec.getLsbD_not]
      cases x.getLsbD i <;> cases y.getLsbD i <;> cases z.getLsbD i <;> simp [hi]
    · split
      · rw [show f = 2 by omega]; rfl
      · rw [show f = 3 by omega]; rfl

/-- What line `t` of MD5 should be. -/
def md5LineAt (t : Nat) : Md5Line :=
  ⟨reg 4 t 0, reg 4 t 1, reg 4 t 2, reg 4 t 3, t / 16, Spec.md5T.getD t 0, Fin.ofNat 16 (Spec.md5K t), Spec.md5S t, 32 - Spec.md5S t⟩

theorem md5Lines_eq : md5Lines = (List.range 64).map md5LineAt := by decide +kernel

theorem md5S_lt : ∀ t, t < 64 → Spec.md5S t < 32 := by decide +kernel

theorem md5K_lt : ∀ t, t < 64 → Spec.md5K t < 16 := by decide +kernel

theorem md5_line {blk : List Byte} {s : Vector (BitVec 32) 16} {v : Vector (BitVec 32) 4} {V : Fin 4 → BitVec 32} {t : Nat} (ht : t < 64)
    (hs : ∀ j : Fin 16, get s j = BitVec.ofNat 32 (Spec.leNum (part 4 blk j.val)))
    (hv : ∀ j, V j = get v (reg 4 t j)) : ∀ j, Spec.md5Op blk V t j = get (md5Exec s v (md5LineAt t)) (reg 4 (t + 1) j) := by
  have hd : ∀ c : Fin 4, 0 - c ≠ 1 - c ∧ 0 - c ≠ 2 - c ∧ 0 - c ≠ 3 - c ∧ 0 - (c + 1) = 3 - c ∧ 1 - (c + 1) = 0 - c ∧
      2 - (c + 1) = 1 - c ∧ 3 - (c + 1) = 2 - c := by decide
  obtain ⟨d1, d2, d3, e0, e1, e2, e3⟩ := hd (Fin.ofNat 4 t)
  have hx : get s (Fin.ofNat 16 (Spec.md5K t)) = BitVec.ofNat 32 (Spec.leNum (part 4 blk (Spec.md5K t))) := by
    rw [hs]
    show BitVec.ofNat 32 (Spec.leNum (part 4 blk (Spec.md5K t % 16))) = _
    rw [Nat.mod_eq_of_lt (md5K_lt t ht)]
  have h0 := hv 0
  have h1 := hv 1
  have h2 := hv 2
  have h3 := hv 3
  unfold reg at h0 h1 h2 h3
  apply forall4
  · show V 3 = _
    unfold reg
    rw [ofNat_succ, e0]
    simp only [md5Exec, md5LineAt, reg, get_upd, if_neg d3]
    exact h3
  · show V 1 + (V 0 + Spec.md5Fun t (V 1) (V 2) (V 3) + BitVec.ofNat 32 (Spec.leNum (part 4 blk (Spec.md5K t))) + Spec.md5T.getD t 0).rotateLeft (Spec.md5S t) = _
    unfold reg
    rw [ofNat_succ, e1]
    simp only [md5Exec, md5LineAt, reg, get_upd, if_neg d1, if_true]
    rw [← h0, ← h1, ← h2, ← h3, hx, md5F_eq t _ rfl ht, rot_left _ (md5S_lt t ht) rfl]
    congr 2
    ac_rfl
  · show V 1 = _
    unfold reg
    rw [ofNat_succ, e2]
    simp only [md5Exec, md5LineAt, reg, get_upd, if_neg d1]
    exact h1
  · show V 2 = _
    unfold reg
    rw [ofNat_succ, e3]
    simp only [md5Exec, md5LineAt, reg, get_upd, if_neg d2]
    exact h2

theorem md5_lines {blk : List Byte} {s : Vector (BitVec 32) 16} (x : Vector (BitVec 32) 4)
    (hs : ∀ j : Fin 16, get s j = BitVec.ofNat 32 (Spec.leNum (part 4 blk j.val))) :
    ∀ n, n ≤ 64 → ∀ j, (List.range n).foldl (Spec.md5Op blk) (ab x) j =
      get (((List.range n).map md5LineAt).foldl (md5Exec s) x) (reg 4 n j) := by
  intro n
  induction n with
  | zero =>
    intro _ j
    show get x j = get x (j - Fin.ofNat 4 0)
    congr 1; revert j; decide
  | succ n ih =>
    intro hn j
    rw [List.range_succ, List.foldl_append, List.map_append, List.foldl_append]
    exact md5_line (by omega) hs (ih (by omega)) j

theorem mem16 : ∀ j : Fin 16, j ∈ ([0, 1, 2, 3, 4, 5, 6, 7, 8, 9, 10, 11, 12, 13, 14, 15] : List (Fin 16)) := by decide

theorem md5_steps : Steps 64 md5Step ab Spec.md5Block := by
  intro x blk hb
  obtain ⟨s, h1, h2⟩ := load_ok (msg := blk) (n := 4) (fun b h => unpack_le h) [0, 1, 2, 3, 4, 5, 6, 7, 8, 9, 10, 11, 12, 13, 14, 15]
    (.replicate 16 0#32) (fun i _ => by have := i.isLt; omega)
  unfold md5Step
  rw [h1, Res.bind_ok]
  refine ⟨_, rfl, ?_⟩
  funext j
  show get (Vector.zipWith (· + ·) x (md5Lines.foldl (md5Exec s) x)) j = get x j + (List.range 64).foldl (Spec.md5Op blk) (ab x) j
  rw [get_zipWith, md5_lines x (fun j => by rw [h2 j, if_pos (mem16 j)]) 64 (Nat.le_refl _) j, md5Lines_eq]
  congr 2
  revert j; decide

/-! ## SHA-1 -/

theorem sha1F_eq (t : Nat) (f : Nat) (hf : f = if t < 20 then 0 else if 40 ≤ t ∧ t < 60 then 2 else 1) (x y z : BitVec 32) :
    sha1F f x y z = Spec.sha1Fun t x y z := by
  unfold Spec.sha1Fun
  by_cases h1 : t < 20
  · rw [if_pos h1] at hf ⊢
    subst hf
    show z ^^^ (x &&& (y ^^^ z)) = _
    apply BitVec.eq_of_getLsbD_eq
    intro i hi
    simp only [BitVec.getLsbD_xor, BitVec.getLsbD_and, BitVec.getLsbD_not]
    cases x.getLsbD i <;> cases y.getLsbD i <;> cases z.getLsbD i <;> simp [hi]
  · rw [if_neg h1] at hf ⊢
    by_cases h2 : 40 ≤ t ∧ t < 60
    · rw [if_pos h2] at hf ⊢
      subst hf
      show (x &&& (y ||| z)) ||| (y &&& z) = _
      apply BitVec.eq_of_getLsbD_eq
      intro i hi
      simp only [BitVec.getLsbD_xor, BitVec.getLsbD_and, BitVec.getLsbD_or]
      cases x.getLsbD i <;> cases y.getLsbD i <;> cases z.getLsbD i <;> rfl
    · rw [if_neg h2] at hf ⊢
      subst hf
      rfl

theorem sha1K_eq (t : Nat) (ht : t < 80) : sha1K (t / 20) = Spec.sha1Const t := by
  unfold Spec.sha1Const
  split
  · rw [show t / 20 = 0 by omega]; rfl
  · split
    · rw [show t / 20 = 1 by omega]; rfl
    · split
      · rw [show t / 20 = 2 by omega]; rfl
      · rw [show t / 20 = 3 by omega]; rfl

/-- What line `t` of SHA-1 should be. -/
def sha1LineAt (t : Nat) : Sha1Line :=
  ⟨if t < 16 then none else some (Fin.ofNat 16 (t - 3), Fin.ofNat 16 (t - 8), Fin.ofNat 16 (t - 14), Fin.ofNat 16 (t - 16), Fin.ofNat 16 t),
    reg 5 t 0, reg 5 t 1, reg 5 t 2, reg 5 t 3, reg 5 t 4,
    if t < 20 then 0 else if 40 ≤ t ∧ t < 60 then 2 else 1, t / 20, Fin.ofNat 16 t⟩

theorem sha1Lines_eq : sha1Lines = (List.range 80).map sha1LineAt := by decide +kernel

/-- The sixteen words kept are the last sixteen of the schedule. -/
def Sched (blk : List Byte) (t : Nat) (s : Vector (BitVec 32) 16) : Prop :=
  ∀ u, u < max t 16 → max t 16 ≤ u + 16 → get s (Fin.ofNat 16 u) = Spec.sha1W blk u

theorem sched_step {blk : List Byte} {t : Nat} {s : Vector (BitVec 32) 16} (h : Sched blk t s) :
    Sched blk (t + 1) (sha1Sched s (sha1LineAt t).sched) := by
  by_cases ht : t < 16
  · have e : (sha1LineAt t).sched = none := by unfold sha1LineAt; rw [if_pos ht]
    rw [e]
    intro u h1 h2
    exact h u (by omega) (by omega)
  · have e : (sha1LineAt t).sched = some (Fin.ofNat 16 (t - 3), Fin.ofNat 16 (t - 8), Fin.ofNat 16 (t - 14), Fin.ofNat 16 (t - 16), Fin.ofNat 16 t) := by
      unfold sha1LineAt; rw [if_neg ht]
    rw [e]
    intro u h1 h2
    unfold sha1Sched
    dsimp only
    rw [get_upd]
    by_cases hu : u = t
    · subst hu
      rw [if_pos rfl, Spec.sha1W, if_neg ht, rot_left _ (by decide) (by decide), h (u - 3) (by omega) (by omega), h (u - 8) (by omega) (by omega),
        h (u - 14) (by omega) (by omega), h (u - 16) (by omega) (by omega)]
    · rw [if_neg]
      · exact h u (by omega) (by omega)
      · intro hc
        have hc : t % 16 = u % 16 := congrArg Fin.val hc
        omega

theorem sha1_line {blk : List Byte} {s : Vector (BitVec 32) 16} {v : Vector (BitVec 32) 5} {V : Fin 5 → BitVec 32} {t : Nat} (ht : t < 80)
    (hs : Sched blk t s) (hv : ∀ j, V j = get v (reg 5 t j)) :
    ∀ j, Spec.sha1Op blk V t j = get (sha1Exec (s, v) (sha1LineAt t)).2 (reg 5 (t + 1) j) := by
  have hd : ∀ c : Fin 5, 4 - c ≠ 0 - c ∧ 4 - c ≠ 1 - c ∧ 4 - c ≠ 2 - c ∧ 4 - c ≠ 3 - c ∧ 1 - c ≠ 0 - c ∧ 1 - c ≠ 2 - c ∧ 1 - c ≠ 3 - c ∧ 1 - c ≠ 4 - c ∧
      0 - (c + 1) = 4 - c ∧ 1 - (c + 1) = 0 - c ∧ 2 - (c + 1) = 1 - c ∧ 3 - (c + 1) = 2 - c ∧ 4 - (c + 1) = 3 - c := by decide
  obtain ⟨d0, d1, d2, d3, b0, b2, b3, b4, e0, e1, e2, e3, e4⟩ := hd (Fin.ofNat 5 t)
  have hx := sched_step hs t (by omega) (by omega)
  have h0 := hv 0
  have h1 := hv 1
  have h2 := hv 2
  have h3 := hv 3
  have h4 := hv 4
  unfold reg at h0 h1 h2 h3 h4
  have hF := sha1F_eq t (sha1LineAt t).f rfl (V 1) (V 2) (V 3)
  have hK := sha1K_eq t ht
  apply forall5
  · show (V 0).rotateLeft 5 + Spec.sha1Fun t (V 1) (V 2) (V 3) + V 4 + Spec.sha1Const t + Spec.sha1W blk t = _
    unfold reg
    rw [ofNat_succ, e0]
    show _ = get (upd (upd v (reg 5 t 4) (get v (reg 5 t 4) + (rot (get v (reg 5 t 0)) 5 27 + sha1F _ (get v (reg 5 t 1)) (get v (reg 5 t 2)) (get v (reg 5 t 3)) +
      get (sha1Sched s (sha1LineAt t).sched) (Fin.ofNat 16 t) + sha1K (t / 20)))) (reg 5 t 1) _) _
    rw [hx]
    simp only [reg, get_upd, if_neg b4, if_true]
    rw [← h0, ← h1, ← h2, ← h3, ← h4, hF, hK, rot_left _ (by decide) (by decide)]
    ac_rfl
  · show V 0 = _
    unfold reg
    rw [ofNat_succ, e1]
    simp only [sha1Exec, sha1LineAt, reg, get_upd, if_neg b0, if_neg d0]
    exact h0
  · show (V 1).rotateLeft 30 = _
    unfold reg
    rw [ofNat_succ, e2]
    simp only [sha1Exec, sha1LineAt, reg, get_upd, if_neg d1, if_true]
    rw [← h1, rot_left _ (by decide) (by decide)]
  · show V 2 = _
    unfold reg
    rw [ofNat_succ, e3]
    simp only [sha1Exec, sha1LineAt, reg, get_upd, if_neg b2, if_neg d2]
    exact h2
  · show V 3 = _
    unfold reg
    rw [ofNat_succ, e4]
    simp only [sha1Exec, sha1LineAt, reg, get_upd, if_neg b3, if_neg d3]
    exact h3

theorem sha1_lines {blk : List Byte} {s : Vector (BitVec 32) 16} (x : Vector (BitVec 32) 5) (hs : Sched blk 0 s) :
    ∀ n, n ≤ 80 → Sched blk n (((List.range n).map sha1LineAt).foldl sha1Exec (s, x)).1 ∧
      ∀ j, (List.range n).foldl (Spec.sha1Op blk) (ab x) j =
      get (((List.range n).map sha1LineAt).foldl sha1Exec (s, x)).2 (reg 5 n j) := by
  intro n
  induction n with
  | zero =>
    intro _
    refine ⟨hs, ?_⟩
    intro j
    show get x j = get x (j - Fin.ofNat 5 0)
    congr 1; revert j; decide
  | succ n ih =>
    intro hn
    obtain ⟨i1, i2⟩ := ih (by omega)
    rw [List.range_succ, List.foldl_append, List.map_append, List.foldl_append]
    refine ⟨sched_step i1, ?_⟩
    intro j
    exact sha1_line (by omega) i1 i2 j

theorem sha1_steps : Steps 64 sha1Step ab Spec.sha1Block := by
  intro x blk hb
  obtain ⟨s, h1, h2⟩ := load_ok (msg := blk) (n := 4) (fun b h => unpack_be h) [0, 1, 2, 3, 4, 5, 6, 7, 8, 9, 10, 11, 12, 13, 14, 15]
    (.replicate 16 0#32) (fun i _ => by have := i.isLt; omega)
  unfold sha1Step
  rw [h1, Res.bind_ok]
  refine ⟨_, rfl, ?_⟩
  funext j
  have hs : Sched blk 0 s := by
    intro u hu _
    have hu : u < 16 := by omega
    rw [h2, if_pos (mem16 _), Spec.sha1W, if_pos hu]
    show BitVec.ofNat 32 (Spec.beNum (part 4 blk (u % 16))) = _
    rw [Nat.mod_eq_of_lt hu]
  show get (Vector.zipWith (· + ·) x (sha1Lines.foldl sha1Exec (s, x)).2) j = get x j + (List.range 80).foldl (Spec.sha1Op blk) (ab x) j
  rw [get_zipWith, (sha1_lines x hs 80 (Nat.le_refl _)).2 j, sha1Lines_eq]
  congr 2
  revert j; decide

end Verif.Crypto
