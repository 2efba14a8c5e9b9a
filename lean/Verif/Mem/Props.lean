import Verif.Mem.Model

/-!
# C62: memblit is an overlap-safe copy, memfill fills, memeq compares
-/

namespace Verif.Mem

/-- What a copy has to do (specification): the destination range gets the source range as
it was before, nothing else changes. -/
def Copied (m m' : Memory) (dst src : Int) (len : Nat) : Prop :=
  ∀ x, m' x = if dst ≤ x ∧ x < dst + len then m (src + (x - dst)) else m x

theorem movsb_fwd (n : Nat) : ∀ (m : Memory) (di si : Int), di < si →
    (repMovsb 1 n m di si).1 = (fun x => if di ≤ x ∧ x < di + n then m (si + (x - di)) else m x) ∧
    (repMovsb 1 n m di si).2 = (di + n, si + n) := by
  induction n with
  | zero =>
    intro m di si h
    refine ⟨?_, by simp [repMovsb]⟩
    funext x; simp only [repMovsb]; rw [if_neg (by omega)]
  | succ n ih =>
    intro m di si h
    obtain ⟨h1, h2⟩ := ih (store m di (m si)) (di + 1) (si + 1) (by omega)
    unfold repMovsb
    rw [h1, h2]
    refine ⟨?_, by rw [Prod.mk.injEq]; constructor <;> omega⟩
    funext x
    simp only [store]
    by_cases hx : di + 1 ≤ x ∧ x < di + 1 + n
    · rw [if_pos hx, if_neg (by omega), if_pos (by omega)]
      congr 1; omega
    · rw [if_neg hx]
      by_cases hd : x = di
      · rw [if_pos hd, if_pos (by omega)]; congr 1; omega
      · rw [if_neg hd, if_neg (by omega)]

theorem movsq_fwd (n : Nat) : ∀ (m : Memory) (di si : Int), di < si →
    (repMovsq n m di si).1 = (fun x => if di ≤ x ∧ x < di + 8 * n then m (si + (x - di)) else m x) ∧
    (repMovsq n m di si).2 = (di + 8 * n, si + 8 * n) := by
  induction n with
  | zero =>
    intro m di si h
    refine ⟨?_, by simp [repMovsq]⟩
    funext x; simp only [repMovsq]; rw [if_neg (by omega)]
  | succ n ih =>
    intro m di si h
    obtain ⟨h1, h2⟩ := ih (store8 m di fun k => m (si + k)) (di + 8) (si + 8) (by omega)
    unfold repMovsq
    rw [h1, h2]
    refine ⟨?_, by rw [Prod.mk.injEq]; constructor <;> omega⟩
    funext x
    simp only [store8]
    by_cases hx : di + 8 ≤ x ∧ x < di + 8 + 8 * n
    · rw [if_pos hx, if_neg (by omega), if_pos (by omega)]
      congr 1; omega
    · rw [if_neg hx]
      by_cases hd : di ≤ x ∧ x < di + 8
      · rw [if_pos hd, if_pos (by omega)]
      · rw [if_neg hd, if_neg (by omega)]

theorem fwdcpy_spec (m : Memory) (dst src : Int) (len : Nat) (h : dst < src) :
    Copied m (fwdcpy m dst src len) dst src len := by
  intro x
  unfold fwdcpy
  obtain ⟨h1, h2⟩ := movsq_fwd (len / 8) m dst src h
  obtain ⟨h3, -⟩ := movsb_fwd (len % 8) (repMovsq (len / 8) m dst src).1 (dst + 8 * (len / 8 : Nat))
    (src + 8 * (len / 8 : Nat)) (by omega)
  have e : repMovsq (len / 8) m dst src = ((repMovsq (len / 8) m dst src).1, dst + 8 * (len / 8 : Nat),
    src + 8 * (len / 8 : Nat)) := by rw [← h2]
  rw [e]
  simp only
  rw [h3, h1]
  beta_reduce
  by_cases hx : dst + 8 * (len / 8 : Nat) ≤ x ∧ x < dst + 8 * (len / 8 : Nat) + (len % 8 : Nat)
  · rw [if_pos hx, if_neg (by omega), if_pos (by omega)]
    congr 1; omega
  · rw [if_neg hx]
    by_cases hy : dst ≤ x ∧ x < dst + 8 * (len / 8 : Nat)
    · rw [if_pos hy, if_pos (by omega)]
    · rw [if_neg hy, if_neg (by omega)]

theorem movsb_rev (n : Nat) : ∀ (m : Memory) (di si : Int), si < di →
    (repMovsb (-1) n m di si).1 = (fun x => if di - n < x ∧ x ≤ di then m (si + (x - di)) else m x) := by
  induction n with
  | zero =>
    intro m di si h
    funext x; simp only [repMovsb]; rw [if_neg (by omega)]
  | succ n ih =>
    intro m di si h
    unfold repMovsb
    rw [ih (store m di (m si)) (di + -1) (si + -1) (by omega)]
    funext x
    simp only [store]
    by_cases hx : di + -1 - n < x ∧ x ≤ di + -1
    · rw [if_pos hx, if_neg (by omega), if_pos (by omega)]
      congr 1; omega
    · rw [if_neg hx]
      by_cases hd : x = di
      · rw [if_pos hd, if_pos (by omega)]; congr 1; omega
      · rw [if_neg hd, if_neg (by omega)]

theorem revcpy_spec (m : Memory) (dst src : Int) (len : Nat) (h : src < dst) :
    Copied m (revcpy m dst src len) dst src len := by
  intro x
  unfold revcpy
  rw [movsb_rev _ _ _ _ (by omega)]
  beta_reduce
  by_cases hx : dst ≤ x ∧ x < dst + len
  · rw [if_pos hx, if_pos (by omega)]; congr 1; omega
  · rw [if_neg hx, if_neg (by omega)]

/-- **C62, `memblit`.**  For any addresses, overlapping or not, and any length. -/
theorem memblit_spec (m : Memory) (dst src : Int) (len : Nat) : Copied m (memblit m dst src len) dst src len := by
  unfold memblit
  split
  · next h =>
    intro x
    split
    · congr 1; omega
    · rfl
  · split
    · exact fwdcpy_spec _ _ _ _ (by omega)
    · rw [if_pos (by omega)]
      exact revcpy_spec _ _ _ _ (by omega)

theorem blitUp_spec (dst src : Int) (len : Nat) (h : dst < src) (n : Nat) : ∀ (m : Memory), n ≤ len →
    blitUp dst src len n m = (fun x => if dst + (len - n) ≤ x ∧ x < dst + len then m (src + (x - dst)) else m x) := by
  induction n with
  | zero => intro m _; funext x; simp only [blitUp]; rw [if_neg (by omega)]
  | succ n ih =>
    intro m hn
    unfold blitUp
    simp only
    rw [ih _ (by omega)]
    funext x
    simp only [store]
    by_cases hx : dst + (len - n) ≤ x ∧ x < dst + len
    · rw [if_pos hx, if_neg (by omega), if_pos (by omega)]
    · rw [if_neg hx]
      by_cases hd : x = dst + (len - (n + 1))
      · rw [if_pos hd, if_pos (by omega)]; congr 1; omega
      · rw [if_neg hd, if_neg (by omega)]

theorem blitDown_spec (dst src : Int) (h : src < dst) (n : Nat) : ∀ (m : Memory),
    blitDown dst src n m = (fun x => if dst ≤ x ∧ x < dst + n then m (src + (x - dst)) else m x) := by
  induction n with
  | zero => intro m; funext x; simp only [blitDown]; rw [if_neg (by omega)]
  | succ n ih =>
    intro m
    unfold blitDown
    rw [ih]
    funext x
    simp only [store]
    by_cases hx : dst ≤ x ∧ x < dst + n
    · rw [if_pos hx, if_neg (by omega), if_pos (by omega)]
    · rw [if_neg hx]
      by_cases hd : x = dst + n
      · rw [if_pos hd, if_pos (by omega)]; congr 1; omega
      · rw [if_neg hd, if_neg (by omega)]

/-- **C62, the portable `memblit`.** -/
theorem memblitMyr_spec (m : Memory) (dst src : Int) (len : Nat) :
    Copied m (memblitMyr m dst src len) dst src len := by
  unfold memblitMyr
  intro x
  split
  · next h => subst h; split
              · congr 1; omega
              · rfl
  · split
    · next h =>
      rw [blitUp_spec dst src len h len m (Nat.le_refl _)]
      beta_reduce
      by_cases hx : dst ≤ x ∧ x < dst + len
      · rw [if_pos hx, if_pos (by omega)]
      · rw [if_neg hx, if_neg (by omega)]
    · rw [blitDown_spec dst src (by omega)]

/-- The Plan 9 version copies correctly if the caller's CX happens to exceed `src - dst`
or the ranges do not overlap badly.  Missing: other values of CX, where the code is wrong. -/
theorem memblitPlan9_partial (cx : Int) (m : Memory) (dst src : Int) (len : Nat)
    (h : cx > src - dst ∨ src ≥ dst) : Copied m (memblitPlan9 cx m dst src len) dst src len := by
  unfold memblitPlan9
  split
  · intro x
    split
    · congr 1; omega
    · rfl
  · split
    · exact fwdcpy_spec _ _ _ _ (by omega)
    · rw [if_pos (by omega)]
      exact revcpy_spec _ _ _ _ (by omega)

/-- The Plan 9 version reads CX before setting it: with -2 left in CX, moving three bytes
up by one copies the first byte over the rest. -/
theorem memblitPlan9_violated :
    ¬ ∀ cx m dst src len, Copied m (memblitPlan9 cx m dst src len) dst src len := by
  intro h
  have := h (-2) (fun x => BitVec.ofInt 8 x) 11 10 3 12
  revert this
  decide +kernel

/-- A move by three bytes upwards over eleven bytes, inside an overlapping range. -/
example : (memblit (fun x => BitVec.ofInt 8 x) 13 10 11) 23 = 20#8 := by decide +kernel

theorem fill_byte (v : Byte) (k : Nat) (hk : k < 8) :
    ((0x101010101010101#64 * v.setWidth 64) >>> (8 * k)).setWidth 8 = v := by
  have : ∀ v : Fin (2 ^ 8), ∀ k : Fin 8,
      ((0x101010101010101#64 * (BitVec.ofFin v).setWidth 64) >>> (8 * k.val)).setWidth 8 = BitVec.ofFin v := by
    decide +kernel
  exact this v.toFin ⟨k, hk⟩

theorem stosq_spec (rax : BitVec 64) (v : Byte) (hv : ∀ k, k < 8 → (rax >>> (8 * k)).setWidth 8 = v) (n : Nat) :
    ∀ (m : Memory) (di : Int), repStosq rax n m di =
      ((fun x => if di ≤ x ∧ x < di + 8 * n then v else m x), di + 8 * n) := by
  induction n with
  | zero =>
    intro m di
    simp only [repStosq, Prod.mk.injEq]
    refine ⟨?_, by omega⟩
    funext x; rw [if_neg (by omega)]
  | succ n ih =>
    intro m di
    unfold repStosq
    rw [ih, Prod.mk.injEq]
    refine ⟨?_, by omega⟩
    funext x
    simp only [store8]
    by_cases hx : di + 8 ≤ x ∧ x < di + 8 + 8 * n
    · rw [if_pos hx, if_pos (by omega)]
    · rw [if_neg hx]
      by_cases hd : di ≤ x ∧ x < di + 8
      · rw [if_pos hd, if_pos (by omega), hv _ (by omega)]
      · rw [if_neg hd, if_neg (by omega)]

theorem stosb_spec (v : Byte) (n : Nat) : ∀ (m : Memory) (di : Int), repStosb v n m di =
    (fun x => if di ≤ x ∧ x < di + n then v else m x) := by
  induction n with
  | zero => intro m di; funext x; simp only [repStosb]; rw [if_neg (by omega)]
  | succ n ih =>
    intro m di
    unfold repStosb
    rw [ih]
    funext x
    simp only [store]
    by_cases hx : di + 1 ≤ x ∧ x < di + 1 + n
    · rw [if_pos hx, if_pos (by omega)]
    · rw [if_neg hx]
      by_cases hd : x = di
      · rw [if_pos hd, if_pos (by omega)]
      · rw [if_neg hd, if_neg (by omega)]

/-- **C62, `memfill`.** -/
theorem memfill_spec (m : Memory) (dst : Int) (val : Byte) (len : Nat) (x : Int) :
    memfill m dst val len x = if dst ≤ x ∧ x < dst + len then val else m x := by
  unfold memfill
  simp only
  rw [stosq_spec _ val (fun k hk => fill_byte val k hk)]
  simp only
  have e : (0x101010101010101#64 * val.setWidth 64).setWidth 8 = val := by
    have := fill_byte val 0 (by omega)
    simpa using this
  rw [e, stosb_spec]
  simp only
  by_cases hx : dst + 8 * (len / 8 : Nat) ≤ x ∧ x < dst + 8 * (len / 8 : Nat) + (len % 8 : Nat)
  · rw [if_pos hx, if_pos (by omega)]
  · rw [if_neg hx]
    by_cases hy : dst ≤ x ∧ x < dst + 8 * (len / 8 : Nat)
    · rw [if_pos hy, if_pos (by omega)]
    · rw [if_neg hy, if_neg (by omega)]

example : memfill (fun _ => 0) 5 0xab 11 15 = 0xab#8 ∧ memfill (fun _ => 0) 5 0xab 11 16 = 0#8 := by
  constructor <;> decide +kernel

theorem append_inj8 {w : Nat} (a c : BitVec w) (b d : Byte) (h : a ++ b = c ++ d) : a = c ∧ b = d := by
  constructor
  · have : (a ++ b).extractLsb' 8 w = (c ++ d).extractLsb' 8 w := by rw [h]
    simpa [BitVec.extractLsb'_append_eq_left] using this
  · have : (a ++ b).extractLsb' 0 8 = (c ++ d).extractLsb' 0 8 := by rw [h]
    simpa [BitVec.extractLsb'_append_eq_right] using this

theorem load64_eq (m : Memory) (a b : Int) :
    load64 m a ^^^ load64 m b = 0#64 ↔ ∀ k : Int, 0 ≤ k → k < 8 → m (a + k) = m (b + k) := by
  rw [BitVec.xor_eq_zero_iff]
  unfold load64
  constructor
  · intro h
    obtain ⟨h, e0⟩ := append_inj8 _ _ _ _ h
    obtain ⟨h, e1⟩ := append_inj8 _ _ _ _ h
    obtain ⟨h, e2⟩ := append_inj8 _ _ _ _ h
    obtain ⟨h, e3⟩ := append_inj8 _ _ _ _ h
    obtain ⟨h, e4⟩ := append_inj8 _ _ _ _ h
    obtain ⟨h, e5⟩ := append_inj8 _ _ _ _ h
    obtain ⟨e7, e6⟩ := append_inj8 _ _ _ _ h
    intro k h0 h8
    have : k = 0 ∨ k = 1 ∨ k = 2 ∨ k = 3 ∨ k = 4 ∨ k = 5 ∨ k = 6 ∨ k = 7 := by omega
    rcases this with rfl | rfl | rfl | rfl | rfl | rfl | rfl | rfl <;> first | assumption | simpa using e0
  · intro h
    have e0 := h 0 (by omega) (by omega)
    simp only [Int.add_zero] at e0
    rw [h 7 (by omega) (by omega), h 6 (by omega) (by omega), h 5 (by omega) (by omega),
      h 4 (by omega) (by omega), h 3 (by omega) (by omega), h 2 (by omega) (by omega),
      h 1 (by omega) (by omega), e0]

theorem eqBytes_iff (m : Memory) (n : Nat) : ∀ (a b : Int),
    eqBytes m n a b = true ↔ ∀ k : Int, 0 ≤ k → k < n → m (a + k) = m (b + k) := by
  induction n with
  | zero => intro a b; simp only [eqBytes, true_iff]; intro k _ _; omega
  | succ n ih =>
    intro a b
    unfold eqBytes
    have key : (m a).setWidth 32 ^^^ (m b).setWidth 32 = 0#32 ↔ m a = m b := by
      rw [BitVec.xor_eq_zero_iff]
      refine ⟨fun h => ?_, fun h => by rw [h]⟩
      have : ((m a).setWidth 32).setWidth 8 = ((m b).setWidth 32).setWidth 8 := by rw [h]
      simpa using this
    by_cases hc : (m a).setWidth 32 ^^^ (m b).setWidth 32 = 0#32
    · rw [if_pos hc, ih]
      constructor
      · intro h k h0 h1
        by_cases hk : k = 0
        · subst hk; simpa using key.1 hc
        · have := h (k - 1) (by omega) (by omega)
          rwa [show a + 1 + (k - 1) = a + k by omega, show b + 1 + (k - 1) = b + k by omega] at this
      · intro h k h0 h1
        have := h (k + 1) (by omega) (by omega)
        rwa [show a + (k + 1) = a + 1 + k by omega, show b + (k + 1) = b + 1 + k by omega] at this
    · rw [if_neg hc]
      simp only [Bool.false_eq_true, false_iff]
      intro h
      exact hc (key.2 (by simpa using h 0 (by omega) (by omega)))

theorem eqQuads_iff (m : Memory) (r n : Nat) : ∀ (a b : Int),
    eqQuads m r n a b = true ↔ ∀ k : Int, 0 ≤ k → k < 8 * n + r → m (a + k) = m (b + k) := by
  induction n with
  | zero => intro a b; unfold eqQuads; rw [eqBytes_iff]; simp
  | succ n ih =>
    intro a b
    unfold eqQuads
    by_cases hc : load64 m a ^^^ load64 m b = 0#64
    · rw [if_pos hc, ih]
      rw [load64_eq] at hc
      constructor
      · intro h k h0 h1
        by_cases hk : k < 8
        · exact hc k h0 hk
        · have := h (k - 8) (by omega) (by omega)
          rwa [show a + 8 + (k - 8) = a + k by omega, show b + 8 + (k - 8) = b + k by omega] at this
      · intro h k h0 h1
        have := h (k + 8) (by omega) (by omega)
        rwa [show a + (k + 8) = a + 8 + k by omega, show b + (k + 8) = b + 8 + k by omega] at this
    · rw [if_neg hc]
      simp only [Bool.false_eq_true, false_iff]
      intro h
      exact hc ((load64_eq _ _ _).2 fun k h0 h8 => h k h0 (by omega))

/-- **C62, `memeq`.** -/
theorem memeq_iff (m : Memory) (a b : Int) (len : Nat) :
    memeq m a b len = true ↔ ∀ k : Int, 0 ≤ k → k < len → m (a + k) = m (b + k) := by
  unfold memeq
  rw [eqQuads_iff]
  constructor
  · intro h k h0 h1; exact h k h0 (by omega)
  · intro h k h0 h1; exact h k h0 (by omega)

example : memeq (fun x => BitVec.ofInt 8 (x % 10)) 5 15 20 = true ∧
    memeq (fun x => BitVec.ofInt 8 (x % 10)) 5 16 20 = false := by
  constructor <;> decide +kernel

end Verif.Mem
