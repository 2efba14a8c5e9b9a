import Verif.Flate.Model
import Verif.Flate.Spec

/-! # Lemmas: reading bits -/

namespace Verif.Flate

@[simp] theorem FM.bind_ret {α β : Type} (a : α) (f : α → FM β) : (FM.ret a >>= f) = f a := rfl
@[simp] theorem FM.bind_err {α β : Type} (e : Err) (f : α → FM β) : ((FM.err e : FM α) >>= f) = FM.err e := rfl
@[simp] theorem FM.bind_abort {α β : Type} (f : α → FM β) : ((FM.abort : FM α) >>= f) = FM.abort := rfl
@[simp] theorem FM.bind_spin {α β : Type} (f : α → FM β) : ((FM.spin : FM α) >>= f) = FM.spin := rfl
@[simp] theorem FM.lift_ok {α : Type} (a : α) : FM.lift (.ok a) = FM.ret a := rfl
@[simp] theorem FM.lift_abort {α : Type} : FM.lift (.abort : Res α) = FM.abort := rfl

/-- The number whose bits, least significant first, are given (auxiliary). -/
def num : List Bool → Nat
  | [] => 0
  | b :: bs => b.toNat + 2 * num bs

theorem lsb_length (n x : Nat) : (lsb n x).length = n := by
  induction n generalizing x with
  | zero => rfl
  | succ n ih => simp only [lsb, List.length_cons, ih]

theorem msb_length (n x : Nat) : (msb n x).length = n := by
  induction n with
  | zero => rfl
  | succ n ih => simp only [msb, List.length_cons, ih]

theorem num_lsb (n x : Nat) : num (lsb n x) = x % 2 ^ n := by
  induction n generalizing x with
  | zero => simp [lsb, num, Nat.mod_one]
  | succ n ih =>
    simp only [lsb, num, ih]
    have h1 : x % 2 ^ (n + 1) = x % 2 + 2 * (x / 2 % 2 ^ n) := by
      rw [Nat.pow_succ, Nat.mul_comm, Nat.mod_mul]
    rw [h1]
    rcases Nat.mod_two_eq_zero_or_one x with h | h <;> simp [h]

theorem num_lt (bs : List Bool) : num bs < 2 ^ bs.length := by
  induction bs with
  | nil => simp [num]
  | cons b bs ih =>
    simp only [num, List.length_cons, Nat.pow_succ]
    cases b <;> simp <;> omega

theorem num_append (a b : List Bool) : num (a ++ b) = num a + 2 ^ a.length * num b := by
  induction a with
  | nil => simp [num]
  | cons x a ih =>
    simp only [List.cons_append, num, ih, List.length_cons, Nat.pow_succ]
    rw [Nat.mul_add, Nat.mul_right_comm, Nat.mul_comm 2 (2 ^ a.length * num b), Nat.mul_right_comm, Nat.add_assoc]

theorem num_take (bs : List Bool) (n : Nat) (h : n ≤ bs.length) : num (bs.take n) = num bs % 2 ^ n := by
  have h1 : num bs = num (bs.take n) + 2 ^ n * num (bs.drop n) := by
    conv => lhs; rw [← List.take_append_drop n bs]
    rw [num_append, List.length_take, Nat.min_eq_left h]
  have h2 := num_lt (bs.take n)
  rw [List.length_take, Nat.min_eq_left h] at h2
  rw [h1, Nat.add_mul_mod_self_left, Nat.mod_eq_of_lt h2]

theorem lsb_drop (n k x : Nat) (h : k ≤ n) : (lsb n x).drop k = lsb (n - k) (x / 2 ^ k) := by
  induction k generalizing n x with
  | zero => simp
  | succ k ih =>
    cases n with
    | zero => omega
    | succ n =>
      simp only [lsb, List.drop_succ_cons]
      rw [ih n (x / 2) (by omega), Nat.div_div_eq_div_mul, Nat.pow_succ, Nat.mul_comm 2]
      congr 1; omega

/-- The bits to come (auxiliary). -/
def In.pend (i : In) : List Bool := lsb (8 - i.bpos) (i.bval.toNat / 2 ^ i.bpos) ++ bitsOf i.rd

/-- The state of the input between calls (auxiliary). -/
structure In.WF (i : In) : Prop where
  lo : 1 ≤ i.bpos
  hi : i.bpos ≤ 8
  byte : i.bval.toNat < 256

theorem bitsOf_cons (b : Byte) (S : List Byte) : bitsOf (b :: S) = lsb 8 b.toNat ++ bitsOf S := rfl

theorem bitsOf_nil : bitsOf [] = [] := rfl

theorem bitsOf_length (S : List Byte) : (bitsOf S).length = 8 * S.length := by
  induction S with
  | nil => rfl
  | cons b S ih => rw [bitsOf_cons, List.length_append, lsb_length, ih, List.length_cons]; omega

theorem pend_length (i : In) : i.pend.length = 8 - i.bpos + 8 * i.rd.length := by
  rw [In.pend, List.length_append, lsb_length, bitsOf_length]

/-- What the loop has gathered: `len` bits `g`, the value of which is `b`; the last of them are
the bits of `bval` (auxiliary). -/
theorem bitsLoop_ok (fuel : Nat) (i : In) (n len : Nat) (b : BitVec 32) (g : List Bool) (hn : n ≤ 31)
    (hf : n + 8 ≤ 8 * fuel + len) (hg : g.length = len) (hb : b.toNat = num g % 2 ^ 32) (hv : i.bval.toNat < 256)
    (hl : ∀ k, k ≤ len → k ≤ 8 → g.drop (len - k) = lsb k (i.bval.toNat / 2 ^ (8 - k))) (hl8 : len < n + 8)
    (h : n ≤ len + (bitsOf i.rd).length) :
    ∃ i' len' b', bitsLoop fuel i n len b = FM.ret (i', len', b') ∧ b'.toNat % 2 ^ n = num ((g ++ bitsOf i.rd).take n) ∧
      n ≤ len' ∧ len' < n + 8 ∧ i'.bval.toNat < 256 ∧
      lsb (len' - n) (i'.bval.toNat / 2 ^ (8 - (len' - n))) ++ bitsOf i'.rd = (g ++ bitsOf i.rd).drop n := by
  induction fuel generalizing i len b g with
  | zero => omega
  | succ fuel ih =>
    rw [bitsLoop]
    by_cases hc : len < n
    · rw [if_pos hc]
      rcases hrd : i.rd with _ | ⟨c, rd⟩
      · rw [hrd, bitsOf_nil] at h; simp at h; omega
      · dsimp only
        have hc8 : c.toNat < 256 := c.isLt
        have hcw : (c.setWidth 32 : BitVec 32).toNat = c.toNat := by
          rw [BitVec.toNat_setWidth, Nat.mod_eq_of_lt (by omega)]
        have hsh : ((c.setWidth 32 : BitVec 32) <<< len).toNat = (c.toNat * 2 ^ len) % 2 ^ 32 := by
          rw [BitVec.toNat_shiftLeft, Nat.shiftLeft_eq, hcw]
        have := ih ⟨rd, c.setWidth 32, i.bpos⟩ (len + 8) (b + c.setWidth 32 <<< len) (g ++ lsb 8 c.toNat) (by omega)
          (by rw [List.length_append, hg, lsb_length])
          (by
            rw [BitVec.toNat_add, hsh, hb, num_append, num_lsb, hg, Nat.mod_eq_of_lt (a := c.toNat) (by omega),
              Nat.mul_comm (2 ^ len)]
            omega)
          (by dsimp only; omega)
          (by
            intro k _ hk8
            dsimp only
            rw [hcw, List.drop_append, List.drop_eq_nil_of_le (by omega), List.nil_append, hg, lsb_drop _ _ _ (by omega)]
            rw [show 8 - (len + 8 - k - len) = k by omega, show len + 8 - k - len = 8 - k by omega])
          (by omega)
          (by dsimp only; rw [hrd, bitsOf_cons, List.length_append, lsb_length] at h; omega)
        dsimp only at this
        rw [bitsOf_cons]
        rw [List.append_assoc] at this
        exact this
    · rw [if_neg hc]
      have hnl : n ≤ len := by omega
      refine ⟨i, len, b, rfl, ?_, hnl, hl8, hv, ?_⟩
      · rw [List.take_append_of_le_length (by omega), num_take _ _ (by omega), hb,
          Nat.mod_mod_of_dvd _ (Nat.pow_dvd_pow 2 (by omega))]
      · rw [← hl (len - n) (by omega) (by omega), show len - (len - n) = n by omega, List.drop_append_of_le_length (by omega)]

theorem bitsLoop_short (fuel : Nat) (i : In) (n len : Nat) (b : BitVec 32)
    (hf : n + 8 ≤ 8 * fuel + len) (hl8 : len < n + 8) (h : len + (bitsOf i.rd).length < n) :
    bitsLoop fuel i n len b = FM.err .io := by
  induction fuel generalizing i len b with
  | zero => omega
  | succ fuel ih =>
    rw [bitsLoop, if_pos (by omega)]
    rcases hrd : i.rd with _ | ⟨c, rd⟩
    · rfl
    · dsimp only
      rw [hrd, bitsOf_cons, List.length_append, lsb_length] at h
      exact ih ⟨rd, _, _⟩ _ _ (by omega) (by omega) (by dsimp only; omega)

theorem sshiftRight_byte (b : BitVec 32) (h : b.toNat < 256) (n : Nat) : (b.sshiftRight n).toNat = b.toNat / 2 ^ n := by
  have hm : b.msb = false := by rw [BitVec.msb_eq_decide]; simp; omega
  rw [BitVec.sshiftRight_eq_of_msb_false hm, BitVec.toNat_ushiftRight, Nat.shiftRight_eq_div_pow]

/-- Reading `n` bits gives the number they stand for and leaves the bits after them. -/
theorem bits_ok (i : In) (hw : i.WF) (n : Nat) (hn : n ≤ 31) (h : n ≤ i.pend.length) :
    ∃ i', bits i n = FM.ret (num (i.pend.take n), i') ∧ i'.WF ∧ i'.pend = i.pend.drop n := by
  have hlo := hw.lo
  have hhi := hw.hi
  have hby := hw.byte
  have hle : i.bval.toNat / 2 ^ i.bpos < 2 ^ (8 - i.bpos) := by
    apply Nat.div_lt_of_lt_mul
    rw [← Nat.pow_add, show i.bpos + (8 - i.bpos) = 8 by omega]; exact hby
  obtain ⟨i', len', b', e1, e2, e3, e4, e5, e6⟩ := bitsLoop_ok (n + 1) i n (8 - i.bpos) (i.bval.sshiftRight i.bpos)
    (lsb (8 - i.bpos) (i.bval.toNat / 2 ^ i.bpos)) hn (by omega) (lsb_length _ _)
    (by
      have : i.bval.toNat / 2 ^ i.bpos ≤ i.bval.toNat := Nat.div_le_self _ _
      rw [sshiftRight_byte _ hby, num_lsb, Nat.mod_eq_of_lt hle, Nat.mod_eq_of_lt (by omega)])
    hby
    (by
      intro k hk _
      rw [lsb_drop _ _ _ (by omega), Nat.div_div_eq_div_mul, ← Nat.pow_add]
      rw [show 8 - i.bpos - (8 - i.bpos - k) = k by omega, show i.bpos + (8 - i.bpos - k) = 8 - k by omega])
    (by omega) (by rw [pend_length] at h; rw [bitsOf_length]; exact h)
  refine ⟨{ i' with bpos := 8 - (len' - n) }, ?_, ⟨by dsimp only; omega, by dsimp only; omega, e5⟩, ?_⟩
  · rw [bits, if_pos hn, e1]
    simp only [FM.bind_ret]
    have h1 : (b' &&& (1#32 <<< n - 1#32)).toNat = b'.toNat % 2 ^ n := by
      have h2 : (1#32 <<< n - 1#32).toNat = 2 ^ n - 1 := by
        have hp : 2 ^ n < 2 ^ 32 := Nat.pow_lt_pow_right (by omega) (by omega)
        have hp1 := Nat.two_pow_pos n
        have h3 : (1#32 <<< n).toNat = 2 ^ n := by
          rw [BitVec.toNat_shiftLeft, Nat.shiftLeft_eq]
          show 1 * 2 ^ n % 2 ^ 32 = _
          rw [Nat.one_mul, Nat.mod_eq_of_lt hp]
        rw [BitVec.toNat_sub, h3]
        show (2 ^ 32 - 1 + 2 ^ n) % 2 ^ 32 = _
        omega
      rw [BitVec.toNat_and, h2, Nat.and_two_pow_sub_one_eq_mod]
    rw [h1, e2]; rfl
  · rw [In.pend]
    dsimp only
    rw [show 8 - (8 - (len' - n)) = len' - n by omega, e6]; rfl

/-- With too few bits left the result is an error. -/
theorem bits_short (i : In) (hw : i.WF) (n : Nat) (hn : n ≤ 31) (h : i.pend.length < n) : bits i n = FM.err .io := by
  have hlo := hw.lo
  rw [bits, if_pos hn, bitsLoop_short _ _ _ _ _ (by omega) (by omega) (by rw [pend_length] at h; rw [bitsOf_length]; exact h)]
  rfl

/-- Reading a number that was written least significant bit first. -/
theorem bits_lsb (i : In) (hw : i.WF) (n x : Nat) (hn : n ≤ 31) (hx : x < 2 ^ n) (rest : List Bool)
    (h : i.pend = lsb n x ++ rest) : ∃ i', bits i n = FM.ret (x, i') ∧ i'.WF ∧ i'.pend = rest := by
  obtain ⟨i', e1, e2, e3⟩ := bits_ok i hw n hn (by rw [h, List.length_append, lsb_length]; omega)
  rw [h, List.take_left' (lsb_length _ _), num_lsb, Nat.mod_eq_of_lt hx] at e1
  rw [h, List.drop_left' (lsb_length _ _)] at e3
  exact ⟨i', e1, e2, e3⟩

/-- Either there are enough bits or the result is an error. -/
theorem bits_total (i : In) (hw : i.WF) (n : Nat) (hn : n ≤ 31) :
    bits i n = FM.err .io ∨
      ∃ x i', bits i n = FM.ret (x, i') ∧ i'.WF ∧ x < 2 ^ n ∧ i'.pend.length + n = i.pend.length := by
  by_cases h : n ≤ i.pend.length
  · obtain ⟨i', e1, e2, e3⟩ := bits_ok i hw n hn h
    refine .inr ⟨_, i', e1, e2, ?_, ?_⟩
    · have := num_lt (i.pend.take n)
      rwa [List.length_take, Nat.min_eq_left h] at this
    · rw [e3, List.length_drop]; omega
  · exact .inl (bits_short i hw n hn (by omega))

end Verif.Flate
