import Verif.Big.Bits

/-!
# C13, C14, C15, C79: big integers

`Rep x z`: `x` has the digits of `|z|` to the base 2^32, without leading zeros, and the sign of `z`.
-/

namespace Verif.Bigint

/-! ## C13: sum, difference, product -/

/-- **C13, sums.** -/
theorem bigadd_exact (a b : Big) (x y : Int) (ha : Rep a x) (hb : Rep b y) : Rep (bigadd a b) (x + y) := bigadd_rep ha hb

/-- **C13, differences.** -/
theorem bigsub_exact (a b : Big) (x y : Int) (ha : Rep a x) (hb : Rep b y) : Rep (bigsub a b) (x - y) := bigsub_rep ha hb

-- 2^64 - 1 + 1 carries through two digits; 2^64 - (2^64 + 1) changes the sign
example : Rep ⟨[4294967295, 4294967295], 1⟩ 18446744073709551615 ∧ Rep ⟨[1], 1⟩ 1 := by constructor <;> exact ⟨by decide, by decide⟩
example : bigadd ⟨[4294967295, 4294967295], 1⟩ ⟨[1], 1⟩ = ⟨[0, 0, 1], 1⟩ := by decide +kernel
example : bigsub ⟨[0, 0, 1], 1⟩ ⟨[1, 0, 1], 1⟩ = ⟨[1], -1⟩ := by decide +kernel

/-- The claim of C13 for products: some amount of recursion gives the product. -/
def MulClaim : Prop := ∀ (a b : Big) (x y : Int), Rep a x → Rep b y → ∃ fuel r, bigmul fuel a b = .ok r ∧ Rep r (x * y)

/-- **C13, products, part.** Missing: both operands have 64 digits or more, and the longer one has 127 or more, or the lower half, as
cut for the longer one, of the shorter one is longer than the rest and has leading zeros. -/
theorem bigmul_exact_partial (a b : Big) (x y : Int) (ha : Rep a x) (hb : Rep b y)
    (h : a.dig.length < 64 ∨ b.dig.length < 64 ∨ (b.dig.length ≤ a.dig.length ∧ Halved a.dig b.dig) ∨ (a.dig.length < b.dig.length ∧ Halved b.dig a.dig)) :
    ∀ fuel, 2 ≤ fuel → ∃ r, bigmul fuel a b = .ok r ∧ Rep r (x * y) := by
  intro fuel hf
  obtain ⟨f, rfl⟩ : ∃ f, fuel = f + 2 := ⟨fuel - 2, by omega⟩
  by_cases h64 : a.dig.length < 64 ∨ b.dig.length < 64
  · exact bigmul_small ha hb h64 (f + 1)
  · exact bigmul_halved ha hb ⟨by unfold Kmin; omega, by unfold Kmin; omega⟩ (by rcases h with h | h | h <;> [omega; omega; exact h]) f

example : bigmul 2 ⟨[4294967295, 4294967295], -1⟩ ⟨[4294967295], 1⟩ = .ok ⟨[1, 4294967295, 4294967294], -1⟩ := by decide +kernel
-- two numbers of 64 digits, which go through one step of Karatsuba's method
example : Halved (List.replicate 64 4294967295) (List.replicate 64 4294967295) := ⟨by decide, .inr (by decide)⟩
example : bigmul 2 ⟨List.replicate 64 4294967295, 1⟩ ⟨List.replicate 64 4294967295, 1⟩ =
    .ok ⟨1 :: List.replicate 63 0 ++ 4294967294 :: List.replicate 63 4294967295, 1⟩ := by decide +kernel

theorem kmul_mono {u v : Big → Big → Res Big} (h : ∀ x y r, u x y = .ok r → v x y = .ok r) {a b r : Big} (hr : kmul u a b = .ok r) : kmul v a b = .ok r := by
  unfold kmul at hr ⊢
  simp only at hr ⊢
  obtain ⟨z0, h1, hr⟩ := Res.bind_eq_ok.1 hr
  obtain ⟨z2, h2, hr⟩ := Res.bind_eq_ok.1 hr
  obtain ⟨z1, h3, hr⟩ := Res.bind_eq_ok.1 hr
  rw [h _ _ _ h1, Res.bind_ok, h _ _ _ h2, Res.bind_ok, h _ _ _ h3, Res.bind_ok]
  exact hr

theorem umul_mono : ∀ (f : Nat) (a b r : Big), umul f a b = .ok r → umul (f + 1) a b = .ok r
  | 0, _, _, _, h => by simp [umul] at h
  | f + 1, a, b, r, h => by
    rw [umul] at h ⊢
    split
    · rename_i hc
      rwa [if_pos hc] at h
    · rename_i hc
      rw [if_neg hc] at h
      exact kmul_mono (fun x y r => umul_mono f x y r) h

theorem bigmul_mono (f k : Nat) (a b r : Big) (h : bigmul f a b = .ok r) : bigmul (f + k) a b = .ok r := by
  induction k with
  | zero => exact h
  | succ k ih =>
    unfold bigmul at ih ⊢
    split
    · rename_i hc
      rwa [if_pos hc] at ih
    · rename_i hc
      rw [if_neg hc] at ih
      obtain ⟨t, h1, h2⟩ := Res.bind_eq_ok.1 ih
      rw [← Nat.add_assoc, umul_mono _ _ _ _ h1]
      exact h2

/-- 2^(32*127) + 1 -/
def mulA : List Nat := 1 :: (List.replicate 126 0 ++ [1])
/-- 5 * 2^(32*63) + 1 -/
def mulB : List Nat := 1 :: (List.replicate 62 0 ++ [5])
/-- The product computed is not the product. -/
theorem mul_wrong : (match bigmul 4 ⟨mulA, 1⟩ ⟨mulB, 1⟩ with
    | .ok r => decide (Nat.ofDigits 4294967296 r.dig ≠ Nat.ofDigits 4294967296 mulA * Nat.ofDigits 4294967296 mulB)
    | _ => false) = true := by decide +kernel

theorem prod_V {r : Big} {x y : Nat} (h : Rep r ((x : Int) * y)) : Nat.ofDigits 4294967296 r.dig = x * y := h.V.trans (Int.natAbs_mul _ _)

theorem bigmul_violated : ¬ MulClaim := by
  intro hc
  have sa : Small mulA := by
    have : mulA.all (fun d => decide (d < 4294967296)) = true := by decide +kernel
    intro d hd
    simpa using List.all_eq_true.1 this d hd
  have sb : Small mulB := by
    have : mulB.all (fun d => decide (d < 4294967296)) = true := by decide +kernel
    intro d hd
    simpa using List.all_eq_true.1 this d hd
  have ra := rep_pos sa (fun _ => by simp [mulA]) (by simp [mulA])
  have rb := rep_pos sb (fun _ => by simp [mulB]) (by simp [mulB])
  obtain ⟨fuel, r, h1, h2⟩ := hc _ _ _ _ ra rb
  have hw := mul_wrong
  split at hw
  · rename_i r' hr'
    have e1 := bigmul_mono fuel 4 _ _ _ h1
    have e2 := bigmul_mono 4 fuel _ _ _ hr'
    rw [Nat.add_comm, e1] at e2
    cases e2
    have hne := of_decide_eq_true hw
    exact hne (prod_V h2)
  · cases hw

/-! ## C14: division -/

/-- The claim of C14. -/
def DivClaim : Prop := ∀ (a b : Big) (x y : Int), Rep a x → Rep b y → y ≠ 0 →
  ∃ fuel q r k m, bigdivmod fuel a b = .ok (q, r) ∧ Rep q k ∧ Rep r m ∧ x = k * y + m ∧ m.natAbs < y.natAbs ∧ (m = 0 ∨ m.sign = x.sign)

/-- **C14, part.** Missing: a negative dividend with a divisor of one digit which does not divide it. The quotient is right in any case. -/
theorem bigdivmod_partial (a b : Big) (x y : Int) (ha : Rep a x) (hb : Rep b y) (hy : y ≠ 0) :
    ∀ fuel, 2 ≤ fuel → ∃ q r k m, bigdivmod fuel a b = .ok (q, r) ∧ Rep q k ∧ Rep r m ∧
      k = x.tdiv y ∧ m.natAbs < y.natAbs ∧ (0 ≤ x ∨ 2 ^ 32 ≤ y.natAbs ∨ y ∣ x → x = k * y + m ∧ (m = 0 ∨ m.sign = x.sign)) := by
  intro fuel hf
  obtain ⟨q, r, h1, h2, h3⟩ := bigdivmod_exact ha hb hy hf
  refine ⟨q, r, _, _, h1, h2, h3, rfl, ?_, ?_⟩
  · split
    · exact Nat.mod_lt _ (by omega)
    · rw [Int.natAbs_tmod]
      exact Nat.mod_lt _ (by omega)
  · intro hc
    have hm : (if y.natAbs < 4294967296 then ((x.natAbs % y.natAbs : Nat) : Int) else x.tmod y) = x.tmod y := by
      split
      · rename_i hlt
        rcases hc with h | h | h
        · have e : x.tmod y = ((x.natAbs % y.natAbs : Nat) : Int) := by
            have h0 := Int.tmod_nonneg y h
            have h1 := Int.natAbs_tmod x y
            omega
          exact e.symm
        · omega
        · rw [Int.tmod_eq_zero_of_dvd h, Nat.mod_eq_zero_of_dvd (Int.natAbs_dvd_natAbs.2 h)]
          rfl
      · rfl
    rw [hm]
    refine ⟨by rw [Int.mul_comm]; exact (Int.mul_tdiv_add_tmod x y).symm, ?_⟩
    by_cases h0 : x.tmod y = 0
    · exact .inl h0
    · right
      rcases Int.lt_trichotomy x 0 with hx | hx | hx
      · have := Int.tmod_nonneg y (a := -x) (by omega)
        rw [Int.neg_tmod] at this
        rw [Int.sign_eq_neg_one_of_neg hx, Int.sign_eq_neg_one_of_neg (by omega)]
      · subst hx
        simp at h0
      · have := Int.tmod_nonneg y (a := x) (by omega)
        rw [Int.sign_eq_one_of_pos hx, Int.sign_eq_one_of_pos (by omega)]

/-- **C14, the zero divisor.** -/
theorem bigdivmod_zero (fuel : Nat) (a b : Big) (hb : Rep b 0) : bigdivmod fuel a b = .abort := by
  unfold bigdivmod
  rw [hb.1]
  rfl

-- (2^96 + 5) / (2^64 - 1), where the first guess of the quotient digit is too large
example : bigdivmod 5 ⟨[5, 0, 0, 1], 1⟩ ⟨[4294967295, 4294967295], 1⟩ = .ok (⟨[0, 1], 1⟩, ⟨[5, 1], 1⟩) := by decide +kernel
example : Rep ⟨[5, 0, 0, 1], 1⟩ (2 ^ 96 + 5) ∧ Rep ⟨[4294967295, 4294967295], 1⟩ (2 ^ 64 - 1) := by constructor <;> exact ⟨by norm_num, by decide⟩

/-- -7 divided by 2 leaves 1. -/
theorem bigdivmod_violated : ¬ DivClaim := by
  intro h
  obtain ⟨fuel, q, r, k, m, h1, h2, h3, h4, h5, h6⟩ := h ⟨[7], -1⟩ ⟨[2], 1⟩ (-7) 2 ⟨by norm_num, rfl⟩ ⟨by norm_num, rfl⟩ (by decide)
  have e : bigdivmod fuel ⟨[7], -1⟩ ⟨[2], 1⟩ = .ok (⟨[3], -1⟩, ⟨[1], 1⟩) := rfl
  rw [e] at h1
  cases h1
  have hs := h3.2
  have h7 : m.sign = 1 := hs.symm
  rcases h6 with h6 | h6
  · rw [h6] at h7; cases h7
  · rw [h7] at h6; cases h6

/-! ## C15: construction -/

/-- **C15, construction from an unsigned type.** -/
theorem mkbigint_unsigned (w : Nat) (hw : w ≤ 64) (v : BitVec w) : Rep (mkbigint false v) v.toNat := mk_unsigned hw v

/-- The claim of C15 for construction from signed types. -/
def MkClaim : Prop := ∀ w : Nat, 0 < w → w ≤ 64 → ∀ v : BitVec w, Rep (mkbigint true v) v.toInt

/-- **C15, construction from a signed type, part.** Missing: the least number of a type of less than 64 bits. -/
theorem mkbigint_signed_partial (w : Nat) (h0 : 0 < w) (hw : w ≤ 64) (v : BitVec w) (hv : w = 64 ∨ v ≠ BitVec.intMin w) : Rep (mkbigint true v) v.toInt :=
  mk_signed h0 hw v hv

example : mkbigint true (BitVec.intMin 64) = ⟨[0, 2147483648], -1⟩ := by decide +kernel
example : mkbigint true (-5 : BitVec 8) = ⟨[5], -1⟩ := by decide +kernel

/-- `mkbigint(-128)` at `int8`: -128 negated is -128, which extends to 2^64 - 128. -/
theorem mkbigint_signed_violated : ¬ MkClaim := by
  intro h
  have h1 := (h 8 (by decide) (by decide) (BitVec.intMin 8)).1
  have h2 : Nat.digits 4294967296 (BitVec.intMin 8).toInt.natAbs = [128] := by
    have : (BitVec.intMin 8).toInt.natAbs = 128 := by decide
    rw [this]
    norm_num
  rw [h2] at h1
  revert h1
  decide +kernel

/-- **C15, operands which are machine integers** (`bigaddi` and its like), for every value of every type, the least ones too. -/
theorem machine_operands (w : Nat) (hw : w ≤ 64) (v : BitVec w) : Rep (bigdigit false v) v.toNat ∧ Rep (bigdigit true v) v.toInt :=
  ⟨bigdigit_unsigned hw v, bigdigit_signed hw v⟩

/-- **C15, sums and differences with a machine integer.** -/
theorem bigaddi_exact (a : Big) (x : Int) (ha : Rep a x) (w : Nat) (hw : w ≤ 64) (v : BitVec w) :
    Rep (bigaddi true a v) (x + v.toInt) ∧ Rep (bigaddi false a v) (x + v.toNat) ∧ Rep (bigsubi true a v) (x - v.toInt) ∧ Rep (bigsubi false a v) (x - v.toNat) :=
  ⟨bigadd_rep ha (bigdigit_signed hw v), bigadd_rep ha (bigdigit_unsigned hw v), bigsub_rep ha (bigdigit_signed hw v), bigsub_rep ha (bigdigit_unsigned hw v)⟩

theorem bigdigit_len (signed : Bool) {w : Nat} (v : BitVec w) : (bigdigit signed v).dig.length < Kmin := by
  have : ∀ (n : Nat) (s : Int), (if n = 0 then (⟨[], 0⟩ : Big) else ⟨if n < 4294967296 then [n] else [n % 4294967296, (n >>> 32) % 4294967296], s⟩).dig.length < Kmin := by
    intro n s
    by_cases h0 : n = 0
    · rw [if_pos h0]; decide
    · rw [if_neg h0]
      by_cases h : n < 4294967296
      · simp only [h, if_true, Kmin, List.length_singleton]; decide
      · simp only [h, if_false, Kmin, List.length_cons, List.length_nil]; decide
  exact this _ _

/-- **C15, products with a machine integer**, for numbers of any length. -/
theorem bigmuli_exact (a : Big) (x : Int) (ha : Rep a x) (w : Nat) (hw : w ≤ 64) (v : BitVec w) (fuel : Nat) (hf : 1 ≤ fuel) :
    (∃ r, bigmuli fuel true a v = .ok r ∧ Rep r (x * v.toInt)) ∧ ∃ r, bigmuli fuel false a v = .ok r ∧ Rep r (x * v.toNat) := by
  obtain ⟨f, rfl⟩ : ∃ f, fuel = f + 1 := ⟨fuel - 1, by omega⟩
  exact ⟨bigmul_small ha (bigdigit_signed hw v) (.inr (bigdigit_len true v)) f, bigmul_small ha (bigdigit_unsigned hw v) (.inr (bigdigit_len false v)) f⟩

/-- **C15, quotients by a machine integer.** -/
theorem bigdivi_exact (a : Big) (x : Int) (ha : Rep a x) (w : Nat) (hw : w ≤ 64) (v : BitVec w) (fuel : Nat) (hf : 2 ≤ fuel) :
    (v.toInt ≠ 0 → ∃ r, bigdivi fuel true a v = .ok r ∧ Rep r (x.tdiv v.toInt)) ∧ (v.toNat ≠ 0 → ∃ r, bigdivi fuel false a v = .ok r ∧ Rep r (x.tdiv v.toNat)) := by
  constructor
  · intro h
    obtain ⟨q, r, h1, h2, _⟩ := bigdivmod_exact ha (bigdigit_signed hw v) h hf
    exact ⟨q, by rw [bigdivi, bigdiv, h1]; rfl, h2⟩
  · intro h
    obtain ⟨q, r, h1, h2, _⟩ := bigdivmod_exact ha (bigdigit_unsigned hw v) (by omega) hf
    exact ⟨q, by rw [bigdivi, bigdiv, h1]; rfl, h2⟩

example : bigaddi true ⟨[5], 1⟩ (BitVec.intMin 8) = ⟨[123], -1⟩ := by decide +kernel
example : bigmuli 1 true ⟨[0, 1], 1⟩ (BitVec.intMin 64) = .ok ⟨[0, 0, 2147483648], -1⟩ := by decide +kernel
example : bigdivi 2 true ⟨[0, 0, 1], 1⟩ (-3 : BitVec 16) = .ok ⟨[1431655765, 1431655765], -1⟩ := by decide +kernel

/-- The claim of C15 for bytes, lowest first. -/
def BytesClaim : Prop := ∀ v : List Byte, ∃ r, bigfrombytes false v = .ok r ∧ Rep r (Nat.ofDigits 256 (v.map (·.toNat)))

/-- **C15, bytes, part.** Missing: four bytes or more. -/
theorem bigfrombytes_partial (neg : Bool) (v : List Byte) (hv : v.length < 4) :
    ∃ r, bigfrombytes neg v = .ok r ∧ Rep r ((if neg then -1 else 1) * (Nat.ofDigits 256 (v.map (·.toNat)) : Nat)) := by
  have key : ∀ l : Nat, l = Nat.ofDigits 256 (v.map (·.toNat)) → l < 4294967296 → fromlast v (v.length % 4) (4 * (v.length / 4)) 0 = .ok l → fromwords v = [] →
      ∃ r, bigfrombytes neg v = .ok r ∧ Rep r ((if neg then -1 else 1) * (Nat.ofDigits 256 (v.map (·.toNat)) : Nat)) := by
    intro l e hlt hl hw
    unfold bigfrombytes
    rw [hl, Res.bind_ok, hw, ← e]
    refine ⟨_, rfl, ?_⟩
    have hs : Small [l] := fun d hd => by rw [List.mem_singleton.1 hd]; exact hlt
    have e2 : V [l] = l := V_single l
    exact trim_rep' hs (by cases neg <;> simp) (by rw [e2])
  have or_add : ∀ (a b k : Nat), a < 2 ^ k → a ||| b * 2 ^ k = a + b * 2 ^ k := by
    intro a b k h
    rw [Nat.or_comm, Nat.mul_comm, ← Nat.two_pow_add_eq_or_of_lt h, Nat.add_comm]
  match v, hv with
  | [], _ => exact key 0 rfl (by decide) rfl rfl
  | [a], _ =>
    have := a.isLt
    refine key a.toNat (by simp) (by omega) ?_ rfl
    simp only [List.length_cons, List.length_nil, Nat.zero_add, Nat.reduceMod, Nat.reduceDiv, Nat.mul_zero]
    simp [fromlast, rdChk]
    omega
  | [a, b], _ =>
    have := a.isLt
    have := b.isLt
    refine key (a.toNat + b.toNat * 2 ^ 8) (by simp [Nat.ofDigits]; omega) (by omega) ?_ rfl
    simp only [List.length_cons, List.length_nil, Nat.zero_add, Nat.reduceAdd, Nat.reduceMod, Nat.reduceDiv, Nat.mul_zero]
    rw [← or_add _ _ _ (by omega)]
    simp [fromlast, rdChk]
    rw [Nat.mod_eq_of_lt (by omega), Nat.mod_eq_of_lt (by omega)]
  | [a, b, c], _ =>
    have := a.isLt
    have := b.isLt
    have := c.isLt
    refine key (a.toNat + b.toNat * 2 ^ 8 + c.toNat * 2 ^ 16) (by simp [Nat.ofDigits]; omega) (by omega) ?_ rfl
    simp only [List.length_cons, List.length_nil, Nat.zero_add, Nat.reduceAdd, Nat.reduceMod, Nat.reduceDiv, Nat.mul_zero]
    rw [← or_add _ _ 16 (by omega), ← or_add _ _ 8 (by omega)]
    simp [fromlast, rdChk]
    rw [Nat.mod_eq_of_lt (by omega), Nat.mod_eq_of_lt (by omega), Nat.mod_eq_of_lt (by omega)]

example : bigfrombytes true [1, 2, 3] = .ok ⟨[197121], -1⟩ := by decide +kernel

/-- Four bytes 1 2 3 4 give 1: the shifts are done on bytes. -/
theorem bigfrombytes_violated : ¬ BytesClaim := by
  intro h
  obtain ⟨r, h1, h2⟩ := h [1, 2, 3, 4]
  have e : bigfrombytes false [1, 2, 3, 4] = .ok ⟨[1], 1⟩ := by decide +kernel
  rw [e] at h1
  cases h1
  have h3 : Nat.digits 4294967296 67305985 = [1] := h2.1.symm
  norm_num at h3

/-! ## C15: order and shifts -/

/-- **C15, the order.** -/
theorem bigcmp_order (a b : Big) (x y : Int) (ha : Rep a x) (hb : Rep b y) : bigcmp a b = compare x y := bigcmp_rep ha hb

/-- **C15, equality.** -/
theorem bigeq_iff (a b : Big) (x y : Int) (ha : Rep a x) (hb : Rep b y) : bigeq a b = decide (x = y) := by
  unfold bigeq
  by_cases h : x = y
  · subst h
    have e : a = b := by rw [rep_iff.1 ha, rep_iff.1 hb]
    subst e
    simp
  · simp only [h, decide_false]
    by_contra hne
    apply h
    have hne' := eq_true_of_ne_false hne
    have : a = b := by
      have h1 : a.sign = b.sign ∧ a.dig = b.dig := by simpa using hne'
      obtain ⟨d, s⟩ := a
      obtain ⟨d', s'⟩ := b
      simp only at h1
      rw [h1.1, h1.2]
    subst this
    exact ha.inj hb

/-- **C15, left shifts** multiply. -/
theorem bigshli_exact (a : Big) (x : Int) (ha : Rep a x) (s : Nat) : Rep (bigshli a s) (x * 2 ^ s) := bigshli_rep ha s

/-- **C15, right shifts** divide the magnitude, rounding towards zero. -/
theorem bigshri_exact (a : Big) (x : Int) (ha : Rep a x) (s : Nat) : Rep (bigshri a s) (x.tdiv (2 ^ s)) := bigshri_rep ha s

/-- **C15, shifts by a big integer**: those of more than one digit abort. -/
theorem bigshl_exact (a b : Big) (x : Int) (n : Nat) (ha : Rep a x) (hb : Rep b n) :
    (n < 2 ^ 32 → ∃ l r, bigshl a b = .ok l ∧ Rep l (x * 2 ^ n) ∧ bigshr a b = .ok r ∧ Rep r (x.tdiv (2 ^ n))) ∧ (2 ^ 32 ≤ n → bigshl a b = .abort ∧ bigshr a b = .abort) := by
  have hd : b.dig = Nat.digits 4294967296 n := hb.1
  constructor
  · intro hn
    rcases Nat.eq_zero_or_pos n with h0 | h0
    · subst h0
      have hd : b.dig = [] := hd
      refine ⟨a, a, by rw [bigshl, hd], by simpa using ha, by rw [bigshr, hd], by simpa using ha⟩
    · rw [Nat.digits_of_lt 4294967296 _ (by omega) hn] at hd
      exact ⟨_, _, by rw [bigshl, hd], bigshli_rep ha n, by rw [bigshr, hd], bigshri_rep ha n⟩
  · intro hn
    rw [Nat.digits_def' (by decide) (by omega)] at hd
    obtain ⟨e, es, he⟩ : ∃ e es, Nat.digits 4294967296 (n / 4294967296) = e :: es := ⟨_, _, Nat.digits_def' (by decide) (by omega)⟩
    rw [he] at hd
    exact ⟨by rw [bigshl, hd], by rw [bigshr, hd]⟩

example : bigcmp ⟨[5], -1⟩ ⟨[0, 1], -1⟩ = .gt := by decide +kernel
example : bigshli ⟨[3000000000], -1⟩ 33 = ⟨[0, 1705032704, 1], -1⟩ := by decide +kernel
example : bigshri ⟨[7, 7], -1⟩ 33 = ⟨[3], -1⟩ := by decide +kernel

/-! ## C15: text -/

/-- **C15, writing**: to a base from 2 to 36, or 10 by default, into a buffer which is long enough. -/
theorem bigbfmt_text (x : Big) (z : Int) (hx : Rep x z) (base : Nat) (h2 : 2 ≤ base) (h36 : base ≤ 36) (b0 : Int) (hb : b0 = base ∨ (b0 = 0 ∧ base = 10))
    (buf : List Byte) (hl : (text base z).length ≤ buf.length) (fuel : Nat) (hf : (text base z).length + 2 ≤ fuel) :
    bigbfmt fuel buf x b0 = .ok (text base z ++ buf.drop (text base z).length, (text base z).length) := bigbfmt_gen h2 h36 hb hx hl hf

/-- **C15, the buffer of `std.fmt`** is long enough. -/
theorem fmt_buffer (x : Big) (z : Int) (hx : Rep x z) : (text 10 z).length ≤ 3 + 10 * x.dig.length := by
  rw [text_length]
  have := digits10_len z.natAbs hx.1
  split
  · omega
  · split <;> omega

example : text 10 (-1234567890123) = [45, 49, 50, 51, 52, 53, 54, 55, 56, 57, 48, 49, 50, 51] := by decide +kernel
example : (bigbfmt 20 (List.replicate 33 0#8) ⟨[1912276171, 287], -1⟩ 10).map (fun r => r.1.take r.2) = .ok (text 10 (-1234567890123)) := by decide +kernel

/-- The letters after a zero which give the base. -/
def prefixBase (p : Byte) : Option Nat :=
  if p = 120#8 ∨ p = 88#8 then some 16 else if p = 111#8 ∨ p = 79#8 then some 8 else if p = 98#8 ∨ p = 66#8 then some 2 else none

theorem parsebase_prefix {p : Byte} {base : Nat} (hp : prefixBase p = some base) (rest : List Byte) : parsebase (48#8 :: p :: rest) = .ok base := by
  unfold parsebase
  simp only [IntFmt.hasprefix_eq, Res.bind_ok, List.cons_prefix_cons, List.nil_prefix, and_true, true_and]
  unfold prefixBase at hp
  have hd : ∀ q : Byte, (48#8 :: p :: rest : List Byte) = 48#8 :: p :: rest := fun _ => rfl
  by_cases h1 : p = 120#8
  · subst h1; revert hp; simp
  by_cases h2 : p = 88#8
  · subst h2; revert hp; simp
  by_cases h3 : p = 111#8
  · subst h3; revert hp; simp
  by_cases h4 : p = 79#8
  · subst h4; revert hp; simp
  by_cases h5 : p = 98#8
  · subst h5; revert hp; simp
  by_cases h6 : p = 66#8
  · subst h6; revert hp; simp
  · simp [h1, h2, h3, h4, h5, h6] at hp

theorem parsebase_none {str : List Byte} (h : ∀ p, (prefixBase p).isSome = true → ¬ [48#8, p] <+: str) : parsebase str = .ok 10 := by
  unfold parsebase
  simp only [IntFmt.hasprefix_eq, Res.bind_ok, h 120#8 (by decide), h 88#8 (by decide), h 111#8 (by decide), h 79#8 (by decide), h 98#8 (by decide), h 66#8 (by decide)]
  rfl

theorem bigparse_sign (fuel : Nat) (neg : Bool) (str : List Byte) (h : neg = false → ¬ [45#8] <+: str) :
    bigparse fuel ((if neg then [45#8] else []) ++ str) = parseabs fuel (if neg then -1 else 1) str := by
  unfold bigparse
  cases neg
  · obtain ⟨b, h1, h2⟩ := IntFmt.hasprefix_iff str [45#8]
    have hb : b = false := by
      cases b
      · rfl
      · exact absurd (h2.1 rfl) (h rfl)
    simp only [Bool.false_eq_true, if_false, List.nil_append]
    rw [h1, hb]
    rfl
  · obtain ⟨b, h1, h2⟩ := IntFmt.hasprefix_iff (45#8 :: str) [45#8]
    have hb : b = true := h2.2 ⟨str, rfl⟩
    simp only [if_true, List.cons_append, List.nil_append]
    rw [h1, hb, Res.bind_ok]
    simp only [if_true]
    rw [slice_suffix (by simp)]
    rfl

/-- **C15, reading, with a prefix** for the base: digits and underscores. Anything else gives nothing. -/
theorem bigparse_prefix (neg : Bool) (p : Byte) (base : Nat) (hp : prefixBase p = some base) (cs : List Utf.Char32) (hc : Utf.CodePoints cs) (fuel : Nat) (hf : 1 ≤ fuel) :
    bigparse fuel ((if neg then [45#8] else []) ++ 48#8 :: p :: Utf.enc cs) =
      .ok ((IntFmt.readNum base cs).map fun n : Nat => ofInt ((if neg then -1 else 1) * n)) := by
  obtain ⟨f, rfl⟩ : ∃ f, fuel = f + 1 := ⟨fuel - 1, by omega⟩
  have hb : base ≠ 10 ∧ base < 2 ^ 31 := by
    unfold prefixBase at hp
    split at hp
    · cases hp; decide
    · split at hp
      · cases hp; decide
      · split at hp
        · cases hp; decide
        · cases hp
  rw [bigparse_sign _ _ _ (fun _ => by simp [List.cons_prefix_cons]), parseabs, parsebase_prefix hp, Res.bind_ok, if_pos hb.1, slice_suffix (by simp), Res.bind_ok]
  simp only [List.drop_succ_cons, List.drop_zero]
  rw [Utf.bychar_enc cs hc, Res.bind_ok]
  exact parse_chars (by cases neg <;> simp) hb.2 f cs

/-- **C15, reading decimals**: text which does not begin with a prefix. -/
theorem bigparse_decimal (neg : Bool) (cs : List Utf.Char32) (hc : Utf.CodePoints cs) (hm : neg = false → cs.head? ≠ some 45#32)
    (hp : ∀ p, (prefixBase p).isSome = true → ¬ [48#8, p] <+: Utf.enc cs) (fuel : Nat) (hf : 1 ≤ fuel) :
    bigparse fuel ((if neg then [45#8] else []) ++ Utf.enc cs) =
      .ok ((IntFmt.readNum 10 cs).map fun n : Nat => ofInt ((if neg then -1 else 1) * n)) := by
  obtain ⟨f, rfl⟩ : ∃ f, fuel = f + 1 := ⟨fuel - 1, by omega⟩
  rw [bigparse_sign _ _ _ (fun h => IntFmt.not_minus cs hc (hm h)), parseabs, parsebase_none hp, Res.bind_ok]
  simp only [ne_eq, not_true_eq_false, if_false, Res.bind_ok]
  rw [Utf.bychar_enc cs hc, Res.bind_ok]
  exact parse_chars (by cases neg <;> simp) (by decide) f cs

theorem readNum_digits {base : Nat} (h2 : 2 ≤ base) (h36 : base ≤ 36) (n : Nat) : IntFmt.readNum base ((Nat.digits base n).reverse.map IntFmt.glyphC) = some n := by
  have hlt : ∀ d ∈ (Nat.digits base n).reverse, d < base := fun d hd => Nat.digits_lt_base (by omega) (List.mem_reverse.1 hd)
  have e : ∀ cs, IntFmt.readNum base cs = (IntFmt.digitsIn base cs).map (IntFmt.ofDigits base) := fun _ => rfl
  rw [e, IntFmt.digitsIn_glyphs base h36 _ hlt, Option.map_some]
  congr 1
  have : ∀ l : List Nat, IntFmt.ofDigits base l.reverse = Nat.ofDigits base l := by
    intro l
    induction l with
    | nil => rfl
    | cons d l ih => rw [List.reverse_cons, IntFmt.ofDigits_append, ih, Nat.ofDigits_cons, Nat.add_comm]
  rw [this, Nat.ofDigits_digits]

/-- **C15, round trip**: what is written to the base 10 is read back. -/
theorem bigparse_text (z : Int) (fuel : Nat) (hf : 1 ≤ fuel) : bigparse fuel (text 10 z) = .ok (some (ofInt z)) := by
  have main : ∀ (neg : Bool) (ds : List Nat) (n : Nat), (∀ d ∈ ds, d < 10) → IntFmt.readNum 10 (ds.map IntFmt.glyphC) = some n →
      bigparse fuel ((if neg then [45#8] else []) ++ ds.map IntFmt.glyph) = .ok (some (ofInt ((if neg then -1 else 1) * n))) := by
    intro neg ds n hlt hr
    have h36 : ∀ d ∈ ds, d < 36 := fun d hd => by have := hlt d hd; omega
    have := bigparse_decimal neg (ds.map IntFmt.glyphC) (IntFmt.codepoints_glyphs ds h36) (fun _ => IntFmt.head_glyphs ds h36) (by
      intro p hp
      rw [IntFmt.enc_glyphs ds h36]
      refine IntFmt.not_prefix_glyphs ds hlt p ?_
      intro d e
      have hall : ∀ d : Fin 10, prefixBase (IntFmt.glyph d.val) = none := by decide +kernel
      rw [← e, hall d] at hp
      cases hp) fuel hf
    rw [IntFmt.enc_glyphs ds h36, hr, Option.map_some] at this
    exact this
  unfold text
  by_cases h0 : z = 0
  · subst h0
    have := main false [0] 0 (by simp) rfl
    simpa [IntFmt.glyph] using this
  · rw [if_neg h0]
    have hlt : ∀ d ∈ (Nat.digits 10 z.natAbs).reverse, d < 10 := fun d hd => Nat.digits_lt_base (by omega) (List.mem_reverse.1 hd)
    have := main (decide (z < 0)) _ z.natAbs hlt (readNum_digits (by decide) (by decide) _)
    simp only [decide_eq_true_eq] at this
    rw [this]
    congr 3
    split <;> omega

/-- **C15, round trip with a prefix**: the digits to the base 2, 8 or 16 after the prefix. -/
theorem bigparse_text_prefix (neg : Bool) (n : Nat) (p : Byte) (base : Nat) (hp : prefixBase p = some base) (fuel : Nat) (hf : 1 ≤ fuel) :
    bigparse fuel ((if neg then [45#8] else []) ++ 48#8 :: p :: (Nat.digits base n).reverse.map IntFmt.glyph) = .ok (some (ofInt ((if neg then -1 else 1) * n))) := by
  have hb : 2 ≤ base ∧ base ≤ 36 := by
    unfold prefixBase at hp
    split at hp
    · cases hp; decide
    · split at hp
      · cases hp; decide
      · split at hp
        · cases hp; decide
        · cases hp
  have hlt : ∀ d ∈ (Nat.digits base n).reverse, d < 36 := fun d hd => Nat.lt_of_lt_of_le (Nat.digits_lt_base (by omega) (List.mem_reverse.1 hd)) hb.2
  have := bigparse_prefix neg p base hp _ (IntFmt.codepoints_glyphs _ hlt) fuel hf
  rw [IntFmt.enc_glyphs _ hlt, readNum_digits hb.1 hb.2, Option.map_some] at this
  exact this

-- "-0xff" and "12_345" are read, "0b12" and "1a" are not
example : bigparse 3 [45, 48, 120, 102, 102] = .ok (some ⟨[255], -1⟩) := by decide +kernel
example : bigparse 3 [49, 50, 95, 51, 52, 53] = .ok (some ⟨[12345], 1⟩) := by decide +kernel
example : bigparse 3 [48, 98, 49, 50] = .ok none ∧ bigparse 3 [49, 97] = .ok none := by constructor <;> decide +kernel

/-! ## C79: bits and powers -/

/-- **C79, the number of bits.** -/
theorem bigbitcount_exact (a : Big) (z : Int) (h : Rep a z) : ∃ r, bigbitcount a = .ok r ∧ z.natAbs < 2 ^ r ∧ (r = 0 ∨ 2 ^ (r - 1) ≤ z.natAbs) := bigbitcount_gen h

example : bigbitcount ⟨[0, 5], -1⟩ = .ok 35 := by decide +kernel

/-- The claim of C79 for `bigand`: the bits in common, and the other operand stays. -/
def AndClaim : Prop := ∀ (a b : Big) (x y : Nat), Rep a x → Rep b y → Rep (bigand a b).1 (x &&& y : Nat) ∧ Rep (bigand a b).2 y

/-- **C79, and, part.** Missing: the other operand stays as it is if the first one has more digits. -/
theorem bigand_partial (a b : Big) (x y : Nat) (ha : Rep a x) (hb : Rep b y) :
    Rep (bigand a b).1 (x &&& y : Nat) ∧ (a.dig.length ≤ b.dig.length → (bigand a b).2 = b) := by
  constructor
  · have := bigand_gen ha hb
    rcases Nat.eq_zero_or_pos x with h | h
    · subst h
      simpa using this
    · rw [Int.sign_eq_one_of_pos (by omega), Int.one_mul] at this
      exact this
  · intro h
    unfold bigand zgrow
    simp only
    rw [Nat.sub_eq_zero_of_le h]
    simp

example : bigand ⟨[6, 1], 1⟩ ⟨[3, 3, 3], 1⟩ = (⟨[2, 1], 1⟩, ⟨[3, 3, 3], 1⟩) := by decide +kernel

/-- 2^32 & 1 leaves the 1 with a leading zero; it is then not equal to 1. -/
theorem bigand_violated : ¬ AndClaim := by
  intro h
  have h1 := (h ⟨[0, 1], 1⟩ ⟨[1], 1⟩ 4294967296 1 ⟨by norm_num, rfl⟩ ⟨by norm_num, rfl⟩).2.1
  have h2 : Nat.digits 4294967296 1 = [1] := by norm_num
  have h3 : (bigand ⟨[0, 1], 1⟩ ⟨[1], 1⟩).2.dig = [1, 0] := by decide +kernel
  rw [h3] at h1
  exact absurd (h1.trans h2) (by decide)

example : bigeq (bigand ⟨[0, 1], 1⟩ ⟨[1], 1⟩).2 ⟨[1], 1⟩ = false := by decide +kernel

/-- The claim of C79 for `bigandi`. -/
def AndiClaim : Prop := ∀ (a : Big) (x : Nat) (v : BitVec 32), Rep a x → ∃ r, bigandi false a v = .ok r ∧ Rep r (x &&& v.toNat : Nat)

/-- **C79, and with a machine integer, part.** Missing: numbers which have more digits than the machine integer. -/
theorem bigandi_partial (a : Big) (x w : Nat) (hw : w ≤ 64) (v : BitVec w) (ha : Rep a x) (h : v.toNat = 0 ∨ a.dig.length ≤ (bigdigit false v).dig.length) :
    ∃ r, bigandi false a v = .ok r ∧ Rep r (x &&& v.toNat : Nat) := by
  have hv := bigdigit_unsigned hw v
  unfold bigandi
  simp only
  rw [if_neg]
  · exact ⟨_, rfl, (bigand_partial a _ x v.toNat ha hv).1⟩
  · rintro ⟨h1, h2⟩
    rcases h with h | h
    · exact h1 (hv.nil_iff.2 (by omega))
    · omega

example : bigandi false ⟨[6], 1⟩ (3 : BitVec 32) = .ok ⟨[2], 1⟩ := by decide +kernel

/-- `bigandi(2^32, 1)` grows a slice of one digit which lives on the stack. -/
theorem bigandi_violated : ¬ AndiClaim := by
  intro h
  obtain ⟨r, h1, _⟩ := h ⟨[0, 1], 1⟩ 4294967296 1 ⟨by norm_num, rfl⟩
  have e : bigandi false ⟨[0, 1], 1⟩ (1 : BitVec 32) = .ub := by decide +kernel
  rw [e] at h1
  cases h1

/-- The claim of C79 for `bigor`. -/
def OrClaim : Prop := ∀ (a b : Big) (x y : Nat), Rep a x → Rep b y → Rep (bigor a b) (x ||| y : Nat)

/-- **C79, or, part.** Missing: the first operand is zero. -/
theorem bigor_partial (a b : Big) (x y : Nat) (hx : x ≠ 0) (ha : Rep a x) (hb : Rep b y) : Rep (bigor a b) (x ||| y : Nat) := by
  have := bigor_gen ha hb (by omega)
  rw [Int.sign_eq_one_of_pos (by omega), Int.one_mul] at this
  exact this

example : bigor ⟨[5], 1⟩ ⟨[2, 7], 1⟩ = ⟨[7, 7], 1⟩ := by decide +kernel

/-- 0 | 1 has the digit 1 and the sign 0. -/
theorem bigor_violated : ¬ OrClaim := by
  intro h
  have h1 := (h ⟨[], 0⟩ ⟨[1], 1⟩ 0 1 ⟨by norm_num, rfl⟩ ⟨by norm_num, rfl⟩).2
  revert h1
  decide +kernel

/-- The claim of C79 for `bigmodpow`: the power, and the exponent stays. -/
def PowClaim : Prop := ∀ (a e m : Big) (x y z : Nat), Rep a x → Rep e y → Rep m z → 0 < z →
  ∃ fuel r e', bigmodpow fuel a e m = .ok (r, e') ∧ Rep r (x ^ y % z : Nat) ∧ Rep e' y

/-- **C79, powers, part.** Missing: numbers of more than 2048 bits (`bigmul`), the exponent 0 modulo 1, and that the exponent stays
(it is zero afterwards). -/
theorem bigmodpow_partial (a e m : Big) (x y z : Nat) (ha : Rep a x) (he : Rep e y) (hm : Rep m z) (hz : 0 < z) (h1 : z ≠ 1 ∨ y ≠ 0)
    (hx : x < 2 ^ 2048) (hz2 : z < 2 ^ 2048) :
    ∀ fuel, y < 2 ^ (fuel - 2) → 3 ≤ fuel → ∃ r e', bigmodpow fuel a e m = .ok (r, e') ∧ Rep r (x ^ y % z : Nat) ∧ Rep e' 0 := by
  intro fuel hf hf2
  obtain ⟨f, rfl⟩ : ∃ f, fuel = f + 2 := ⟨fuel - 2, by omega⟩
  have := powloop_spec hz hz2 f (f + 1) 1 x y (Nat.lt_of_lt_of_le hf (Nat.pow_le_pow_right (by decide) (by omega))) (Nat.one_lt_two_pow (n := 2048) (by decide)) hx
  unfold bigmodpow
  have e1 : mkbigint true 1#32 = ofInt ((1 : Nat) : Int) := rep_iff.1 (mk32 (n := 1) (by decide))
  rw [e1, rep_iff.1 ha, rep_iff.1 he, rep_iff.1 hm, this]
  refine ⟨_, _, rfl, ?_, rep_ofInt 0⟩
  have e2 : (if y = 0 then 1 else 1 * x ^ y % z) = x ^ y % z := by
    split
    · rename_i h
      subst h
      rw [Nat.pow_zero, Nat.mod_eq_of_lt (by omega)]
    · rw [Nat.one_mul]
  rw [e2]
  exact rep_ofInt _

example : bigmodpow 12 ⟨[3], 1⟩ ⟨[1000], 1⟩ ⟨[1000007], 1⟩ = .ok (⟨[3 ^ 1000 % 1000007], 1⟩, ⟨[], 0⟩) := by decide +kernel

/-- 5^0 modulo 1 is 1. -/
theorem bigmodpow_violated : ¬ PowClaim := by
  intro h
  obtain ⟨fuel, r, e', h1, h2, h3⟩ := h ⟨[5], 1⟩ ⟨[], 0⟩ ⟨[1], 1⟩ 5 0 1 ⟨by norm_num, rfl⟩ ⟨by norm_num, rfl⟩ ⟨by norm_num, rfl⟩ (by decide)
  cases fuel with
  | zero => cases h1
  | succ f =>
    have e : bigmodpow (f + 1) ⟨[5], 1⟩ ⟨[], 0⟩ ⟨[1], 1⟩ = .ok (⟨[1], 1⟩, ⟨[], 0⟩) := rfl
    rw [e] at h1
    cases h1
    have := h2.2
    revert this
    decide

end Verif.Bigint
