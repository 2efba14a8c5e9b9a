import Verif.Big.Arith

/-!
# The product
-/

namespace Verif.Bigint

theorem rep_pos {l : List Nat} (h : Small l) (ht : Tight l) (hne : l ≠ []) : Rep ⟨l, 1⟩ (V l) := by
  have e := Nat.digits_ofDigits Base (by decide) l h ht
  have hp := V_ge ht hne
  have : 0 < Base ^ (l.length - 1) := by positivity
  exact ⟨e.symm, (Int.sign_eq_one_of_pos (by exact_mod_cast Nat.lt_of_lt_of_le this hp)).symm⟩

theorem Small.take {l : List Nat} (h : Small l) (n : Nat) : Small (l.take n) := fun d hd => h d (List.mem_of_mem_take hd)
theorem Small.drop {l : List Nat} (h : Small l) (n : Nat) : Small (l.drop n) := fun d hd => h d (List.mem_of_mem_drop hd)

theorem Tight.drop {l : List Nat} (h : Tight l) (n : Nat) : Tight (l.drop n) := by
  intro k
  rw [List.getLast_drop]
  exact h _

theorem V_split {l : List Nat} {n : Nat} (hn : n ≤ l.length) : V l = V (l.take n) + Base ^ n * V (l.drop n) := by
  conv => lhs; rw [← List.take_append_drop n l]
  rw [V_append, List.length_take, Nat.min_eq_left hn]

/-- What `umul` gives when it is exact. -/
def Exact (u : Big → Big → Res Big) (a b : Big) : Prop := ∃ w, u a b = .ok (trim ⟨w, a.sign⟩) ∧ V w = V a.dig * V b.dig ∧ Small w

theorem umul_small {a b : Big} (ha : Small a.dig) (hb : Small b.dig) (h : a.dig.length < Kmin ∨ b.dig.length < Kmin) (f : Nat) : Exact (umul (f + 1)) a b := by
  obtain ⟨w, h1, h2, h3⟩ := smallmul_spec ha hb
  exact ⟨w, by rw [umul, if_pos h, h1], h2, h3⟩

/-- The result of an exact `umul` on positive or zero operands. -/
theorem Exact.rep {u : Big → Big → Res Big} {a b : Big} (h : Exact u a b) (hs : a.sign = 1 ∨ V a.dig = 0) :
    ∃ r, u a b = .ok r ∧ Rep r ((V a.dig : Int) * V b.dig) := by
  obtain ⟨w, h1, h2, h3⟩ := h
  refine ⟨_, h1, ?_⟩
  refine trim_rep' h3 ?_ ?_
  · rcases hs with k | k
    · exact .inl k
    · right; right; rw [h2, k, Nat.zero_mul]
  · rw [h2]
    rcases hs with k | k
    · rw [k]; push_cast; ring
    · rw [k]; simp

/-- One level of Karatsuba's method is exact when the recursive calls are, and when the lower half of the shorter operand compares right. -/
theorem kmul_spec {u : Big → Big → Res Big} {a b : Big} (ha : Small a.dig) (hb : Small b.dig) (ta : Tight a.dig) (tb : Tight b.dig)
    (hl : b.dig.length ≤ a.dig.length) (h2 : 2 ≤ b.dig.length) {n : Nat} (hn : n = min (a.dig.length / 2) (b.dig.length - 1))
    (ty : Tight (b.dig.take n) ∨ 2 * n ≤ b.dig.length)
    (hu : ∀ x y : Big, Small x.dig → Small y.dig → x.dig.length ≤ a.dig.length - n → y.dig.length ≤ max n (b.dig.length - n) → Exact u x y) :
    ∃ r, kmul u a b = .ok r ∧ Rep r ((V a.dig : Int) * V b.dig) := by
  have sx0 := ha.take n
  have sx1 := ha.drop n
  have sy0 := hb.take n
  have sy1 := hb.drop n
  have lx0 : (a.dig.take n).length = n := by rw [List.length_take]; omega
  have lx1 : (a.dig.drop n).length = a.dig.length - n := List.length_drop
  have ly0 : (b.dig.take n).length = n := by rw [List.length_take]; omega
  have ly1 : (b.dig.drop n).length = b.dig.length - n := List.length_drop
  have rx0 : Rep (trim ⟨a.dig.take n, 1⟩) (V (a.dig.take n)) := trim_rep' sx0 (.inl rfl) (by rw [Int.one_mul])
  have rx1 : Rep ⟨a.dig.drop n, 1⟩ (V (a.dig.drop n)) := rep_pos sx1 (ta.drop n) (by intro e; rw [e] at lx1; simp at lx1; omega)
  have rx1t : Rep (trim ⟨a.dig.drop n, 1⟩) (V (a.dig.drop n)) := trim_rep' sx1 (.inl rfl) (by rw [Int.one_mul])
  have len_le : ∀ {l : List Nat}, (trimdig l).length ≤ l.length := by
    intro l
    unfold trimdig
    rw [List.length_reverse]
    have := (List.dropWhile_sublist (fun d : Nat => d == 0) (l := l.reverse)).length_le
    simpa using this
  have len_of : ∀ {x : Big} {z : Int} {k : Nat}, Rep x z → z.natAbs < Base ^ k → x.dig.length ≤ k := by
    intro x z k h hlt
    by_contra hgt
    have hne : x.dig ≠ [] := by intro e; rw [e] at hgt; simp at hgt
    have h1 := V_ge h.tight hne
    rw [h.V] at h1
    have h2 : Base ^ k ≤ Base ^ (x.dig.length - 1) := Nat.pow_le_pow_right (by decide) (by omega)
    exact absurd (Nat.lt_of_lt_of_le hlt h2) (Nat.not_lt.2 h1)
  obtain ⟨z0, e0, r0⟩ := (hu (trim ⟨a.dig.take n, 1⟩) ⟨b.dig.take n, 1⟩ rx0.small sy0
    (Nat.le_trans len_le (by show (a.dig.take n).length ≤ _; omega)) (by show (b.dig.take n).length ≤ _; omega)).rep
    (by rcases rx0.sign_cases with h | h | h
        · omega
        · right; rw [rx0.V, h.1]; rfl
        · exact .inl h.2)
  obtain ⟨z2, e2, r2⟩ := (hu (trim ⟨a.dig.drop n, 1⟩) ⟨b.dig.drop n, 1⟩ rx1t.small sy1
    (Nat.le_trans len_le (by show (a.dig.drop n).length ≤ _; omega)) (by show (b.dig.drop n).length ≤ _; omega)).rep
    (by rcases rx1t.sign_cases with h | h | h
        · omega
        · right; rw [rx1t.V, h.1]; rfl
        · exact .inl h.2)
  rw [rx0.V] at r0
  rw [rx1t.V] at r2
  simp only [Int.natAbs_natCast] at r0 r2
  have rz1 := bigsub_rep rx0 rx1
  have hc : bigcmpabs ⟨b.dig.drop n, 1⟩ ⟨b.dig.take n, 1⟩ = compare (V (b.dig.drop n)) (V (b.dig.take n)) := by
    refine bigcmpabs_eq sy1 sy0 (.inl (tb.drop n)) ?_
    rcases ty with h | h
    · exact .inl h
    · right; show (b.dig.take n).length ≤ (b.dig.drop n).length; omega
  have rt0 := bigsub_pos (a := ⟨b.dig.drop n, 1⟩) (b := ⟨b.dig.take n, 1⟩) hc sy1 sy0 rfl rfl
  simp only at rt0
  have lx := V_lt sx0
  have lx' := V_lt sx1
  have ly := V_lt sy0
  have ly' := V_lt sy1
  rw [lx0] at lx
  rw [lx1] at lx'
  rw [ly0] at ly
  rw [ly1] at ly'
  have p1 : Base ^ n ≤ Base ^ (a.dig.length - n) := Nat.pow_le_pow_right (by decide) (by omega)
  have p2 : Base ^ n ≤ Base ^ max n (b.dig.length - n) := Nat.pow_le_pow_right (by decide) (by omega)
  have p3 : Base ^ (b.dig.length - n) ≤ Base ^ max n (b.dig.length - n) := Nat.pow_le_pow_right (by decide) (by omega)
  have lz1 := len_of (k := a.dig.length - n) rz1 (by
    generalize (Base : Nat) ^ n = P at *
    generalize (Base : Nat) ^ (a.dig.length - n) = Q at *
    omega)
  have lt0 := len_of (k := max n (b.dig.length - n)) rt0 (by
    generalize (Base : Nat) ^ n = P at *
    generalize (Base : Nat) ^ (b.dig.length - n) = Q at *
    generalize (Base : Nat) ^ max n (b.dig.length - n) = R at *
    omega)
  obtain ⟨w, e3, v3, s3⟩ := hu _ _ rz1.small rt0.small lz1 lt0
  -- the signed product
  have rz : Rep { trim ⟨w, (bigsub (trim ⟨a.dig.take n, 1⟩) ⟨a.dig.drop n, 1⟩).sign⟩ with
        sign := (bigsub (trim ⟨a.dig.take n, 1⟩) ⟨a.dig.drop n, 1⟩).sign * (bigsub ⟨b.dig.drop n, 1⟩ ⟨b.dig.take n, 1⟩).sign }
      (((V (a.dig.take n) : Int) - V (a.dig.drop n)) * ((V (b.dig.drop n) : Int) - V (b.dig.take n))) := by
    refine ⟨?_, ?_⟩
    · show trimdig w = _
      rw [trimdig_digits s3, v3, rz1.V, rt0.V, Int.natAbs_mul]
    · show _ * _ = _
      rw [Int.sign_mul, rz1.2, rt0.2]
  have hA := V_split (l := a.dig) (n := n) (by omega)
  have hB := V_split (l := b.dig) (n := n) (by omega)
  have f1 := bigadd_rep (bigadd_rep rz r0) r2
  have f2 := bigshli_rep f1 (32 * n)
  have f3 := bigshli_rep r2 (32 * 2 * n)
  have f4 := bigadd_rep (bigadd_rep (bigadd_rep rep_zero r0) f2) f3
  refine ⟨_, ?_, cast (congrArg _ ?_) f4⟩
  · unfold kmul
    simp only [if_neg (Nat.not_lt.2 hl), ← hn, e0, e2, e3, Res.bind_ok]
  · have q1 : ((2 : Int) ^ (32 * n)) = (Base : Int) ^ n := by rw [pow_mul]; norm_num
    have q2 : ((2 : Int) ^ (32 * 2 * n)) = (Base : Int) ^ n * (Base : Int) ^ n := by
      rw [show 32 * 2 * n = 32 * n + 32 * n by ring, pow_add, q1]
    rw [hA, hB, q1, q2]
    push_cast
    ring

theorem kmul_comm (u : Big → Big → Res Big) {a b : Big} (h : a.dig.length < b.dig.length) : kmul u a b = kmul u b a := by
  unfold kmul
  simp only [if_pos h, if_neg (Nat.lt_asymm h)]

/-- The condition on two operands of at least `Kmin` digits: the longer has at most 126, and the lower half of the shorter one (as it
is cut) has no leading zeros, or is not longer than the rest. -/
def Halved (long short : List Nat) : Prop :=
  long.length ≤ 126 ∧ (Tight (short.take (long.length / 2)) ∨ 2 * (long.length / 2) ≤ short.length)

theorem umul_halved {a b : Big} (ha : Small a.dig) (hb : Small b.dig) (ta : Tight a.dig) (tb : Tight b.dig) (hl : b.dig.length ≤ a.dig.length)
    (hk : Kmin ≤ b.dig.length) (hh : Halved a.dig b.dig) (f : Nat) : ∃ r, kmul (umul (f + 1)) a b = .ok r ∧ Rep r ((V a.dig : Int) * V b.dig) := by
  obtain ⟨h1, h2⟩ := hh
  unfold Kmin at hk
  have hn : a.dig.length / 2 = min (a.dig.length / 2) (b.dig.length - 1) := by omega
  refine kmul_spec ha hb ta tb hl (by omega) hn h2 ?_
  intro x y hx hy lx ly
  exact umul_small hx hy (by unfold Kmin; omega) f

theorem bigmul_of {a b : Big} {x y : Int} (ha : Rep a x) (hb : Rep b y) {f : Nat}
    (hu : ∃ r, umul f a b = .ok r ∧ r.dig = Nat.digits Base (V a.dig * V b.dig)) : ∃ r, bigmul f a b = .ok r ∧ Rep r (x * y) := by
  unfold bigmul
  split
  · rename_i h
    refine ⟨_, rfl, ?_⟩
    have : x * y = 0 := by
      rcases h with h | h
      · rw [ha.sign_zero.1 h, Int.zero_mul]
      · rw [hb.sign_zero.1 h, Int.mul_zero]
    rw [this]
    exact rep_zero
  · rename_i h
    obtain ⟨r, h1, h2⟩ := hu
    rw [h1, Res.bind_ok]
    refine ⟨_, rfl, ?_⟩
    have hs : Small r.dig := by rw [h2]; exact digits_small _
    have hv : V r.dig = x.natAbs * y.natAbs := by rw [h2, V_digits, ha.V, hb.V]
    refine trim_rep' hs (by split <;> simp) ?_
    rw [hv]
    push_cast
    rcases ha.sign_cases with ⟨p1, p2⟩ | ⟨p1, p2⟩ | ⟨p1, p2⟩ <;> rcases hb.sign_cases with ⟨q1, q2⟩ | ⟨q1, q2⟩ | ⟨q1, q2⟩ <;>
      first
      | exact absurd (Or.inl p2) h
      | exact absurd (Or.inr q2) h
      | (rw [p2, q2]; simp only [abs_of_neg, abs_of_pos, p1, q1]; norm_num)

theorem bigmul_small {a b : Big} {x y : Int} (ha : Rep a x) (hb : Rep b y) (h : a.dig.length < Kmin ∨ b.dig.length < Kmin) (f : Nat) :
    ∃ r, bigmul (f + 1) a b = .ok r ∧ Rep r (x * y) := by
  refine bigmul_of ha hb ?_
  obtain ⟨w, h1, h2, h3⟩ := umul_small ha.small hb.small h f
  exact ⟨_, h1, by rw [← h2]; exact trimdig_digits h3⟩

theorem bigmul_halved {a b : Big} {x y : Int} (ha : Rep a x) (hb : Rep b y) (hk : Kmin ≤ a.dig.length ∧ Kmin ≤ b.dig.length)
    (h : (b.dig.length ≤ a.dig.length ∧ Halved a.dig b.dig) ∨ (a.dig.length < b.dig.length ∧ Halved b.dig a.dig)) (f : Nat) :
    ∃ r, bigmul (f + 2) a b = .ok r ∧ Rep r (x * y) := by
  refine bigmul_of ha hb ?_
  rw [umul, if_neg (by omega)]
  rcases h with ⟨hl, hh⟩ | ⟨hl, hh⟩
  · obtain ⟨r, h1, h2⟩ := umul_halved ha.small hb.small ha.tight hb.tight hl hk.2 hh f
    exact ⟨r, h1, by rw [h2.1]; norm_cast⟩
  · obtain ⟨r, h1, h2⟩ := umul_halved hb.small ha.small hb.tight ha.tight (by omega) hk.1 hh f
    rw [kmul_comm _ hl]
    exact ⟨r, h1, by rw [h2.1, Nat.mul_comm]; norm_cast⟩

end Verif.Bigint
