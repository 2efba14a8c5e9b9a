import Verif.Big.Div

/-!
# All digits of the quotient
-/

namespace Verif.Bigint

theorem split_at {u : List Nat} {k m : Nat} (h : k + m + 1 ≤ u.length) : ∃ lo mid x hi, u = lo ++ mid ++ x :: hi ∧ lo.length = k ∧ mid.length = m := by
  refine ⟨u.take k, (u.drop k).take m, u[k + m], u.drop (k + m + 1), ?_, by rw [List.length_take]; omega, by rw [List.length_take, List.length_drop]; omega⟩
  rw [← List.drop_eq_getElem_cons, ← List.take_add]
  exact (List.take_append_drop _ _).symm

theorem divloop_spec {v : List Nat} {n f : Nat} (hv : Small v) (hvl : v.length = n + 2) (htop : 2147483648 ≤ v[n + 1]!) (hf : 2 ≤ f) :
    ∀ (k : Nat) (u : List Nat), Small u → k + (n + 2) ≤ u.length → V (u.drop k) < V v →
      ∃ qs u', divloop f v (n + 2) k u = .ok (qs, u') ∧ V u = V qs * V v + V u' ∧ V u' < V v ∧ Small qs ∧ Small u' ∧ qs.length = k
  | 0, u, hu, _, hlt => ⟨[], u, rfl, by rw [V_nil]; omega, by simpa using hlt, Small.nil, hu, rfl⟩
  | k + 1, u, hu, hl, hlt => by
    obtain ⟨lo, mid, x, hi, rfl, h1, h2⟩ := split_at (u := u) (k := k) (m := n + 2) (by omega)
    obtain ⟨hlm, hxh⟩ := Small.append.1 hu
    obtain ⟨hlo, hmid⟩ := Small.append.1 hlm
    obtain ⟨hx, hhi⟩ := Small.cons.1 hxh
    have hvlt := V_lt hv
    rw [hvl] at hvlt
    have hd : (lo ++ mid ++ x :: hi).drop (k + 1) = mid.drop 1 ++ x :: hi := by
      rw [List.append_assoc, ← h1, ← List.drop_drop, List.drop_left, List.drop_append_of_le_length (by omega)]
    rw [hd, V_append, List.length_drop, h2, V_cons, show n + 2 - 1 = n + 1 by omega] at hlt
    have hm0 : V mid = mid[0]! + Base * V (mid.drop 1) := by
      cases mid with
      | nil => simp at h2
      | cons a l => rw [V_cons]; rfl
    have hb0 := small_get hmid (i := 0) (by omega)
    obtain ⟨P, hP⟩ : ∃ P, Base ^ (n + 1) = P := ⟨_, rfl⟩
    have hP2 : Base ^ (n + 2) = Base * P := by rw [← hP, Nat.pow_succ Base (n + 1), Nat.mul_comm]
    rw [hP] at hlt
    rw [hP2] at hvlt
    have hPp : 0 < P := by rw [← hP]; positivity
    have hhi0 : V hi = 0 := by
      rcases Nat.eq_zero_or_pos (V hi) with e | e
      · exact e
      · exfalso
        have h3 : P * (x + Base * V hi) = P * x + Base * P * V hi := by ring
        have h4 : Base * P * 1 ≤ Base * P * V hi := Nat.mul_le_mul_left _ e
        omega
    have hU : V mid + Base ^ (n + 2) * x < Base * V v := by
      rw [hm0, hP2]
      rw [hhi0, Nat.mul_zero, Nat.add_zero] at hlt
      have h3 : Base * (V (mid.drop 1) + P * x + 1) ≤ Base * V v := Nat.mul_le_mul_left _ hlt
      have h4 : Base * P * x = Base * (P * x) := by ring
      omega
    obtain ⟨r, s1, s2, s3, s4⟩ := divstep_spec (lo := lo) (hi := hi) hv hvl htop hmid h2 hx hU hf
    rw [h1] at s1
    have hvp : 0 < V v := by omega
    have hu2 : Small (lo ++ r ++ 0 :: hi) := Small.append.2 ⟨Small.append.2 ⟨hlo, s2⟩, Small.cons.2 ⟨by decide, hhi⟩⟩
    have hd2 : V ((lo ++ r ++ 0 :: hi).drop k) = V r := by
      rw [List.append_assoc, ← h1, List.drop_left, V_append, V_cons, hhi0]
      simp
    obtain ⟨qs, u', j1, j2, j3, j4, j5, j6⟩ := divloop_spec hv hvl htop hf k (lo ++ r ++ 0 :: hi) hu2
      (by simp only [List.length_append, List.length_cons, s3, h1]; omega) (by rw [hd2, s4]; exact Nat.mod_lt _ hvp)
    have hqB : (V mid + Base ^ (n + 2) * x) / V v < Base := by rw [Nat.div_lt_iff_lt_mul hvp]; exact hU
    refine ⟨qs ++ [(V mid + Base ^ (n + 2) * x) / V v], u', ?_, ?_, j3, Small.append.2 ⟨j4, Small.cons.2 ⟨hqB, Small.nil⟩⟩, j5, by rw [List.length_append, j6]; rfl⟩
    · rw [divloop]
      simp only [s1, Res.bind_ok, j1]
    · have hdm := Nat.div_add_mod (V mid + Base ^ (n + 2) * x) (V v)
      have eu : V (lo ++ mid ++ x :: hi) = V lo + Base ^ k * (V mid + Base ^ (n + 2) * x) := by
        rw [List.append_assoc, V_append, V_append, V_cons, hhi0, h1, h2]
        simp
      have eu2 : V (lo ++ r ++ 0 :: hi) = V lo + Base ^ k * V r := by
        rw [List.append_assoc, V_append, V_append, V_cons, hhi0, h1]
        simp
      rw [eu, V_append qs, V_single, j6]
      rw [eu2, s4] at j2
      generalize (V mid + Base ^ (n + 2) * x) = U at *
      generalize U / V v = q at *
      generalize U % V v = m at *
      generalize Base ^ k = K at *
      calc V lo + K * U = V lo + K * m + K * q * V v := by rw [← hdm]; ring
        _ = V qs * V v + V u' + K * q * V v := by rw [j2]
        _ = (V qs + K * q) * V v + V u' := by ring

/-! ## The whole -/

theorem len_ge {l : List Nat} (h : Small l) {k : Nat} (hk : Base ^ k ≤ V l) : k + 1 ≤ l.length := by
  by_contra hlt
  have h1 := V_lt h
  have h2 : Base ^ l.length ≤ Base ^ k := Nat.pow_le_pow_right (by decide) (by omega)
  exact absurd (Nat.lt_of_lt_of_le h1 h2) (Nat.not_lt.2 hk)

theorem len_le {l : List Nat} (h : Tight l) {k : Nat} (hk : V l < Base ^ k) : l.length ≤ k := by
  by_contra hgt
  have hne : l ≠ [] := by intro e; rw [e] at hgt; simp at hgt
  have h1 := V_ge h hne
  have h2 : Base ^ k ≤ Base ^ (l.length - 1) := Nat.pow_le_pow_right (by decide) (by omega)
  exact absurd (Nat.lt_of_lt_of_le hk h2) (Nat.not_lt.2 h1)

theorem V_top1 {l : List Nat} {n : Nat} (hl : l.length = n + 1) : V l = V (l.take n) + Base ^ n * l[n]! := by
  have h1 := V_split (l := l) (n := n) (by omega)
  rw [List.drop_eq_getElem_cons (by omega), List.drop_eq_nil_of_le (by omega), V_single] at h1
  rw [getElem!_pos l n (by omega)]
  exact h1

/-- The magnitude of the quotient and its sign. -/
theorem quot_rep {l : List Nat} (hl : Small l) {a b : Big} {x y : Int} (ha : Rep a x) (hb : Rep b y) (hy : y ≠ 0) (hx : x ≠ 0) (hv : V l = x.natAbs / y.natAbs) :
    Rep (trim ⟨l, if a.sign ≠ b.sign then -1 else 1⟩) (x.tdiv y) := by
  refine trim_rep' hl (by split <;> simp) ?_
  rw [hv]
  have key : ∀ p q : Nat, ((p / q : Nat) : Int) = (p : Int).tdiv q := fun p q => rfl
  have e := key x.natAbs y.natAbs
  rcases ha.sign_cases with ⟨p1, p2⟩ | ⟨p1, p2⟩ | ⟨p1, p2⟩ <;> rcases hb.sign_cases with ⟨q1, q2⟩ | ⟨q1, q2⟩ | ⟨q1, q2⟩
  · rw [p2, q2, if_neg (by simp), e, Int.ofNat_natAbs_of_nonpos (by omega), Int.ofNat_natAbs_of_nonpos (by omega), Int.neg_tdiv_neg, Int.one_mul]
  · exact absurd q1 hy
  · rw [p2, q2, if_pos (by decide), e, Int.ofNat_natAbs_of_nonpos (by omega), Int.natAbs_of_nonneg (by omega), Int.neg_tdiv]; omega
  · exact absurd p1 hx
  · exact absurd p1 hx
  · exact absurd p1 hx
  · rw [p2, q2, if_pos (by decide), e, Int.natAbs_of_nonneg (by omega), Int.ofNat_natAbs_of_nonpos (by omega), Int.tdiv_neg]; omega
  · exact absurd q1 hy
  · rw [p2, q2, if_neg (by simp), e, Int.natAbs_of_nonneg (by omega), Int.natAbs_of_nonneg (by omega), Int.one_mul]

theorem tmod_sign (x y : Int) : x.tmod y = x.sign * (x.natAbs % y.natAbs : Nat) := by
  rcases Int.lt_trichotomy x 0 with h | h | h
  · rw [Int.sign_eq_neg_one_of_neg h]
    have : x.tmod y = -((-x).tmod y) := by rw [Int.neg_tmod]; omega
    rw [this]
    obtain ⟨k, hk⟩ := Int.eq_ofNat_of_zero_le (a := -x) (by omega)
    have : x.natAbs = k := by omega
    rw [hk, this]
    rcases Int.le_total 0 y with hy | hy
    · obtain ⟨m, rfl⟩ := Int.eq_ofNat_of_zero_le hy
      rw [← Int.ofNat_tmod]; simp
    · obtain ⟨m, hm⟩ := Int.eq_ofNat_of_zero_le (a := -y) (by omega)
      have e : y = -(m : Int) := by omega
      rw [e, Int.tmod_neg, ← Int.ofNat_tmod, Int.natAbs_neg]; simp
  · rw [h]; simp
  · rw [Int.sign_eq_one_of_pos h, Int.one_mul]
    obtain ⟨k, rfl⟩ := Int.eq_ofNat_of_zero_le (a := x) (by omega)
    rcases Int.le_total 0 y with hy | hy
    · obtain ⟨m, rfl⟩ := Int.eq_ofNat_of_zero_le hy
      rw [← Int.ofNat_tmod]; simp
    · obtain ⟨m, hm⟩ := Int.eq_ofNat_of_zero_le (a := -y) (by omega)
      have e : y = -(m : Int) := by omega
      rw [e, Int.tmod_neg, ← Int.ofNat_tmod, Int.natAbs_neg]; simp

theorem mk64_rep (v : BitVec 64) : Rep (mkbigint false v) v.toNat := by
  unfold mkbigint
  simp only [Bool.false_and, Bool.false_eq_true, if_false, BitVec.setWidth_eq]
  have hlt := v.isLt
  have e0 : (v = 0#64) ↔ v.toNat = 0 := by
    constructor
    · intro h; rw [h]; rfl
    · intro h; exact BitVec.eq_of_toNat_eq (by rw [h]; rfl)
  generalize v.toNat = n at *
  have hV : V (n % Base :: if Base ≤ n then [n / Base % Base] else []) = n := by
    split
    · rw [V_cons, V_single]; omega
    · rw [V_cons, V_nil]; omega
  refine trim_rep' ?_ ?_ ?_
  · refine Small.cons.2 ⟨Nat.mod_lt _ (by decide), ?_⟩
    split
    · exact Small.cons.2 ⟨Nat.mod_lt _ (by decide), Small.nil⟩
    · exact Small.nil
  · rw [hV]; split
    · rename_i h; exact .inr (.inr (e0.1 h))
    · exact .inl rfl
  · rw [hV]; split
    · rename_i h; rw [e0.1 h]; rfl
    · rw [Int.one_mul]

theorem trim_id {a : Big} {x : Int} (h : Rep a x) : trim a = a := by
  refine Rep.unique (z := x) ?_ h
  have := trim_rep h.small (s := a.sign) (by rw [h.V]; have := h.sign_cases; omega)
  rw [h.val] at this
  exact this

theorem zero_rep : Rep (mkbigint true 0#32) 0 := by
  refine ⟨?_, ?_⟩ <;> decide

/-- What `bigdivmod` gives for every pair of numbers. -/
theorem bigdivmod_exact {a b : Big} {x y : Int} (ha : Rep a x) (hb : Rep b y) (hy : y ≠ 0) {f : Nat} (hf : 2 ≤ f) :
    ∃ q r, bigdivmod f a b = .ok (q, r) ∧ Rep q (x.tdiv y) ∧ Rep r (if y.natAbs < Base then ((x.natAbs % y.natAbs : Nat) : Int) else x.tmod y) := by
  have hyn : 0 < y.natAbs := by omega
  unfold bigdivmod
  split
  · rename_i h
    exact absurd (hb.nil_iff.1 h) hy
  · rename_i b0 h
    have hb0 : y.natAbs = b0 := by rw [← hb.V, h, V_single]
    have hbB : b0 < Base := by
      have := hb.small
      rw [h] at this
      exact (Small.cons.1 this).1
    rw [if_pos (c := y.natAbs < Base) (by omega)]
    split
    · rename_i hl
      have : x = 0 := ha.nil_iff.1 (List.length_eq_zero_iff.1 (by omega))
      subst this
      refine ⟨_, _, rfl, ?_, ?_⟩
      · simpa using zero_rep
      · simpa using ha
    · rename_i hl
      have hx : x ≠ 0 := fun e => hl (by rw [ha.nil_iff.2 e]; decide)
      rw [if_neg (by omega)]
      obtain ⟨h1, h2, h3⟩ := div1_spec (b0 := b0) (by omega) hbB ha.small
      rw [ha.V] at h1
      have hq : V (div1 b0 a.dig).1 = x.natAbs / b0 := by
        rw [h1, Nat.add_comm, Nat.add_mul_div_right _ _ (by omega), Nat.div_eq_of_lt h2, Nat.zero_add]
      have hr : (div1 b0 a.dig).2 = x.natAbs % b0 := by
        rw [h1, Nat.add_comm, Nat.add_mul_mod_self_right, Nat.mod_eq_of_lt h2]
      refine ⟨_, _, rfl, quot_rep h3 ha hb hy hx (by rw [hq, hb0]), ?_⟩
      have := mk64_rep (BitVec.ofNat 64 (div1 b0 a.dig).2)
      rw [trim_id this]
      rw [BitVec.toNat_ofNat, Nat.mod_eq_of_lt (by omega), hr] at this
      rw [hr, hb0]
      exact this
  · rename_i hn0 hn1
    have hbl : 2 ≤ b.dig.length := by
      rcases hd : b.dig with _ | ⟨p, _ | ⟨q, l⟩⟩
      · exact absurd hd hn0
      · exact absurd hd (hn1 p)
      · simp
    have hbne : b.dig ≠ [] := hn0
    have hge : Base ^ (b.dig.length - 1) ≤ y.natAbs := by
      rw [← hb.V]
      exact V_ge hb.tight hbne
    have hyB : ¬ y.natAbs < Base := by
      have : Base ^ 1 ≤ Base ^ (b.dig.length - 1) := Nat.pow_le_pow_right (by decide) (by omega)
      rw [Nat.pow_one] at this
      exact Nat.not_lt.2 (Nat.le_trans this hge)
    rw [if_neg (c := y.natAbs < Base) hyB]
    split
    · rename_i hl
      have hlt := V_len_lt ha.small hb.tight hl
      rw [ha.V, hb.V] at hlt
      refine ⟨_, _, rfl, ?_, ?_⟩
      · have : x.tdiv y = 0 := Int.natAbs_eq_zero.1 (by rw [Int.natAbs_tdiv]; exact Nat.div_eq_of_lt hlt)
        rw [this]
        exact zero_rep
      · rw [tmod_sign, Nat.mod_eq_of_lt hlt, Int.sign_mul_natAbs]
        exact ha
    · rename_i hl
      obtain ⟨n, hn⟩ : ∃ n, b.dig.length = n + 2 := ⟨b.dig.length - 2, by omega⟩
      have hx : x ≠ 0 := by
        intro e
        have : a.dig.length = 0 := by rw [ha.nil_iff.2 e]; rfl
        omega
      have hm1 : Base ^ (a.dig.length - 1) ≤ x.natAbs := by
        rw [← ha.V]
        exact V_ge ha.tight (by intro e; rw [e, List.length_nil] at hl; omega)
      have hm2 := V_lt ha.small
      rw [ha.V] at hm2
      obtain ⟨k, hk⟩ : ∃ k, a.dig.length = k + (n + 2) := ⟨a.dig.length - (n + 2), by omega⟩
      have htopB := small_get hb.small (i := n + 1) (by omega)
      have htop0 : 0 < b.dig[n + 1]! := by
        have := hb.tight hbne
        rw [List.getLast_eq_getElem] at this
        rw [getElem!_pos b.dig (n + 1) (by omega)]
        have e : b.dig[b.dig.length - 1] = b.dig[n + 1] := by congr 1; omega
        omega
      obtain ⟨s1, s2, s3⟩ := nlz_spec htop0 htopB
      have hvb := V_top1 (l := b.dig) (n := n + 1) (by omega)
      have hvl := V_lt (hb.small.take (n + 1))
      rw [List.length_take, Nat.min_eq_left (by omega)] at hvl
      rw [hb.V] at hvb
      simp only [hn, hk]
      rw [show n + 2 - 1 = n + 1 by omega, rdChk_bang (by omega), Res.bind_ok]
      simp only [show k + (n + 2) - (n + 2) + 1 = k + 1 by omega]
      generalize b.dig[n + 1]! = top at *
      generalize nlz top = s at *
      have ru := bigshli_rep ha s
      have rv := bigshli_rep hb s
      have vu : V (bigshli a s).dig = x.natAbs * 2 ^ s := by rw [ru.V, Int.natAbs_mul]; simp
      have vv : V (bigshli b s).dig = y.natAbs * 2 ^ s := by rw [rv.V, Int.natAbs_mul]; simp
      have hsp : 0 < 2 ^ s := by positivity
      obtain ⟨K, hK⟩ : ∃ K, Base ^ (n + 1) = K := ⟨_, rfl⟩
      have hK2 : Base ^ (n + 2) = Base * K := by rw [← hK, Nat.pow_succ Base (n + 1), Nat.mul_comm]
      rw [hK] at hvl hvb
      have hKp : 0 < K := by rw [← hK]; positivity
      have b1 : 2147483648 * K ≤ y.natAbs * 2 ^ s := by
        calc 2147483648 * K ≤ top * 2 ^ s * K := Nat.mul_le_mul_right _ s2
          _ = (K * top) * 2 ^ s := by ring
          _ ≤ y.natAbs * 2 ^ s := Nat.mul_le_mul_right _ (by omega)
      have b2 : y.natAbs * 2 ^ s < Base * K := by
        have h1 : (top + 1) * 2 ^ s ≤ Base := by
          have e : 2 ^ s * 2 ^ (32 - s) = Base := by rw [← Nat.pow_add, show s + (32 - s) = 32 by omega]
          rw [← e, Nat.mul_comm (2 ^ s)]
          refine Nat.mul_le_mul_right _ ?_
          rw [← e, Nat.mul_comm (2 ^ s)] at s3
          exact Nat.lt_of_mul_lt_mul_right s3
        calc y.natAbs * 2 ^ s < (K * top + K) * 2 ^ s := Nat.mul_lt_mul_of_pos_right (by omega) hsp
          _ = (top + 1) * 2 ^ s * K := by ring
          _ ≤ Base * K := Nat.mul_le_mul_right _ h1
      have lv1 : (bigshli b s).dig.length ≤ n + 2 := len_le rv.tight (by rw [vv, hK2]; exact b2)
      have lv2 : n + 1 + 1 ≤ (bigshli b s).dig.length := len_ge rv.small (by rw [vv, hK]; omega)
      have lv : (bigshli b s).dig.length = n + 2 := by omega
      have vtop := V_top1 (l := (bigshli b s).dig) (n := n + 1) lv
      have vtl := V_lt (rv.small.take (n + 1))
      rw [List.length_take, Nat.min_eq_left (by omega)] at vtl
      rw [hK] at vtop vtl
      have htop : 2147483648 ≤ (bigshli b s).dig[n + 1]! := by
        by_contra hlt
        have h1 : K * ((bigshli b s).dig[n + 1]! + 1) ≤ K * 2147483648 := Nat.mul_le_mul_left _ (by omega)
        rw [Nat.mul_add] at h1
        rw [vv] at vtop
        omega
      have lu : k + 1 + (n + 2) ≤ ((bigshli a s).dig ++ [0]).length := by
        have : a.dig.length - 1 + 1 ≤ (bigshli a s).dig.length := by
          refine len_ge ru.small ?_
          rw [vu]
          exact Nat.le_trans hm1 (Nat.le_mul_of_pos_right _ hsp)
        rw [List.length_append, List.length_singleton]
        omega
      have su : Small ((bigshli a s).dig ++ [0]) := Small.append.2 ⟨ru.small, Small.cons.2 ⟨by decide, Small.nil⟩⟩
      have vu0 : V ((bigshli a s).dig ++ [0]) = x.natAbs * 2 ^ s := by
        rw [V_append, V_single, Nat.mul_zero, Nat.add_zero, vu]
      have hlt : V (((bigshli a s).dig ++ [0]).drop (k + 1)) < V (bigshli b s).dig := by
        rw [V_drop su, vu0, vv, Nat.div_lt_iff_lt_mul (by positivity)]
        have hs31 : 2 ^ s ≤ 2147483648 := by
          have : 2 ^ s ≤ 2 ^ 31 := Nat.pow_le_pow_right (by decide) (by omega)
          simpa using this
        have e : Base ^ a.dig.length = K * Base ^ (k + 1) := by
          rw [hk, ← hK, ← Nat.pow_add]
          congr 1
          omega
        calc x.natAbs * 2 ^ s < Base ^ a.dig.length * 2 ^ s := Nat.mul_lt_mul_of_pos_right hm2 hsp
          _ ≤ Base ^ a.dig.length * 2147483648 := Nat.mul_le_mul_left _ hs31
          _ = 2147483648 * K * Base ^ (k + 1) := by rw [e]; ring
          _ ≤ y.natAbs * 2 ^ s * Base ^ (k + 1) := Nat.mul_le_mul_right _ b1
      obtain ⟨qs, u', j1, j2, j3, j4, j5, j6⟩ := divloop_spec rv.small lv htop hf (k + 1) _ su lu hlt
      rw [vu0, vv] at j2
      rw [vv] at j3
      have hq : V qs = x.natAbs / y.natAbs := by
        rw [← Nat.mul_div_mul_right _ _ hsp, j2, Nat.add_comm, Nat.add_mul_div_right _ _ (by positivity), Nat.div_eq_of_lt j3, Nat.zero_add]
      have hr : V u' / 2 ^ s = x.natAbs % y.natAbs := by
        have : V u' = (x.natAbs % y.natAbs) * 2 ^ s := by
          rw [← Nat.mul_mod_mul_right, j2, Nat.add_comm, Nat.add_mul_mod_self_right, Nat.mod_eq_of_lt j3]
        rw [this, Nat.mul_div_cancel _ hsp]
      rw [j1, Res.bind_ok]
      refine ⟨_, _, rfl, quot_rep j4 ha hb hy hx hq, ?_⟩
      have hrr := shri_gen j5 (g := a.sign) (by have := ha.sign_cases; omega) s
      rw [trim_id hrr]
      rw [hr, ha.2] at hrr
      rw [tmod_sign, ha.2]
      exact hrr

end Verif.Bigint
