import Verif.Big.Mul

/-!
# Division
-/

namespace Verif.Bigint

theorem w64_of {x : Int} (h0 : 0 ≤ x) (h1 : x < 18446744073709551616) : w64 x = x.toNat := by
  unfold w64
  omega

theorem s64_w64 {x : Int} (h0 : -9223372036854775808 ≤ x) (h1 : x < 9223372036854775808) : s64 (w64 x) = x := by
  unfold s64 w64
  split <;> omega

theorem w64_mod (x : Int) : ((w64 x % Base : Nat) : Int) = x % 4294967296 := by
  unfold w64
  omega

/-! ## One digit -/

theorem div1_spec {b0 : Nat} (h0 : 0 < b0) (hb : b0 < Base) : ∀ {l : List Nat}, Small l →
    V l = V (div1 b0 l).1 * b0 + (div1 b0 l).2 ∧ (div1 b0 l).2 < b0 ∧ Small (div1 b0 l).1
  | [], _ => by simp [div1, V_nil, h0, Small.nil]
  | d :: ds, hl => by
    obtain ⟨hd, hds⟩ := Small.cons.1 hl
    obtain ⟨h1, h2, h3⟩ := div1_spec h0 hb hds
    have e1 : (div1 b0 ds).2 <<< 32 = (div1 b0 ds).2 * Base := by rw [Nat.shiftLeft_eq]
    simp only [div1, e1]
    generalize (div1 b0 ds).2 = r at *
    generalize (div1 b0 ds).1 = qs at *
    have e2 : (r * Base) % W64 = r * Base := Nat.mod_eq_of_lt (by omega)
    have e3 : (r * Base + d) % W64 = r * Base + d := Nat.mod_eq_of_lt (by omega)
    rw [e2, e3]
    have hq : (r * Base + d) / b0 < Base := by
      rw [Nat.div_lt_iff_lt_mul h0]
      have : r * Base + Base ≤ b0 * Base := by
        rw [← Nat.succ_mul]
        exact Nat.mul_le_mul_right _ h2
      rw [Nat.mul_comm Base b0]
      omega
    rw [Nat.mod_eq_of_lt hq]
    obtain ⟨q, hqq⟩ : ∃ q, (r * Base + d) / b0 = q := ⟨_, rfl⟩
    obtain ⟨m, hmm⟩ : ∃ m, (r * Base + d) % b0 = m := ⟨_, rfl⟩
    have hm := Nat.div_add_mod (r * Base + d) b0
    have hlt := Nat.mod_lt (r * Base + d) h0
    rw [hqq] at hm hq ⊢
    rw [hmm] at hm hlt
    rw [Nat.mul_comm] at hm
    have e4 : (q * b0) % W64 = q * b0 := Nat.mod_eq_of_lt (by omega)
    rw [e4]
    have e5 : w64 (((r * Base + d : Nat) : Int) - ((q * b0 : Nat) : Int)) = m := by
      rw [w64_of] <;> omega
    rw [e5]
    refine ⟨?_, hlt, Small.cons.2 ⟨hq, h3⟩⟩
    rw [V_cons, V_cons, h1]
    have : (q + Base * V qs) * b0 = q * b0 + Base * (V qs * b0) := by ring
    rw [this]
    generalize V qs * b0 = A at *
    generalize q * b0 = C at *
    omega

theorem nlz_spec {a : Nat} (h0 : 0 < a) (h : a < Base) : nlz a < 32 ∧ 2147483648 ≤ a * 2 ^ nlz a ∧ a * 2 ^ nlz a < Base := by
  unfold nlz
  rw [if_neg (by omega)]
  simp only [Nat.shiftLeft_eq]
  split_ifs <;> simp only at * <;> norm_num at * <;> omega

/-! ## A digit of the quotient -/

theorem knuthT {qz qw r t B : Nat} (h : r * B + t < qw) : (qz + r) * B + t < qz * B + qw := by
  rw [Nat.add_mul]
  omega

theorem w64_sub {a b c : Nat} (h : b + c = a) (ha : a < W64) : w64 ((a : Int) - (b : Int)) = c := by
  rw [w64_of] <;> omega

theorem fixq_spec {x y z w t q : Nat} (hx : x ≤ z) (hz : z < Base) (hy : y < Base) (ht : t < Base) (hw : w < Base) (hq : q < Base) (hz0 : 0 < z)
    (hA : ∀ k, (x * Base + y) * Base + t < k * (z * Base + w) → q < k) :
    ∀ (f qhat rhat : Nat), qhat * z + rhat = x * Base + y → rhat < Base → q ≤ qhat → Base ≤ rhat + f * z →
      ∃ qh, fixq z w t f qhat rhat = .ok qh ∧ q ≤ qh ∧ qh < Base ∧ qh * (z * Base + w) ≤ (x * Base + y) * Base + t
  | 0, qhat, rhat, he, hr, hqq, hf => by omega
  | f + 1, qhat, rhat, he, hr, hqq, hf => by
    have e1 : (rhat * Base + t) % W64 = rhat * Base + t := Nat.mod_eq_of_lt (by omega)
    have hle : qhat ≤ qhat * z := Nat.le_mul_of_pos_right _ hz0
    have e2 : qhat < Base → (qhat * w) % W64 = qhat * w := by
      intro h
      have : qhat * w ≤ (Base - 1) * (Base - 1) := Nat.mul_le_mul (by omega) (by omega)
      exact Nat.mod_eq_of_lt (by omega)
    have ed : ∀ k, k * (z * Base + w) = k * z * Base + k * w := by intro k; ring
    unfold fixq
    rw [e1]
    split
    · rename_i htest
      have hlt : q < qhat := by
        by_cases hb : Base ≤ qhat
        · omega
        · rcases htest with h | h
          · exact absurd h hb
          · rw [e2 (by omega)] at h
            refine hA qhat ?_
            rw [ed, ← he]
            exact knuthT h
      have ew : w64 ((qhat : Int) - 1) = qhat - 1 := by rw [w64_of] <;> omega
      have em : (rhat + z) % W64 = rhat + z := Nat.mod_eq_of_lt (by omega)
      have he' : (qhat - 1) * z + (rhat + z) = x * Base + y := by
        rw [← he]
        obtain ⟨k, rfl⟩ : ∃ k, qhat = k + 1 := ⟨qhat - 1, by omega⟩
        rw [Nat.add_sub_cancel]
        ring
      rw [ew, em]
      split
      · rename_i hlt2
        refine fixq_spec hx hz hy ht hw hq hz0 hA f (qhat - 1) (rhat + z) he' hlt2 (by omega) ?_
        have : (f + 1) * z = f * z + z := by ring
        omega
      · rename_i hge
        refine ⟨_, rfl, by omega, ?_, ?_⟩
        · by_contra hB
          have h1 : Base * z ≤ (qhat - 1) * z := Nat.mul_le_mul_right _ (by omega)
          omega
        · have hB : qhat - 1 < Base := by
            by_contra hB
            have h1 : Base * z ≤ (qhat - 1) * z := Nat.mul_le_mul_right _ (by omega)
            omega
          have h2 : (qhat - 1) * w ≤ (Base - 1) * (Base - 1) := Nat.mul_le_mul (by omega) (by omega)
          rw [ed, ← he']
          omega
    · rename_i htest
      have hb : qhat < Base := by omega
      rw [e2 hb] at htest
      refine ⟨_, rfl, hqq, hb, ?_⟩
      rw [ed, ← he]
      omega

theorem mulsub_spec {qhat : Nat} (hq : qhat < Base) : ∀ (us vs : List Nat) (c : Nat), us.length = vs.length → Small us → Small vs → c ≤ Base →
    V (mulsub qhat us vs c).1 + qhat * V vs + c = V us + Base ^ us.length * (mulsub qhat us vs c).2 ∧
      Small (mulsub qhat us vs c).1 ∧ (mulsub qhat us vs c).1.length = us.length ∧ (mulsub qhat us vs c).2 ≤ Base
  | [], [], c, _, hu, _, hc => by simp [mulsub, V_nil, Small.nil, hc]
  | [], _ :: _, _, h, _, _, _ => by simp at h
  | _ :: _, [], _, h, _, _, _ => by simp at h
  | u :: us, v :: vs, c, hl, hu, hv, hc => by
    obtain ⟨hu0, hus⟩ := Small.cons.1 hu
    obtain ⟨hv0, hvs⟩ := Small.cons.1 hv
    have hp : qhat * v ≤ (Base - 1) * (Base - 1) := Nat.mul_le_mul (by omega) (by omega)
    have ep : (qhat * v) % W64 = qhat * v := Nat.mod_eq_of_lt (by omega)
    have es : (qhat * v) >>> 32 = qhat * v / Base := by rw [Nat.shiftRight_eq_div_pow]
    have hm := Nat.div_add_mod (qhat * v) Base
    obtain ⟨T, hT⟩ : ∃ T : Int, (u : Int) - c - (qhat * v % Base : Nat) = T := ⟨_, rfl⟩
    have hT1 : s64 (w64 T) = T := s64_w64 (by omega) (by omega)
    have hT2 := w64_mod T
    have hcar : w64 (((qhat * v / Base : Nat) : Int) - T / 4294967296) = (((qhat * v / Base : Nat) : Int) - T / 4294967296).toNat := w64_of (by omega) (by omega)
    obtain ⟨k1, k2, k3, k4⟩ := mulsub_spec hq us vs (w64 (((qhat * v / Base : Nat) : Int) - T / 4294967296)) (by simpa using hl) hus hvs (by omega)
    simp only [mulsub, ep, es, hT, hT1]
    have eB : (((4294967296 : Nat) : Int)) = 4294967296 := rfl
    rw [eB]
    refine ⟨?_, Small.cons.2 ⟨Nat.mod_lt _ (by decide), k2⟩, by rw [List.length_cons, List.length_cons, k3], k4⟩
    rw [V_cons, V_cons, V_cons, List.length_cons, Nat.pow_succ]
    generalize (mulsub qhat us vs (w64 (((qhat * v / Base : Nat) : Int) - T / 4294967296))) = r at *
    have e1 : qhat * (v + Base * V vs) = qhat * v + Base * (qhat * V vs) := by ring
    have e2 : Base ^ us.length * Base * r.2 = Base * (Base ^ us.length * r.2) := by ring
    rw [e1, e2]
    obtain ⟨A, hA⟩ : ∃ A, Base ^ us.length * r.2 = A := ⟨_, rfl⟩
    rw [hA] at k1 ⊢
    omega

theorem addback_spec : ∀ (us vs : List Nat) (c : Nat), us.length = vs.length → Small us → Small vs → c ≤ 1 →
    V (addback us vs c).1 + Base ^ us.length * (addback us vs c).2 = V us + V vs + c ∧ Small (addback us vs c).1 ∧
      (addback us vs c).1.length = us.length ∧ (addback us vs c).2 ≤ 1
  | [], [], c, _, hu, _, hc => by simp [addback, V_nil, Small.nil, hc]
  | [], _ :: _, _, h, _, _, _ => by simp at h
  | _ :: _, [], _, h, _, _, _ => by simp at h
  | u :: us, v :: vs, c, hl, hu, hv, hc => by
    obtain ⟨hu0, hus⟩ := Small.cons.1 hu
    obtain ⟨hv0, hvs⟩ := Small.cons.1 hv
    have e0 : (u + v + c) % W64 = u + v + c := Nat.mod_eq_of_lt (by omega)
    have es : (u + v + c) >>> 32 = (u + v + c) / Base := by rw [Nat.shiftRight_eq_div_pow]
    obtain ⟨k1, k2, k3, k4⟩ := addback_spec us vs ((u + v + c) / Base) (by simpa using hl) hus hvs (by omega)
    simp only [addback, e0, es]
    refine ⟨?_, Small.cons.2 ⟨Nat.mod_lt _ (by decide), k2⟩, by rw [List.length_cons, List.length_cons, k3], k4⟩
    rw [V_cons, V_cons, V_cons, List.length_cons, Nat.pow_succ]
    generalize addback us vs ((u + v + c) / Base) = r at *
    have e2 : Base ^ us.length * Base * r.2 = Base * (Base ^ us.length * r.2) := by ring
    rw [e2]
    obtain ⟨A, hA⟩ : ∃ A, Base ^ us.length * r.2 = A := ⟨_, rfl⟩
    rw [hA] at k1 ⊢
    omega

/-- The two top digits. -/
theorem V_top2 {l : List Nat} {n : Nat} (hl : l.length = n + 2) : V l = (l[n + 1]! * Base + l[n]!) * Base ^ n + V (l.take n) := by
  have h1 := V_split (l := l) (n := n) (by omega)
  have h2 : l.drop n = [l[n]!, l[n + 1]!] := by
    rw [List.drop_eq_getElem_cons (by omega), List.drop_eq_getElem_cons (by omega), List.drop_eq_nil_of_le (by omega)]
    simp [hl]
  rw [h1, h2, V_cons, V_single]
  ring

theorem small_get {l : List Nat} (h : Small l) {i : Nat} (hi : i < l.length) : l[i]! < Base := by
  rw [getElem!_pos l i hi]
  exact h _ (List.getElem_mem hi)

theorem rdChk_bang {l : List Nat} {i : Nat} (hi : i < l.length) : rdChk l i = .ok l[i]! := by
  rw [rdChk_ok hi, getElem!_pos l i hi]

/-! Arithmetic for any base. -/

theorem knuthA {N D P k ul vl : Nat} (hul : ul < P) (h : N < k * D) : N * P + ul < k * (D * P + vl) := by
  have h1 : (N + 1) * P ≤ k * D * P := Nat.mul_le_mul_right _ h
  have h2 : k * (D * P + vl) = k * D * P + k * vl := by ring
  have h3 : (N + 1) * P = N * P + P := by ring
  rw [h2]
  omega

theorem knuthX {x y z w t P B ul vl : Nat} (hw : w < B) (hvl : vl < P) (h : ((x * B + y) * B + t) * P + ul < B * ((z * B + w) * P + vl)) : x ≤ z := by
  by_contra hgt
  have h1 : (z + 1) * (B * B * P) ≤ x * (B * B * P) := Nat.mul_le_mul_right _ (by omega)
  have h2 : ((x * B + y) * B + t) * P + ul = x * (B * B * P) + (y * B * P + t * P + ul) := by ring
  have h3 : (z * B + w) * P + vl ≤ (z * B + (w + 1)) * P := by
    have : (z * B + (w + 1)) * P = (z * B + w) * P + P := by ring
    omega
  have h4 : (z * B + (w + 1)) * P ≤ (z * B + B) * P := Nat.mul_le_mul_right _ (by omega)
  have h5 : B * ((z * B + w) * P + vl) ≤ B * ((z * B + B) * P) := Nat.mul_le_mul_left _ (by omega)
  have h6 : B * ((z * B + B) * P) = (z + 1) * (B * B * P) := by ring
  omega

theorem knuthQ {A q z w t B : Nat} (ht : t < B) (h : A < q * z) : A * B + t < q * (z * B + w) := by
  have h1 : (A + 1) * B ≤ q * z * B := Nat.mul_le_mul_right _ h
  have h2 : q * (z * B + w) = q * z * B + q * w := by ring
  have h3 : (A + 1) * B = A * B + B := by ring
  rw [h2]
  omega

theorem knuth1 {qh q U W D N P B ul vl : Nat} (h : qh * D ≤ N) (hq : qh ≤ B) (hvl : vl ≤ P) (hD : B ≤ D) (hU : U = N * P + ul) (hW : W = D * P + vl)
    (h2 : U < q * W + W) : qh ≤ q + 1 := by
  by_contra hgt
  have h1 : (q + 2) * W ≤ qh * W := Nat.mul_le_mul_right _ (by omega)
  have h3 : qh * W = qh * D * P + qh * vl := by rw [hW]; ring
  have h4 : qh * D * P ≤ N * P := Nat.mul_le_mul_right _ h
  have h5 : qh * vl ≤ B * P := Nat.mul_le_mul hq hvl
  have h6 : B * P ≤ D * P := Nat.mul_le_mul_right _ hD
  have h7 : (q + 2) * W = q * W + 2 * W := by ring
  omega

theorem divstep_spec {v lo mid hi : List Nat} {x n f : Nat} (hv : Small v) (hvl : v.length = n + 2) (htop : 2147483648 ≤ v[n + 1]!)
    (hm : Small mid) (hml : mid.length = n + 2) (hx : x < Base) (hU : V mid + Base ^ (n + 2) * x < Base * V v) (hf : 2 ≤ f) :
    ∃ r, divstep f v (n + 2) lo.length (lo ++ mid ++ x :: hi) = .ok ((V mid + Base ^ (n + 2) * x) / V v, lo ++ r ++ 0 :: hi) ∧ Small r ∧ r.length = n + 2 ∧
      V r = (V mid + Base ^ (n + 2) * x) % V v := by
  have r1 : rdChk (lo ++ mid ++ x :: hi) (lo.length + (n + 2)) = .ok x := by
    simp [rdChk, hml]
  have hget : ∀ i, i < n + 2 → rdChk (lo ++ mid ++ x :: hi) (lo.length + i) = .ok mid[i]! := by
    intro i hi'
    have : (lo ++ mid ++ x :: hi)[lo.length + i]? = some mid[i]! := by
      rw [List.append_assoc, List.getElem?_append_right (by omega), Nat.add_sub_cancel_left, List.getElem?_append_left (by omega),
        getElem!_pos mid i (by omega), List.getElem?_eq_getElem (by omega)]
    simp only [rdChk, this]
  have r2 : rdChk (lo ++ mid ++ x :: hi) (lo.length + (n + 2) - 1) = .ok mid[n + 1]! := by
    rw [show lo.length + (n + 2) - 1 = lo.length + (n + 1) by omega]
    exact hget _ (by omega)
  have r3 : rdChk v (n + 2 - 1) = .ok v[n + 1]! := rdChk_bang (by omega)
  have r4 : rdChk v (n + 2 - 2) = .ok v[n]! := rdChk_bang (by omega)
  have r5 : rdChk (lo ++ mid ++ x :: hi) (lo.length + (n + 2) - 2) = .ok mid[n]! := by
    rw [show lo.length + (n + 2) - 2 = lo.length + n by omega]
    exact hget _ (by omega)
  have d1 : ((lo ++ mid ++ x :: hi).drop lo.length).take (n + 2) = mid := by
    rw [List.append_assoc, List.drop_left, ← hml, List.take_left]
  have d2 : (lo ++ mid ++ x :: hi).take lo.length = lo := by rw [List.append_assoc, List.take_left]
  have d3 : (lo ++ mid ++ x :: hi).drop (lo.length + (n + 2) + 1) = hi := by
    rw [show lo.length + (n + 2) + 1 = (lo ++ mid).length + 1 by rw [List.length_append, hml], ← List.drop_drop, List.drop_left]
    rfl
  have vV := V_top2 hvl
  have vM := V_top2 hml
  have bz := small_get hv (i := n + 1) (by omega)
  have bw := small_get hv (i := n) (by omega)
  have by_ := small_get hm (i := n + 1) (by omega)
  have bt := small_get hm (i := n) (by omega)
  have lv := V_lt (hv.take n)
  have lm := V_lt (hm.take n)
  rw [List.length_take, Nat.min_eq_left (by omega)] at lv lm
  have hP : 0 < Base ^ n := by positivity
  have hvlt := V_lt hv
  rw [hvl] at hvlt
  have hPP : Base ^ (n + 2) = Base * Base * Base ^ n := by rw [Nat.pow_succ, Nat.pow_succ]; ring
  generalize v[n + 1]! = z at *
  generalize v[n]! = w at *
  generalize mid[n + 1]! = y at *
  generalize mid[n]! = t at *
  generalize V (v.take n) = vl at *
  generalize V (mid.take n) = ul at *
  obtain ⟨P, hPe⟩ : ∃ P, Base ^ n = P := ⟨_, rfl⟩
  rw [hPe] at lv lm hP vV vM hPP
  -- the number divided
  have hUe : V mid + Base ^ (n + 2) * x = ((x * Base + y) * Base + t) * P + ul := by
    rw [vM, hPP]; ring
  have hvp : 0 < V v := by
    rw [vV]
    have : 0 < (z * Base + w) * P := Nat.mul_pos (by omega) hP
    omega
  obtain ⟨U, hUU⟩ : ∃ U, V mid + Base ^ (n + 2) * x = U := ⟨_, rfl⟩
  rw [hUU] at hU hUe ⊢
  obtain ⟨q, hqq⟩ : ∃ q, U / V v = q := ⟨_, rfl⟩
  have hq1 : q * V v ≤ U := by rw [← hqq]; exact Nat.div_mul_le_self _ _
  have hq2 : U < q * V v + V v := by
    rw [← hqq]
    have := Nat.lt_div_mul_add (a := U) hvp
    omega
  have hqB : q < Base := by rw [← hqq, Nat.div_lt_iff_lt_mul hvp]; exact hU
  have hA : ∀ k, (x * Base + y) * Base + t < k * (z * Base + w) → q < k := by
    intro k hk
    rw [← hqq, Nat.div_lt_iff_lt_mul hvp, hUe, vV]
    exact knuthA lm hk
  have hxz : x ≤ z := by
    rw [hUe, vV] at hU
    exact knuthX (by omega) lv hU
  have hz0 : 0 < z := by omega
  have exy : (x * Base + y) % W64 = x * Base + y := Nat.mod_eq_of_lt (by omega)
  have hdm := Nat.div_add_mod (x * Base + y) z
  have hml' := Nat.mod_lt (x * Base + y) hz0
  have ez : ((x * Base + y) / z * z) % W64 = (x * Base + y) / z * z := by
    refine Nat.mod_eq_of_lt ?_
    have := Nat.div_mul_le_self (x * Base + y) z
    omega
  have er : w64 (((x * Base + y : Nat) : Int) - (((x * Base + y) / z * z : Nat) : Int)) = (x * Base + y) % z := by
    rw [Nat.mul_comm] at hdm
    exact w64_sub hdm (by omega)
  have hqi : q ≤ (x * Base + y) / z := by
    rw [Nat.le_div_iff_mul_le hz0]
    by_contra hgt
    have hk := hA q
    refine absurd (hk ?_) (Nat.lt_irrefl q)
    exact knuthQ bt (by omega)
  obtain ⟨qh, f1, f2, f3, f4⟩ := fixq_spec (q := q) hxz bz by_ bt bw hqB hz0 hA f ((x * Base + y) / z) ((x * Base + y) % z)
    (by rw [Nat.mul_comm]; exact hdm) (by omega) hqi (by
      have : 2 * z ≤ f * z := Nat.mul_le_mul_right _ hf
      omega)
  -- at most one too large
  have hle1 : qh ≤ q + 1 := by
    refine knuth1 (B := Base) (vl := vl) (ul := ul) (P := P) (D := z * Base + w) f4 (by omega) (by omega) (by omega) hUe vV hq2
  obtain ⟨m1, m2, m3, m4⟩ := mulsub_spec f3 mid v 0 (by omega) hm hv (by decide)
  rw [hml] at m1 m3
  have m5 := V_lt m2
  rw [m3] at m5
  have ew : s64 (w64 ((x : Int) - ((mulsub qh mid v 0).2 : Int))) = (x : Int) - (mulsub qh mid v 0).2 := s64_w64 (by omega) (by omega)
  have ewm := w64_mod ((x : Int) - ((mulsub qh mid v 0).2 : Int))
  have ered : divstep f v (n + 2) lo.length (lo ++ mid ++ x :: hi) =
      (if s64 (w64 ((x : Int) - ((mulsub qh mid v 0).2 : Int))) < 0 then
        .ok ((w64 (((qh % Base : Nat) : Int) - 1)) % Base, lo ++ (addback (mulsub qh mid v 0).1 v 0).1 ++
          (w64 ((x : Int) - ((mulsub qh mid v 0).2 : Int)) % Base + (addback (mulsub qh mid v 0).1 v 0).2 % Base) % Base :: hi)
      else .ok (qh % Base, lo ++ (mulsub qh mid v 0).1 ++ w64 ((x : Int) - ((mulsub qh mid v 0).2 : Int)) % Base :: hi)) := by
    unfold divstep
    simp only [r1, r2, r3, r4, r5, Res.bind_ok, exy, ez, er, f1, d1, d2, d3]
    rw [if_neg (by omega)]
  rw [ered, ew]
  have hB2 : 0 < Base ^ (n + 2) := by positivity
  have m1' : V (mulsub qh mid v 0).1 + qh * V v + Base ^ (n + 2) * x = U + Base ^ (n + 2) * (mulsub qh mid v 0).2 := by omega
  generalize hr : mulsub qh mid v 0 = r at *
  obtain ⟨Q, hQ⟩ : ∃ Q, Base ^ (n + 2) = Q := ⟨_, rfl⟩
  rw [hQ] at m1' m5 hB2 hvlt
  have hmod : U % V v = U - q * V v := by
    have := Nat.div_add_mod U (V v)
    rw [hqq, Nat.mul_comm] at this
    omega
  split
  · rename_i hneg
    have hxr : x + 1 ≤ r.2 := by omega
    have h1 : Q * (x + 1) ≤ Q * r.2 := Nat.mul_le_mul_left _ hxr
    rw [Nat.mul_add, Nat.mul_one] at h1
    have hqe : qh = q + 1 := by
      rcases Nat.lt_or_ge q qh with k | k
      · omega
      · exfalso
        have : qh * V v ≤ q * V v := Nat.mul_le_mul_right _ k
        omega
    have hre : r.2 = x + 1 := by
      by_contra hne
      have h2 : Q * (x + 2) ≤ Q * r.2 := Nat.mul_le_mul_left _ (by omega)
      have h3 : Q * (x + 2) = Q * x + 2 * Q := by ring
      have h4 : qh * V v = q * V v + V v := by rw [hqe]; ring
      omega
    obtain ⟨a1, a2, a3, a4⟩ := addback_spec r.1 v 0 (by omega) m2 hv (by decide)
    rw [m3, hQ] at a1
    rw [m3] at a3
    have a5 := V_lt a2
    rw [a3, hQ] at a5
    have h4 : qh * V v = q * V v + V v := by rw [hqe]; ring
    have h5 : Q * r.2 = Q * x + Q := by rw [hre]; ring
    have ha : (addback r.1 v 0).2 = 1 := by
      rcases Nat.lt_or_ge 0 (addback r.1 v 0).2 with k | k
      · omega
      · exfalso
        have : (addback r.1 v 0).2 = 0 := by omega
        rw [this] at a1
        omega
    refine ⟨_, ?_, a2, a3, ?_⟩
    · rw [hre, ha]
      have t1 : w64 ((x : Int) - ((x + 1 : Nat) : Int)) % Base = 4294967295 := by
        unfold w64; omega
      have t2 : w64 (((qh % Base : Nat) : Int) - 1) % Base = q := by
        rw [Nat.mod_eq_of_lt f3, hqe]
        unfold w64; omega
      rw [t1, t2, hqq]
    · rw [ha, Nat.mul_one] at a1
      omega
  · rename_i hpos
    have hxr : r.2 ≤ x := by omega
    have h1 : Q * r.2 ≤ Q * x := Nat.mul_le_mul_left _ hxr
    have hqe : qh = q := by
      rcases Nat.lt_or_ge q qh with k | k
      · exfalso
        have : (q + 1) * V v ≤ qh * V v := Nat.mul_le_mul_right _ k
        have h3 : (q + 1) * V v = q * V v + V v := by ring
        omega
      · omega
    have hre : r.2 = x := by
      by_contra hne
      have h2 : Q * (r.2 + 1) ≤ Q * x := Nat.mul_le_mul_left _ (by omega)
      have h3 : Q * (r.2 + 1) = Q * r.2 + Q := by ring
      rw [hqe] at m1'
      omega
    refine ⟨_, ?_, m2, m3, ?_⟩
    · rw [hre, Nat.mod_eq_of_lt f3, hqe, hqq]
      have t1 : w64 ((x : Int) - (x : Int)) % Base = 0 := by
        rw [Int.sub_self]; rfl
      rw [t1]
    · rw [hre, hqe] at m1'
      omega

end Verif.Bigint
