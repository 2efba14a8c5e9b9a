import Verif.Big.Lemmas

/-!
# Signed addition, comparison, shifts and the schoolbook product
-/

namespace Verif.Bigint

theorem Rep.sign_cases {a : Big} {x : Int} (h : Rep a x) : (x < 0 ∧ a.sign = -1) ∨ (x = 0 ∧ a.sign = 0) ∨ (0 < x ∧ a.sign = 1) := by
  rw [h.2]
  rcases Int.lt_trichotomy x 0 with k | k | k
  · exact .inl ⟨k, Int.sign_eq_neg_one_of_neg k⟩
  · exact .inr (.inl ⟨k, by rw [k]; rfl⟩)
  · exact .inr (.inr ⟨k, Int.sign_eq_one_of_pos k⟩)

theorem cmpabs_lt {a b : Big} (h : bigcmpabs a b = .lt) : a.dig.length ≤ b.dig.length := by
  unfold bigcmpabs at h
  split at h
  · omega
  · split at h
    · cases h
    · omega

theorem cmpabs_gt {a b : Big} (h : bigcmpabs a b = .gt) : b.dig.length ≤ a.dig.length := by
  unfold bigcmpabs at h
  split at h
  · cases h
  · split at h
    · omega
    · omega

theorem bigadd_rep {a b : Big} {x y : Int} (ha : Rep a x) (hb : Rep b y) : Rep (bigadd a b) (x + y) := by
  have hc := bigcmpabs_eq ha.small hb.small (.inl ha.tight) (.inl hb.tight)
  rw [ha.V, hb.V] at hc
  have hs := ha.sign_cases
  have ht := hb.sign_cases
  unfold bigadd
  split
  · rename_i h
    have := uadd_rep (a := { a with sign := b.sign }) (b := b) ha.small hb.small (by
      simp only [ha.V, hb.V]
      omega)
    simp only [ha.V, hb.V] at this
    refine cast (congrArg _ ?_) this
    rcases hs with ⟨h1, h2⟩ | ⟨h1, h2⟩ | ⟨h1, h2⟩ <;> rcases ht with ⟨h3, h4⟩ | ⟨h3, h4⟩ | ⟨h3, h4⟩ <;> rw [h4] <;> omega
  · split
    · rename_i h h'
      have : y = 0 := hb.sign_zero.1 h'
      rw [this, Int.add_zero]
      exact ha
    · rename_i h h'
      split
      · rename_i k
        have hl := cmpabs_lt k
        rw [hc, Nat.compare_eq_lt] at k
        have := usub_rep hb.small ha.small hl (by rw [ha.V, hb.V]; omega) (by omega)
        rw [ha.V, hb.V] at this
        refine cast (congrArg _ ?_) this
        rcases hs with ⟨h1, h2⟩ | ⟨h1, h2⟩ | ⟨h1, h2⟩ <;> rcases ht with ⟨h3, h4⟩ | ⟨h3, h4⟩ | ⟨h3, h4⟩ <;> rw [h4] <;> omega
      · rename_i k
        have hl := cmpabs_gt k
        rw [hc, Nat.compare_eq_gt] at k
        have := usub_rep ha.small hb.small hl (by rw [ha.V, hb.V]; omega) (by omega)
        rw [ha.V, hb.V] at this
        refine cast (congrArg _ ?_) this
        rcases hs with ⟨h1, h2⟩ | ⟨h1, h2⟩ | ⟨h1, h2⟩ <;> rcases ht with ⟨h3, h4⟩ | ⟨h3, h4⟩ | ⟨h3, h4⟩ <;> rw [h2] <;> omega
      · rename_i k
        rw [hc, Nat.compare_eq_eq] at k
        have : x + y = 0 := by omega
        rw [this]
        exact rep_zero

theorem Rep.neg {a : Big} {x : Int} (h : Rep a x) : Rep ⟨a.dig, -a.sign⟩ (-x) := by
  refine ⟨?_, ?_⟩
  · rw [Int.natAbs_neg]; exact h.1
  · rw [Int.sign_neg, ← h.2]

/-- Positive operands whose magnitudes compare right, even with leading zeros. -/
theorem bigsub_pos {a b : Big} (hc : bigcmpabs a b = compare (V a.dig) (V b.dig)) (ha : Small a.dig) (hb : Small b.dig) (sa : a.sign = 1) (sb : b.sign = 1) :
    Rep (bigsub a b) ((V a.dig : Int) - V b.dig) := by
  unfold bigsub
  rw [if_neg (by rw [sa]; decide), if_neg (by rw [sb]; decide), if_neg (by rw [sa, sb]; simp)]
  split
  · rename_i k
    have hl := cmpabs_lt k
    rw [hc, Nat.compare_eq_lt] at k
    have := usub_rep hb ha hl (by omega) (by omega)
    rw [sb] at this ⊢
    have h0 := this
    have := this.neg
    have e2 : -(1 * ((V b.dig - V a.dig : Nat) : Int)) = (V a.dig : Int) - V b.dig := by omega
    rw [e2] at this
    have e : (usub b a).sign = 1 := by
      have h3 : (usub b a).sign = (1 * ((V b.dig - V a.dig : Nat) : Int)).sign := h0.2
      rw [h3]
      exact Int.sign_eq_one_of_pos (by omega)
    rw [e] at this
    exact this
  · rename_i k
    have hl := cmpabs_gt k
    rw [hc, Nat.compare_eq_gt] at k
    have := usub_rep ha hb hl (by omega) (by omega)
    rw [sa] at this
    have e2 : (1 * ((V a.dig - V b.dig : Nat) : Int)) = (V a.dig : Int) - V b.dig := by omega
    rw [e2] at this
    exact this
  · rename_i k
    rw [hc, Nat.compare_eq_eq] at k
    rw [k, Int.sub_self]
    exact rep_zero

theorem bigsub_rep {a b : Big} {x y : Int} (ha : Rep a x) (hb : Rep b y) : Rep (bigsub a b) (x - y) := by
  have hc := bigcmpabs_eq ha.small hb.small (.inl ha.tight) (.inl hb.tight)
  rw [ha.V, hb.V] at hc
  have hs := ha.sign_cases
  have ht := hb.sign_cases
  unfold bigsub
  split
  · rename_i h
    have : x = 0 := ha.sign_zero.1 h
    rw [this, Int.zero_sub]
    exact hb.neg
  · split
    · rename_i h h'
      have : y = 0 := hb.sign_zero.1 h'
      rw [this, Int.sub_zero]
      exact ha
    · split
      · have := uadd_rep (a := a) (b := b) ha.small hb.small (by omega)
        rw [ha.V, hb.V] at this
        refine cast (congrArg _ ?_) this
        rcases hs with ⟨h1, h2⟩ | ⟨h1, h2⟩ | ⟨h1, h2⟩ <;> rcases ht with ⟨h3, h4⟩ | ⟨h3, h4⟩ | ⟨h3, h4⟩ <;> rw [h2] <;> omega
      · rename_i h h' h''
        simp only [ne_eq, not_not] at h''
        split
        · rename_i k
          have hl := cmpabs_lt k
          rw [hc, Nat.compare_eq_lt] at k
          have := usub_rep hb.small ha.small hl (by rw [ha.V, hb.V]; omega) (by omega)
          rw [ha.V, hb.V] at this
          have h3 := this.neg
          have e : (usub b a).sign = b.sign := by
            rw [this.2, Int.sign_mul]
            rcases ht with ⟨h3, h4⟩ | ⟨h3, h4⟩ | ⟨h3, h4⟩
            · rw [h4, Int.sign_eq_one_of_pos (a := ((y.natAbs - x.natAbs : Nat) : Int)) (by omega)]; rfl
            · exact absurd h4 h'
            · rw [h4, Int.sign_eq_one_of_pos (a := ((y.natAbs - x.natAbs : Nat) : Int)) (by omega)]; rfl
          rw [e] at h3
          rw [Int.neg_one_mul]
          refine cast (congrArg _ ?_) h3
          rcases hs with ⟨h1, h2⟩ | ⟨h1, h2⟩ | ⟨h1, h2⟩ <;> rcases ht with ⟨h3, h4⟩ | ⟨h3, h4⟩ | ⟨h3, h4⟩ <;> rw [h4] <;> omega
        · rename_i k
          have hl := cmpabs_gt k
          rw [hc, Nat.compare_eq_gt] at k
          have := usub_rep ha.small hb.small hl (by rw [ha.V, hb.V]; omega) (by omega)
          rw [ha.V, hb.V] at this
          refine cast (congrArg _ ?_) this
          rcases hs with ⟨h1, h2⟩ | ⟨h1, h2⟩ | ⟨h1, h2⟩ <;> rcases ht with ⟨h3, h4⟩ | ⟨h3, h4⟩ | ⟨h3, h4⟩ <;> rw [h2] <;> omega
        · rename_i k
          rw [hc, Nat.compare_eq_eq] at k
          have : x - y = 0 := by omega
          rw [this]
          exact rep_zero

theorem bigcmp_rep {a b : Big} {x y : Int} (ha : Rep a x) (hb : Rep b y) : bigcmp a b = compare x y := by
  have hc := bigcmpabs_eq ha.small hb.small (.inl ha.tight) (.inl hb.tight)
  rw [ha.V, hb.V] at hc
  have hs := ha.sign_cases
  have ht := hb.sign_cases
  have hlt : x < y → compare x y = .lt := fun h => Int.compare_eq_lt.2 h
  have heq : x = y → compare x y = .eq := fun h => Int.compare_eq_eq.2 h
  have hgt : y < x → compare x y = .gt := fun h => Int.compare_eq_gt.2 h
  unfold bigcmp
  split
  · rw [hlt (by omega)]
  · split
    · rw [hgt (by omega)]
    · unfold bigcmpabs at hc
      split at hc
      · rename_i h1 h2 h3
        rw [if_pos h3]
        have := Nat.compare_eq_lt.1 hc.symm
        rcases hs with ⟨h1, h2⟩ | ⟨h1, h2⟩ | ⟨h1, h2⟩
        · rw [h2, hgt (by omega)]; rfl
        · omega
        · rw [h2, hlt (by omega)]; rfl
      · rename_i h3
        rw [if_neg h3]
        split at hc
        · rename_i h4
          rw [if_pos h4]
          have := Nat.compare_eq_gt.1 hc.symm
          rcases hs with ⟨h1, h2⟩ | ⟨h1, h2⟩ | ⟨h1, h2⟩
          · rw [h2, hlt (by omega)]; rfl
          · omega
          · rw [h2, hgt (by omega)]; rfl
        · rename_i h4
          rw [if_neg h4]
          unfold signedorder at hc ⊢
          generalize cmptop a.dig.reverse b.dig.reverse = k at *
          rcases hs with ⟨h1, h2⟩ | ⟨h1, h2⟩ | ⟨h1, h2⟩
          · rw [h2]
            split at hc
            · have := Nat.compare_eq_lt.1 hc.symm
              rw [hgt (by omega), if_neg (by omega), if_neg (by omega)]
            · split at hc
              · have := Nat.compare_eq_eq.1 hc.symm
                rw [heq (by omega), if_neg (by omega), if_pos (by omega)]
              · have := Nat.compare_eq_gt.1 hc.symm
                rw [hlt (by omega), if_pos (by omega)]
          · rw [h2, heq (by omega)]
            simp
          · rw [h2]
            split at hc
            · have := Nat.compare_eq_lt.1 hc.symm
              rw [hlt (by omega), if_pos (by omega)]
            · split at hc
              · have := Nat.compare_eq_eq.1 hc.symm
                rw [heq (by omega), if_neg (by omega), if_pos (by omega)]
              · have := Nat.compare_eq_gt.1 hc.symm
                rw [hgt (by omega), if_neg (by omega), if_neg (by omega)]

/-! ## Shifts -/

theorem B32 : (Base : Nat) = 2 ^ 32 := by norm_num

theorem shlloop_spec {s : Nat} (hs : s < 32) : ∀ (l : List Nat) (c : Nat), Small l → c < 2 ^ s →
    ∃ k, V (shlloop s l c) + Base ^ l.length * k = V l * 2 ^ s + c ∧ Small (shlloop s l c) ∧ (shlloop s l c).length = l.length
  | [], c, _, _ => ⟨c, by simp [shlloop, V_nil], Small.nil, rfl⟩
  | d :: ds, c, hl, hc => by
    obtain ⟨hd, hds⟩ := Small.cons.1 hl
    have hp : 2 ^ s * 2 ^ (32 - s) = Base := by
      rw [← Nat.pow_add, show s + (32 - s) = 32 by omega]
    have hp1 : 2 ^ s ≤ 2 ^ 31 := Nat.pow_le_pow_right (by decide) (by omega)
    have ht : d * 2 ^ s < W64 := by
      have : d * 2 ^ s ≤ Base * 2 ^ 31 := Nat.mul_le_mul (by omega) hp1
      omega
    have e1 : (d <<< s) % W64 = d * 2 ^ s := by rw [Nat.shiftLeft_eq, Nat.mod_eq_of_lt ht]
    have e2 : d * 2 ^ s ||| c = d * 2 ^ s + c := by
      rw [← Nat.shiftLeft_eq]
      exact (Nat.shiftLeft_add_eq_or_of_lt hc d).symm
    have e3 : (d * 2 ^ s) >>> 32 = d * 2 ^ s / Base := by rw [Nat.shiftRight_eq_div_pow]
    have hc' : d * 2 ^ s / Base < 2 ^ s := by
      rw [Nat.div_lt_iff_lt_mul (by decide), Nat.mul_comm]
      exact Nat.mul_lt_mul_of_pos_left hd (by positivity)
    obtain ⟨k, k1, k2, k3⟩ := shlloop_spec hs ds (d * 2 ^ s / Base) hds hc'
    simp only [shlloop, e1, e2, e3]
    refine ⟨k, ?_, Small.cons.2 ⟨Nat.mod_lt _ (by decide), k2⟩, by simp [k3]⟩
    rw [V_cons, V_cons, List.length_cons, Nat.pow_succ]
    have e4 : Base ^ ds.length * Base * k = Base * (Base ^ ds.length * k) := by ring
    have e5 : (d + Base * V ds) * 2 ^ s = d * 2 ^ s + Base * (V ds * 2 ^ s) := by ring
    rw [e4, e5]
    have e6 : (d * 2 ^ s + c) % Base = d * 2 ^ s % Base + c := by
      have h1 : d * 2 ^ s % Base = (d % 2 ^ (32 - s)) * 2 ^ s := by
        rw [← hp, Nat.mul_comm (2 ^ s), Nat.mul_mod_mul_right]
      have h2 : (d % 2 ^ (32 - s)) * 2 ^ s + 2 ^ s ≤ Base := by
        rw [← Nat.succ_mul, ← hp, Nat.mul_comm (2 ^ s)]
        exact Nat.mul_le_mul_right _ (Nat.mod_lt _ (by positivity))
      rw [Nat.add_mod, Nat.mod_eq_of_lt (a := c) (by omega), Nat.mod_eq_of_lt (by omega)]
    rw [e6]
    have := Nat.div_add_mod (d * 2 ^ s) Base
    generalize V ds * 2 ^ s = A at *
    generalize Base ^ ds.length * k = B at *
    generalize V (shlloop s ds (d * 2 ^ s / Base)) = C at *
    omega

theorem V_lt_snoc (l : List Nat) (n : Nat) : V (List.replicate n 0 ++ l ++ [0]) = Base ^ n * V l := by
  rw [V_append, V_append, V_zeros, V_single]
  simp

theorem shl_dig {l : List Nat} (h : Small l) (s : Nat) :
    V (shlloop (s % 32) (List.replicate (s / 32) 0 ++ l ++ [0]) 0) = V l * 2 ^ s ∧ Small (shlloop (s % 32) (List.replicate (s / 32) 0 ++ l ++ [0]) 0) ∧
    (shlloop (s % 32) (List.replicate (s / 32) 0 ++ l ++ [0]) 0).length = s / 32 + l.length + 1 := by
  have hsm : Small (List.replicate (s / 32) 0 ++ l ++ [0]) := Small.append.2 ⟨Small.append.2 ⟨Small.zeros _, h⟩, Small.cons.2 ⟨by decide, Small.nil⟩⟩
  obtain ⟨k, k1, k2, k3⟩ := shlloop_spec (s := s % 32) (Nat.mod_lt _ (by decide)) _ 0 hsm (by positivity)
  have hlen : (List.replicate (s / 32) 0 ++ l ++ [0]).length = s / 32 + l.length + 1 := by
    simp only [List.length_append, List.length_replicate, List.length_cons, List.length_nil]
  rw [hlen] at k1 k3
  refine ⟨?_, k2, k3⟩
  rw [V_lt_snoc] at k1
  have e : Base ^ (s / 32) * V l * 2 ^ (s % 32) = V l * 2 ^ s := by
    have h1 : Base ^ (s / 32) = 2 ^ (32 * (s / 32)) := by rw [Nat.pow_mul, ← B32]
    rw [h1, Nat.mul_comm (2 ^ _) (V l), Nat.mul_assoc, ← Nat.pow_add, Nat.div_add_mod]
  rw [e] at k1
  replace k1 := k1.trans (Nat.add_zero _)
  have hk : k = 0 := by
    rcases Nat.eq_zero_or_pos k with e | hk
    · exact e
    · exfalso
      have h1 : Base ^ (s / 32 + l.length + 1) * 1 ≤ Base ^ (s / 32 + l.length + 1) * k := Nat.mul_le_mul_left _ hk
      have h2 : V l * 2 ^ s < Base ^ (s / 32 + l.length + 1) := by
        have h3 := V_lt h
        have h4 : 2 ^ s ≤ Base ^ (s / 32 + 1) := by
          rw [B32, ← Nat.pow_mul]
          exact Nat.pow_le_pow_right (by decide) (by omega)
        calc V l * 2 ^ s < Base ^ l.length * 2 ^ s := Nat.mul_lt_mul_of_pos_right h3 (by positivity)
          _ ≤ Base ^ l.length * Base ^ (s / 32 + 1) := Nat.mul_le_mul_left _ h4
          _ = Base ^ (s / 32 + l.length + 1) := by rw [← Nat.pow_add]; congr 1; omega
      rw [Nat.mul_one] at h1
      have h5 : Base ^ (s / 32 + l.length + 1) * k ≤ V l * 2 ^ s := by
        rw [← k1]
        exact Nat.le_add_left _ _
      exact absurd h2 (Nat.not_lt.2 (Nat.le_trans h1 h5))
  rw [hk, Nat.mul_zero] at k1
  exact k1

theorem bigshli_rep {a : Big} {x : Int} (h : Rep a x) (s : Nat) : Rep (bigshli a s) (x * 2 ^ s) := by
  unfold bigshli
  split
  · rename_i h0
    have hx := h.sign_zero.1 h0
    rw [hx, Int.zero_mul]
    rwa [hx] at h
  · rename_i h0
    obtain ⟨h1, h2, _⟩ := shl_dig h.small s
    refine trim_rep' h2 ?_ ?_
    · have := h.sign_cases; omega
    · rw [h1, ← h.val]
      push_cast
      rw [h.val]
      rw [← h.val]
      ring

theorem shrloop_spec {s : Nat} (hs : s < 32) : ∀ (l : List Nat), Small l →
    V (shrloop s l).1 = V l / 2 ^ s ∧ Small (shrloop s l).1 ∧ (shrloop s l).1.length = l.length ∧ (shrloop s l).2 = l.headD 0 * 2 ^ (32 - s)
  | [], _ => by simp [shrloop, V_nil, Small.nil]
  | d :: ds, hl => by
    obtain ⟨hd, hds⟩ := Small.cons.1 hl
    obtain ⟨k1, k2, k3, k4⟩ := shrloop_spec hs ds hds
    have hp : 2 ^ (32 - s) * 2 ^ s = Base := by
      rw [← Nat.pow_add, show 32 - s + s = 32 by omega]
    have hdd : d / 2 ^ s < 2 ^ (32 - s) := by
      rw [Nat.div_lt_iff_lt_mul (by positivity), hp]
      exact hd
    simp only [shrloop, k4]
    refine ⟨?_, Small.cons.2 ⟨Nat.mod_lt _ (by decide), k2⟩, by simp [k3], ?_⟩
    · rw [V_cons, V_cons, k1, Nat.shiftRight_eq_div_pow]
      have e1 : ds.headD 0 * 2 ^ (32 - s) ||| d / 2 ^ s = ds.headD 0 * 2 ^ (32 - s) + d / 2 ^ s := by
        rw [← Nat.shiftLeft_eq]
        exact (Nat.shiftLeft_add_eq_or_of_lt hdd _).symm
      rw [e1]
      have e2 : (d + Base * V ds) / 2 ^ s = d / 2 ^ s + 2 ^ (32 - s) * V ds := by
        rw [← hp, show 2 ^ (32 - s) * 2 ^ s * V ds = (2 ^ (32 - s) * V ds) * 2 ^ s by ring]
        exact Nat.add_mul_div_right _ _ (by positivity)
      rw [e2]
      have e3 : ds.headD 0 % 2 ^ s = V ds % 2 ^ s := by
        cases ds with
        | nil => rfl
        | cons e es =>
          rw [V_cons, ← hp, show 2 ^ (32 - s) * 2 ^ s * V es = 2 ^ s * (2 ^ (32 - s) * V es) by ring, Nat.add_mul_mod_self_left]
          rfl
      have e4 : (ds.headD 0 * 2 ^ (32 - s) + d / 2 ^ s) % Base = (V ds % 2 ^ s) * 2 ^ (32 - s) + d / 2 ^ s := by
        have h1 : ds.headD 0 * 2 ^ (32 - s) % Base = (V ds % 2 ^ s) * 2 ^ (32 - s) := by
          rw [← hp, Nat.mul_comm (2 ^ (32 - s)) (2 ^ s), Nat.mul_mod_mul_right, e3]
        have h2 : (V ds % 2 ^ s) * 2 ^ (32 - s) + 2 ^ (32 - s) ≤ Base := by
          rw [← Nat.succ_mul, ← hp, Nat.mul_comm (2 ^ (32 - s)) (2 ^ s)]
          exact Nat.mul_le_mul_right _ (Nat.mod_lt _ (by positivity))
        rw [Nat.add_mod, h1, Nat.mod_eq_of_lt (a := d / 2 ^ s) (by omega), Nat.mod_eq_of_lt (by omega)]
      rw [e4]
      have e5 : Base * (V ds / 2 ^ s) = 2 ^ (32 - s) * (2 ^ s * (V ds / 2 ^ s)) := by rw [← hp]; ring
      rw [e5]
      have e6 := Nat.div_add_mod (V ds) (2 ^ s)
      have e7 : 2 ^ (32 - s) * V ds = 2 ^ (32 - s) * (2 ^ s * (V ds / 2 ^ s)) + (V ds % 2 ^ s) * 2 ^ (32 - s) := by
        conv => lhs; rw [← e6]
        ring
      omega
    · rw [Nat.shiftLeft_eq, Nat.mod_eq_of_lt]
      · rfl
      · have h1 : 2 ^ (32 - s) ≤ 2 ^ 32 := Nat.pow_le_pow_right (by decide) (by omega)
        have : d * 2 ^ (32 - s) < Base * 2 ^ 32 := Nat.mul_lt_mul_of_lt_of_le hd h1 (by decide)
        omega

theorem V_drop {l : List Nat} (h : Small l) (n : Nat) : V (l.drop n) = V l / Base ^ n := by
  unfold V
  exact (Nat.ofDigits_div_pow_eq_ofDigits_drop n (by decide) l h).symm

theorem shri_gen {l : List Nat} (h : Small l) {g : Int} (hg : g = 1 ∨ g = -1 ∨ V l = 0) (s : Nat) : Rep (bigshri ⟨l, g⟩ s) (g * (V l / 2 ^ s : Nat)) := by
  have e0 : V l / 2 ^ s = V l / Base ^ (s / 32) / 2 ^ (s % 32) := by
    rw [Nat.div_div_eq_div_mul]
    congr 1
    rw [B32, ← Nat.pow_mul, ← Nat.pow_add, Nat.div_add_mod]
  unfold bigshri
  split
  · rename_i hlt
    simp only at hlt
    have : V l / Base ^ (s / 32) = 0 := by
      refine Nat.div_eq_of_lt (Nat.lt_of_lt_of_le (V_lt h) ?_)
      exact Nat.pow_le_pow_right (by decide) (by omega)
    rw [e0, this, Nat.zero_div]
    simpa [V_nil] using trim_rep Small.nil (s := g) (.inr (.inr V_nil))
  · simp only
    have hd : Small (l.drop (s / 32)) := fun d hd => h d (List.mem_of_mem_drop hd)
    obtain ⟨h1, h2, _, _⟩ := shrloop_spec (s := s % 32) (Nat.mod_lt _ (by decide)) _ hd
    rw [V_drop h, ← e0] at h1
    refine trim_rep' h2 ?_ (by rw [h1])
    rw [h1]
    rcases hg with k | k | k
    · exact .inl k
    · exact .inr (.inl k)
    · rw [k]; simp

theorem bigshri_rep {a : Big} {x : Int} (h : Rep a x) (s : Nat) : Rep (bigshri a s) (x.tdiv (2 ^ s)) := by
  have := shri_gen h.small (g := a.sign) (by rw [h.V]; have := h.sign_cases; omega) s
  rw [h.V, h.2] at this
  have e : x.tdiv (2 ^ s) = x.sign * (x.natAbs / 2 ^ s : Nat) := by
    rcases Int.le_total 0 x with hx | hx
    · obtain ⟨n, rfl⟩ := Int.eq_ofNat_of_zero_le hx
      rcases Nat.eq_zero_or_pos n with rfl | hn
      · simp
      · rw [Int.sign_eq_one_of_pos (by exact_mod_cast hn), Int.one_mul]
        rfl
    · obtain ⟨n, hn⟩ := Int.eq_ofNat_of_zero_le (a := -x) (by omega)
      have hx' : x = -(n : Int) := by omega
      subst hx'
      rcases Nat.eq_zero_or_pos n with rfl | hn
      · simp
      · rw [Int.neg_tdiv, Int.sign_neg, Int.sign_eq_one_of_pos (by exact_mod_cast hn), Int.natAbs_neg]
        simp
  rw [e]
  have : (⟨a.dig, x.sign⟩ : Big) = a := by rw [← h.2]
  rw [← this]
  assumption

/-! ## The schoolbook product -/

theorem mulrow_spec {bj : Nat} (hb : bj < Base) : ∀ (a : List Nat) (c : Nat) (w z : List Nat), Small a → Small w → c < Base → w.length = a.length →
    ∃ r, mulrow bj a c (w ++ 0 :: z) = .ok (r ++ z) ∧ V r = V w + bj * V a + c ∧ Small r ∧ r.length = a.length + 1
  | [], c, w, z, _, _, hc, hl => by
    have : w = [] := List.length_eq_zero_iff.1 (by simpa using hl)
    subst this
    refine ⟨[c], ?_, ?_, Small.cons.2 ⟨hc, Small.nil⟩, rfl⟩
    · simp [mulrow, Nat.mod_eq_of_lt hc]
    · rw [V_single, V_nil]; omega
  | x :: xs, c, [], z, _, _, _, hl => by simp at hl
  | x :: xs, c, y :: ys, z, ha, hw, hc, hl => by
    obtain ⟨hx, hxs⟩ := Small.cons.1 ha
    obtain ⟨hy, hys⟩ := Small.cons.1 hw
    have hxb : x * bj ≤ (Base - 1) * (Base - 1) := Nat.mul_le_mul (by omega) (by omega)
    have ht : x * bj + y + c < W64 := by omega
    have hc' : (x * bj + y + c) >>> 32 < Base := by
      rw [Nat.shiftRight_eq_div_pow]
      omega
    obtain ⟨r, k1, k2, k3, k4⟩ := mulrow_spec hb xs ((x * bj + y + c) >>> 32) ys z hxs hys hc' (by simpa using hl)
    refine ⟨(x * bj + y + c) % Base :: r, ?_, ?_, Small.cons.2 ⟨Nat.mod_lt _ (by decide), k3⟩, by simp [k4]⟩
    · simp only [List.cons_append, mulrow, Nat.mod_eq_of_lt ht, k1, Res.bind_ok]
    · rw [V_cons, k2, V_cons, V_cons, Nat.shiftRight_eq_div_pow]
      have e : bj * (x + Base * V xs) = x * bj + Base * (bj * V xs) := by ring
      rw [e]
      generalize bj * V xs = A at *
      generalize x * bj = B at *
      omega

theorem mulrows_spec {a : List Nat} (ha : Small a) : ∀ (b w : List Nat), Small b → Small w → w.length = a.length →
    ∃ r, mulrows a b (w ++ List.replicate b.length 0) = .ok r ∧ V r = V w + V a * V b ∧ Small r
  | [], w, _, hw, _ => ⟨w, by simp [mulrows], by rw [V_nil]; omega, hw⟩
  | b :: bs, w, hb, hw, hl => by
    obtain ⟨hb0, hbs⟩ := Small.cons.1 hb
    obtain ⟨r, k1, k2, k3, k4⟩ := mulrow_spec hb0 a 0 w (List.replicate bs.length 0) ha hw (by decide) hl
    cases r with
    | nil => simp at k4
    | cons d ds =>
      obtain ⟨hd, hds⟩ := Small.cons.1 k3
      obtain ⟨r', j1, j2, j3⟩ := mulrows_spec ha bs ds hbs hds (by simpa using k4)
      refine ⟨d :: r', ?_, ?_, Small.cons.2 ⟨hd, j3⟩⟩
      · simp only [mulrows, List.length_cons, List.replicate_succ, k1, Res.bind_ok, List.cons_append, j1]
      · rw [V_cons] at k2
        rw [V_cons, V_cons, j2]
        have e : V a * (b + Base * V bs) = b * V a + Base * (V a * V bs) := by ring
        rw [e]
        generalize V a * V bs = A at *
        generalize b * V a = B at *
        omega

theorem smallmul_spec {a b : Big} (ha : Small a.dig) (hb : Small b.dig) :
    ∃ w, smallmul a b = .ok (trim ⟨w, a.sign⟩) ∧ V w = V a.dig * V b.dig ∧ Small w := by
  obtain ⟨r, h1, h2, h3⟩ := mulrows_spec ha b.dig (List.replicate a.dig.length 0) hb (Small.zeros _) (by simp)
  refine ⟨r, ?_, ?_, h3⟩
  · unfold smallmul
    rw [← List.replicate_append_replicate, h1, Res.bind_ok]
  · rw [h2, V_zeros, Nat.zero_add]

end Verif.Bigint
