import Verif.Big.Text

/-!
# Bits and powers
-/

namespace Verif.Bigint

/-! ## Machine integers as operands -/

theorem bigdigit_of {n : Nat} (hn : n < W64) {z : Int} (hz : z.natAbs = n) (hs : n ≠ 0 → s = z.sign) :
    Rep (if n = 0 then ⟨[], 0⟩ else ⟨if n < Base then [n] else [n % Base, (n >>> 32) % Base], s⟩) z := by
  split
  · rename_i h
    have : z = 0 := by omega
    rw [this]
    exact rep_zero
  · rename_i h
    refine ⟨?_, hs h⟩
    show (if n < Base then [n] else [n % Base, (n >>> 32) % Base]) = _
    rw [hz, Nat.shiftRight_eq_div_pow]
    split
    · rename_i hlt
      exact (Nat.digits_of_lt Base n h hlt).symm
    · rename_i hge
      rw [Nat.digits_def' (by decide) (by omega), Nat.digits_of_lt Base _ (by omega) (by omega)]
      congr 2
      omega

theorem bigdigit_unsigned {w : Nat} (hw : w ≤ 64) (v : BitVec w) : Rep (bigdigit false v) v.toNat := by
  have hlt : v.toNat < W64 := Nat.lt_of_lt_of_le v.isLt (Nat.pow_le_pow_right (n := 2) (by decide) hw)
  have e1 : (v.setWidth 64).toNat = v.toNat := by rw [BitVec.toNat_setWidth]; exact Nat.mod_eq_of_lt hlt
  unfold bigdigit
  simp only [Bool.false_and, Bool.false_eq_true, if_false, e1]
  exact bigdigit_of hlt rfl fun h => (Int.sign_eq_one_of_pos (by omega)).symm

theorem bigdigit_signed {w : Nat} (hw : w ≤ 64) (v : BitVec w) : Rep (bigdigit true v) v.toInt := by
  have hm := BitVec.msb_eq_toInt (x := v)
  have e2 : (v.signExtend 64).toInt = v.toInt := BitVec.toInt_signExtend_of_le hw
  have e3 := BitVec.toInt_eq_toNat_cond (v.signExtend 64)
  rw [e2] at e3
  have hl := (v.signExtend 64).isLt
  unfold bigdigit
  simp only [Bool.true_and, if_true, hm]
  by_cases hneg : v.toInt < 0
  · simp only [hneg, decide_true, if_true]
    have e4 : (-v.signExtend 64).toNat = v.toInt.natAbs := by
      rw [BitVec.toNat_neg]
      split at e3 <;> omega
    rw [e4]
    exact bigdigit_of (by rw [← e4]; exact (-v.signExtend 64).isLt) rfl fun _ => (Int.sign_eq_neg_one_of_neg hneg).symm
  · simp only [hneg, decide_false, Bool.false_eq_true, if_false]
    have e4 : (v.signExtend 64).toNat = v.toInt.natAbs := by
      split at e3 <;> omega
    rw [e4]
    exact bigdigit_of (by rw [← e4]; exact hl) rfl fun h => (Int.sign_eq_one_of_pos (by omega)).symm

/-! ## The number of bits -/

theorem and_pow_low {t n : Nat} (h : t < 2 ^ n) : t &&& 2 ^ n = 0 := by
  apply Nat.eq_of_testBit_eq
  intro i
  rw [Nat.testBit_and, Nat.testBit_two_pow, Nat.zero_testBit]
  by_cases e : n = i
  · subst e
    rw [Nat.testBit_lt_two_pow h]
    rfl
  · simp [e]

theorem and_pow_high {t n : Nat} (h : 2 ^ n ≤ t) (h2 : t < 2 ^ (n + 1)) : t &&& 2 ^ n ≠ 0 := by
  intro e
  have h3 := congrArg (fun x => x.testBit n) e
  simp only [Nat.testBit_and, Nat.zero_testBit, Nat.testBit_two_pow_self, Bool.and_true] at h3
  have h4 : t.testBit n = true := by
    rw [Nat.testBit_eq_decide_div_mod_eq]
    have : t / 2 ^ n = 1 := by
      rw [Nat.pow_succ] at h2
      exact Nat.div_eq_of_lt_le (by omega) (by omega)
    rw [this]
    rfl
  rw [h4] at h3
  cases h3

theorem bitloop_spec : ∀ (n top len : Nat), 0 < top → top < 2 ^ n → n ≤ len →
    ∃ k, bitloop top n len = .ok (len - n + k) ∧ 1 ≤ k ∧ 2 ^ (k - 1) ≤ top ∧ top < 2 ^ k
  | 0, top, len, h0, h, _ => by simp at h; omega
  | n + 1, top, len, h0, h, hl => by
    rw [bitloop]
    by_cases hc : top < 2 ^ n
    · rw [if_pos (and_pow_low hc)]
      obtain ⟨k, h1, h2⟩ := bitloop_spec n top (len - 1) h0 hc (by omega)
      refine ⟨k, ?_, h2⟩
      rw [h1]
      congr 1
      omega
    · rw [if_neg (and_pow_high (by omega) h)]
      exact ⟨n + 1, by congr 1; omega, by omega, by rw [Nat.add_sub_cancel]; omega, h⟩

theorem bigbitcount_gen {a : Big} {z : Int} (h : Rep a z) : ∃ r, bigbitcount a = .ok r ∧ z.natAbs < 2 ^ r ∧ (r = 0 ∨ 2 ^ (r - 1) ≤ z.natAbs) := by
  unfold bigbitcount
  rcases List.eq_nil_or_concat a.dig with e | ⟨k, d, e⟩
  · rw [e]
    have : z = 0 := h.nil_iff.1 e
    exact ⟨0, rfl, by rw [this]; decide, .inl rfl⟩
  · rw [List.concat_eq_append] at e
    rw [e, List.getLast?_concat]
    have hd : d < Base := h.small d (by rw [e]; simp)
    have hd0 : d ≠ 0 := by
      have := h.tight (by rw [e]; simp)
      simpa [e] using this
    obtain ⟨r, h1, h2, h3, h4⟩ := bitloop_spec 32 d (32 * (k ++ [d]).length) (by omega) hd (by rw [List.length_append, List.length_singleton]; omega)
    refine ⟨_, h1, ?_⟩
    have hsk : Small k := fun x hx => h.small x (by rw [e]; simp [hx])
    have hv : z.natAbs = V k + Base ^ k.length * d := by rw [← h.V, e, V_append, V_single]
    have hlt := V_lt hsk
    have hB : Base ^ k.length = 2 ^ (32 * k.length) := by rw [Nat.pow_mul, ← B32]
    rw [hB] at hv hlt
    have hlen : 32 * (k ++ [d]).length - 32 + r = 32 * k.length + r := by rw [List.length_append, List.length_singleton]; omega
    rw [hlen, hv]
    have hp : 0 < 2 ^ (32 * k.length) := by positivity
    constructor
    · calc V k + 2 ^ (32 * k.length) * d < 2 ^ (32 * k.length) + 2 ^ (32 * k.length) * d := by omega
        _ = 2 ^ (32 * k.length) * (d + 1) := by ring
        _ ≤ 2 ^ (32 * k.length) * 2 ^ r := Nat.mul_le_mul_left _ h4
        _ = 2 ^ (32 * k.length + r) := by rw [Nat.pow_add]
    · right
      rw [show 32 * k.length + r - 1 = 32 * k.length + (r - 1) by omega, Nat.pow_add]
      have := Nat.mul_le_mul_left (2 ^ (32 * k.length)) h3
      omega

/-! ## And, or -/

theorem split_bits {a b A C : Nat} (op : Nat → Nat → Nat) (f : Bool → Bool → Bool) (hf : ∀ x y i, (op x y).testBit i = f (x.testBit i) (y.testBit i)) (h0 : f false false = false)
    (ha : a < Base) (hb : b < Base) : op (a + Base * A) (b + Base * C) = op a b + Base * op A C := by
  have hlt : op a b < 2 ^ 32 := by
    apply Nat.lt_pow_two_of_testBit
    intro i hi
    rw [hf, Nat.testBit_lt_two_pow (Nat.lt_of_lt_of_le (B32 ▸ ha) (Nat.pow_le_pow_right (by decide) hi)),
      Nat.testBit_lt_two_pow (Nat.lt_of_lt_of_le (B32 ▸ hb) (Nat.pow_le_pow_right (by decide) hi)), h0]
  have e : ∀ x X : Nat, x + Base * X = 2 ^ 32 * X + x := by intro x X; rw [B32]; omega
  apply Nat.eq_of_testBit_eq
  intro i
  rw [hf, e, e, e, Nat.testBit_two_pow_mul_add _ (B32 ▸ ha), Nat.testBit_two_pow_mul_add _ (B32 ▸ hb), Nat.testBit_two_pow_mul_add _ hlt]
  split <;> rw [hf]

theorem V_zipWith (op : Nat → Nat → Nat) (f : Bool → Bool → Bool) (hf : ∀ x y i, (op x y).testBit i = f (x.testBit i) (y.testBit i)) (h0 : f false false = false) :
    ∀ (a b : List Nat), a.length = b.length → Small a → Small b → V (List.zipWith op a b) = op (V a) (V b) ∧ Small (List.zipWith op a b)
  | [], [], _, _, _ => by
    constructor
    · rw [List.zipWith_nil_left, V_nil]
      apply Nat.eq_of_testBit_eq
      intro i
      rw [hf, Nat.zero_testBit, h0]
    · simpa using Small.nil
  | [], _ :: _, h, _, _ => by simp at h
  | _ :: _, [], h, _, _ => by simp at h
  | x :: xs, y :: ys, hl, ha, hb => by
    obtain ⟨hx, hxs⟩ := Small.cons.1 ha
    obtain ⟨hy, hys⟩ := Small.cons.1 hb
    obtain ⟨h1, h2⟩ := V_zipWith op f hf h0 xs ys (by simpa using hl) hxs hys
    rw [List.zipWith_cons_cons, V_cons, V_cons, V_cons, h1, split_bits op f hf h0 hx hy]
    refine ⟨rfl, Small.cons.2 ⟨?_, h2⟩⟩
    have : op x y < 2 ^ 32 := by
      apply Nat.lt_pow_two_of_testBit
      intro i hi
      rw [hf, Nat.testBit_lt_two_pow (Nat.lt_of_lt_of_le (B32 ▸ hx) (Nat.pow_le_pow_right (by decide) hi)),
        Nat.testBit_lt_two_pow (Nat.lt_of_lt_of_le (B32 ▸ hy) (Nat.pow_le_pow_right (by decide) hi)), h0]
    rw [B32]
    exact this

theorem bigand_gen {a b : Big} {x y : Int} (ha : Rep a x) (hb : Rep b y) : Rep (bigand a b).1 (x.sign * (x.natAbs &&& y.natAbs : Nat)) := by
  unfold bigand
  simp only
  have hl : (zgrow b.dig a.dig.length).length = max a.dig.length b.dig.length := by simp [zgrow]; omega
  have hl2 : (zgrow a.dig (zgrow b.dig a.dig.length).length).length = max a.dig.length b.dig.length := by rw [hl]; simp [zgrow]
  obtain ⟨h1, h2⟩ := V_zipWith (· &&& ·) (· && ·) (fun x y i => Nat.testBit_and x y i) rfl (zgrow a.dig (zgrow b.dig a.dig.length).length) (zgrow b.dig a.dig.length)
    (by rw [hl2, hl]) (zgrow_small ha.small) (zgrow_small hb.small)
  simp only [zgrow_V, ha.V, hb.V] at h1
  refine trim_rep' h2 ?_ (by rw [h1, ha.2])
  rcases ha.sign_cases with ⟨p, q⟩ | ⟨p, q⟩ | ⟨p, q⟩
  · exact .inr (.inl q)
  · right; right; rw [h1, p]; simp
  · exact .inl q

theorem bigor_gen {a b : Big} {x y : Int} (ha : Rep a x) (hb : Rep b y) (hx : x ≠ 0) : Rep (bigor a b) (x.sign * (x.natAbs ||| y.natAbs : Nat)) := by
  unfold bigor
  simp only
  obtain ⟨X, hX⟩ : ∃ X, zgrow a.dig (max a.dig.length b.dig.length) = X := ⟨_, rfl⟩
  have hlX : X.length = max a.dig.length b.dig.length := by rw [← hX]; exact zgrow_len (by omega)
  have hsX : Small X := by rw [← hX]; exact zgrow_small ha.small
  have hvX : V X = x.natAbs := by rw [← hX, zgrow_V, ha.V]
  rw [hX]
  obtain ⟨h1, h2⟩ := V_zipWith (· ||| ·) (· || ·) (fun x y i => Nat.testBit_or x y i) rfl X (zgrow b.dig X.length)
    (by rw [zgrow_len (by omega)]) hsX (zgrow_small hb.small)
  have e : List.zipWith (· ||| ·) X (zgrow b.dig X.length) = List.zipWith (· ||| ·) X b.dig ++ X.drop b.dig.length := by
    unfold zgrow
    conv => lhs; rw [← List.take_append_drop b.dig.length X]
    have ht : (X.take b.dig.length).length = b.dig.length := by rw [List.length_take]; omega
    rw [List.zipWith_append ht, List.take_append_drop]
    congr 1
    · have : List.zipWith (· ||| ·) X b.dig = List.zipWith (· ||| ·) (X.take b.dig.length) b.dig := by
        conv => lhs; rw [← List.take_append_drop b.dig.length X, ← List.append_nil b.dig, List.zipWith_append (by rw [List.append_nil]; exact ht)]
        simp
      exact this.symm
    · have hn : X.length - b.dig.length = (X.drop b.dig.length).length := by rw [List.length_drop]
      rw [hn]
      generalize X.drop b.dig.length = l
      induction l with
      | nil => rfl
      | cons d l ih => rw [List.length_cons, List.replicate_succ, List.zipWith_cons_cons, ih, Nat.or_zero]
  rw [e] at h1 h2
  simp only [zgrow_V, hvX, hb.V] at h1
  refine trim_rep' h2 ?_ (by rw [h1, ha.2])
  rcases ha.sign_cases with ⟨p, q⟩ | ⟨p, q⟩ | ⟨p, q⟩
  · exact .inr (.inl q)
  · exact absurd p hx
  · exact .inl q

/-! ## Powers -/

/-- The product of two numbers of at most 64 digits. -/
theorem bigmul_64 {a b : Big} {x y : Int} (ha : Rep a x) (hb : Rep b y) (hx : x.natAbs < 2 ^ 2048) (hy : y.natAbs < 2 ^ 2048) (f : Nat) :
    ∃ r, bigmul (f + 2) a b = .ok r ∧ Rep r (x * y) := by
  have e : (2 : Nat) ^ 2048 = Base ^ 64 := by rw [B32, ← Nat.pow_mul]
  have la : a.dig.length ≤ 64 := len_le ha.tight (by rw [ha.V, ← e]; exact hx)
  have lb : b.dig.length ≤ 64 := len_le hb.tight (by rw [hb.V, ← e]; exact hy)
  by_cases hs : a.dig.length < Kmin ∨ b.dig.length < Kmin
  · exact bigmul_small ha hb hs (f + 1)
  · unfold Kmin at hs
    have h1 : a.dig.length = 64 := by omega
    have h2 : b.dig.length = 64 := by omega
    exact bigmul_halved ha hb ⟨by unfold Kmin; omega, by unfold Kmin; omega⟩ (.inl ⟨by omega, by omega, .inr (by rw [h1, h2])⟩) f

theorem powloop_spec {m : Nat} (hm0 : 0 < m) (hm : m < 2 ^ 2048) (fuel : Nat) : ∀ (f r b e : Nat), e < 2 ^ f → r < 2 ^ 2048 → b < 2 ^ 2048 →
    powloop (fuel + 2) (ofInt m) (f + 1) (ofInt r) (ofInt b) (ofInt e) = .ok (ofInt ((if e = 0 then r else r * b ^ e % m : Nat) : Int), ofInt 0) := by
  have divm : ∀ (x : Big) (n : Nat), Rep x n → ∃ q, bigdivmod (fuel + 2) x (ofInt m) = .ok (q, ofInt ((n % m : Nat) : Int)) := by
    intro x n hx
    obtain ⟨q, r, h1, h2, h3⟩ := bigdivmod_exact hx (rep_ofInt (m : Int)) (by omega) (f := fuel + 2) (by omega)
    have e1 : (n : Int).natAbs = n := rfl
    have e2 : (m : Int).natAbs = m := rfl
    have e3 : (n : Int).tmod m = ((n % m : Nat) : Int) := rfl
    rw [e1, e2, e3, ite_self] at h3
    exact ⟨q, by rw [h1, rep_iff.1 h3]⟩
  have mulm : ∀ x y : Nat, x < 2 ^ 2048 → y < 2 ^ 2048 → ∃ p, bigmul (fuel + 2) (ofInt x) (ofInt y) = .ok p ∧ Rep p ((x * y : Nat) : Int) := by
    intro x y hx hy
    obtain ⟨p, h1, h2⟩ := bigmul_64 (rep_ofInt (x : Int)) (rep_ofInt (y : Int)) hx hy fuel
    exact ⟨p, h1, by push_cast; exact h2⟩
  have modlt : ∀ n, n % m < 2 ^ 2048 := fun n => Nat.lt_trans (Nat.mod_lt n hm0) hm
  have shr : ∀ e : Nat, bigshri (ofInt (e : Int)) 1 = ofInt ((e / 2 : Nat) : Int) := by
    intro e
    have := bigshri_rep (rep_ofInt (e : Int)) 1
    rw [rep_iff.1 this]
    rfl
  intro f
  induction f with
  | zero =>
    intro r b e he hr hb
    have : e = 0 := by simpa using he
    subst this
    rfl
  | succ f ih =>
    intro r b e he hr hb
    by_cases h0 : e = 0
    · subst h0
      rfl
    · have hdig : ∃ ds, (ofInt (e : Int)).dig = e % Base :: ds := by
        exact ⟨Nat.digits Base (e / Base), (Nat.digits_def' (b := Base) (n := e) (by decide) (by omega) : Nat.digits Base e = _)⟩
      obtain ⟨ds, hds⟩ := hdig
      obtain ⟨p2, m1, m2⟩ := mulm b b hb hb
      obtain ⟨q2, d2⟩ := divm _ _ m2
      have hpar : (e % Base) % 2 = e % 2 := by omega
      have key : ∀ r', r' < 2 ^ 2048 → (if e / 2 = 0 then r' else r' * (b * b % m) ^ (e / 2) % m) = (if e / 2 = 0 then r' else r' * b ^ (2 * (e / 2)) % m) := by
        intro r' _
        split
        · rfl
        · rw [Nat.pow_mul, Nat.pow_two, Nat.mul_mod, ← Nat.pow_mod, ← Nat.mul_mod]
      rw [powloop]
      by_cases hodd : e % 2 = 0
      · have hst : (match (ofInt (e : Int)).dig with
            | [] => Res.ok (ofInt (r : Int), ofInt (e : Int))
            | e_1 :: _ => (do
              let r ← if e_1 % 2 ≠ 0 then (do
                  let x ← bigmul (fuel + 2) (ofInt (r : Int)) (ofInt (b : Int))
                  let y ← bigdivmod (fuel + 2) x (ofInt (m : Int))
                  .ok y.2) else .ok (ofInt (r : Int))
              let x ← bigmul (fuel + 2) (ofInt (b : Int)) (ofInt (b : Int))
              let y ← bigdivmod (fuel + 2) x (ofInt (m : Int))
              powloop (fuel + 2) (ofInt (m : Int)) (f + 1) r y.2 (bigshri (ofInt (e : Int)) 1))) =
            powloop (fuel + 2) (ofInt (m : Int)) (f + 1) (ofInt (r : Int)) (ofInt ((b * b % m : Nat) : Int)) (ofInt ((e / 2 : Nat) : Int)) := by
          rw [hds]
          simp only [hpar, hodd, ne_eq, not_true_eq_false, if_false, Res.bind_ok, m1, d2, shr]
        refine Eq.trans hst ?_
        rw [ih r _ (e / 2) (by rw [Nat.pow_succ] at he; omega) hr (modlt _), key r hr, if_neg (by omega), if_neg h0, show 2 * (e / 2) = e by omega]
      · obtain ⟨p1, n1, n2⟩ := mulm r b hr hb
        obtain ⟨q1, d1⟩ := divm _ _ n2
        have hst : (match (ofInt (e : Int)).dig with
            | [] => Res.ok (ofInt (r : Int), ofInt (e : Int))
            | e_1 :: _ => (do
              let r ← if e_1 % 2 ≠ 0 then (do
                  let x ← bigmul (fuel + 2) (ofInt (r : Int)) (ofInt (b : Int))
                  let y ← bigdivmod (fuel + 2) x (ofInt (m : Int))
                  .ok y.2) else .ok (ofInt (r : Int))
              let x ← bigmul (fuel + 2) (ofInt (b : Int)) (ofInt (b : Int))
              let y ← bigdivmod (fuel + 2) x (ofInt (m : Int))
              powloop (fuel + 2) (ofInt (m : Int)) (f + 1) r y.2 (bigshri (ofInt (e : Int)) 1))) =
            powloop (fuel + 2) (ofInt (m : Int)) (f + 1) (ofInt ((r * b % m : Nat) : Int)) (ofInt ((b * b % m : Nat) : Int)) (ofInt ((e / 2 : Nat) : Int)) := by
          rw [hds]
          simp only [hpar, hodd, ne_eq, not_false_eq_true, if_true, Res.bind_ok, n1, d1, m1, d2, shr]
        refine Eq.trans hst ?_
        rw [ih (r * b % m) _ (e / 2) (by rw [Nat.pow_succ] at he; omega) (modlt _) (modlt _), key _ (modlt _), if_neg h0]
        congr 3
        by_cases h2 : e / 2 = 0
        · rw [if_pos h2, show e = 1 by omega, Nat.pow_one]
        · rw [if_neg h2, Nat.mod_mul_mod, Nat.mul_assoc, ← Nat.pow_succ', show (2 * (e / 2)).succ = e by omega]

end Verif.Bigint
