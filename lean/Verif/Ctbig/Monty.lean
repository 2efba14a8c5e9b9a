import Verif.Ctbig.Growmod

/-!
# Montgomery multiplication and powers

Helper lemmas for C88.
-/

namespace Verif.Ctbig

theorem newton {x y e : W} (h : x * y = 1 - e) : x * (y * (2 - y * x)) = 1 - e * e := by
  have : x * (y * (2 - y * x)) = (x * y) * (2 - x * y) := by grind
  rw [this, h]
  grind

theorem even_pow {x : W} (h : x.toNat % 2 = 1) : (1 - x) ^ 32 = 0 := by
  have h2 : (1 - x).toNat % 2 = 0 := by
    rw [BitVec.toNat_sub]
    have := x.isLt
    have : (1 : W).toNat = 1 := rfl
    omega
  obtain ⟨z, hz⟩ : ∃ z : W, 1 - x = 2 * z := by
    refine ⟨BitVec.ofNat 32 ((1 - x).toNat / 2), ?_⟩
    apply BitVec.eq_of_toNat_eq
    rw [BitVec.toNat_mul, BitVec.toNat_ofNat, show (2 : W).toNat = 2 from rfl]
    have := (1 - x).isLt
    omega
  rw [hz]
  have e1 : ∀ z : W, (2 * z) ^ 32 = (2 ^ 32 : W) * z ^ 32 := by intro z; grind
  rw [e1, show (2 ^ 32 : W) = 0 by decide]
  simp

theorem ninv_ok {x : W} (h : x.toNat % 2 = 1) : x * ninv32 x = -1 := by
  have hand : x &&& 1 = 1 := by
    apply BitVec.eq_of_toNat_eq
    rw [BitVec.toNat_and, show (1 : W).toNat = 2 ^ 1 - 1 from rfl, Nat.and_two_pow_sub_one_eq_mod]
    omega
  have h0 : x * (2 - x) = 1 - (1 - x) * (1 - x) := by grind
  have h1 := newton h0
  have h2 := newton h1
  have h3 := newton h2
  have h4 := newton h3
  unfold ninv32
  dsimp only
  rw [hand, mux1]
  generalize (2 - x) * (2 - (2 - x) * x) = y1 at *
  generalize y1 * (2 - y1 * x) = y2 at *
  generalize y2 * (2 - y2 * x) = y3 at *
  generalize y3 * (2 - y3 * x) = y4 at *
  have hz := even_pow h
  have e : x * y4 = 1 := by
    rw [h4]
    generalize 1 - x = t at *
    have : t * t * (t * t) * (t * t * (t * t)) * (t * t * (t * t) * (t * t * (t * t))) *
      (t * t * (t * t) * (t * t * (t * t)) * (t * t * (t * t) * (t * t * (t * t)))) = t ^ 32 := by grind
    grind
  grind

theorem muladd_nat (a b k : W) : (muladd a b k).toNat = a.toNat * b.toNat + k.toNat := by
  have ha := a.isLt
  have hb := b.isLt
  have hk := k.isLt
  have hab : a.toNat * b.toNat ≤ (2 ^ 32 - 1) * (2 ^ 32 - 1) := Nat.mul_le_mul (by omega) (by omega)
  unfold muladd
  rw [BitVec.toNat_add, BitVec.toNat_mul, w64, w64, w64]
  omega

theorem montyRow_ok (xu f : W) : ∀ (ys rs ms : List W) (r1 r2 : BitVec 64), ys.length = rs.length → ms.length = rs.length →
    r1.toNat < 2 ^ 32 → r2.toNat < 2 ^ 32 →
    (montyRow xu f ys rs ms r1 r2).1.length = rs.length ∧
    val (montyRow xu f ys rs ms r1 r2).1 + ((montyRow xu f ys rs ms r1 r2).2.1.toNat + (montyRow xu f ys rs ms r1 r2).2.2.toNat) * (2 ^ 32) ^ rs.length =
      xu.toNat * val ys + val rs + f.toNat * val ms + r1.toNat + r2.toNat ∧
    (montyRow xu f ys rs ms r1 r2).2.1.toNat < 2 ^ 32 ∧ (montyRow xu f ys rs ms r1 r2).2.2.toNat < 2 ^ 32
  | [], [], [], r1, r2, _, _, h1, h2 => by
    refine ⟨rfl, ?_, h1, h2⟩
    simp [montyRow, val]
  | y :: ys, r :: rs, m :: ms, r1, r2, l1, l2, h1, h2 => by
    have hy := y.isLt
    have hr := r.isLt
    have hm := m.isLt
    have hx := xu.isLt
    have hf := f.isLt
    have p1 : xu.toNat * y.toNat ≤ (2 ^ 32 - 1) * (2 ^ 32 - 1) := Nat.mul_le_mul (by omega) (by omega)
    have p2 : f.toNat * m.toNat ≤ (2 ^ 32 - 1) * (2 ^ 32 - 1) := Nat.mul_le_mul (by omega) (by omega)
    unfold montyRow
    dsimp only
    have hz1 : (muladd xu y r + r1).toNat = xu.toNat * y.toNat + r.toNat + r1.toNat := by
      rw [BitVec.toNat_add, muladd_nat]; omega
    generalize muladd xu y r + r1 = z1 at hz1 ⊢
    have ht := low32 z1
    generalize (z1.setWidth 32 : BitVec 32) = t at ht ⊢
    have hz2 : (muladd f m t + r2).toNat = f.toNat * m.toNat + t.toNat + r2.toNat := by
      have := t.isLt
      rw [BitVec.toNat_add, muladd_nat]; omega
    generalize muladd f m t + r2 = z2 at hz2 ⊢
    have b1 := high32 z1
    have b2 := high32 z2
    obtain ⟨i1, i2, i3, i4⟩ := montyRow_ok xu f ys rs ms (z1 >>> 32) (z2 >>> 32) (by simpa using l1) (by simpa using l2)
      (by rw [b1]; omega) (by rw [b2]; have := t.isLt; omega)
    generalize montyRow xu f ys rs ms (z1 >>> 32) (z2 >>> 32) = o at i1 i2 i3 i4 ⊢
    refine ⟨by rw [List.length_cons, i1, List.length_cons], ?_, i3, i4⟩
    rw [val, val, val, val, low32, List.length_cons, bsucc, Nat.mul_left_comm, Nat.mul_add, Nat.mul_left_comm xu.toNat, Nat.mul_add,
      Nat.mul_left_comm f.toNat]
    rw [b1, b2] at i2
    generalize (o.2.1.toNat + o.2.2.toNat) * (2 ^ 32) ^ rs.length = D at *
    generalize xu.toNat * val ys = E at *
    generalize f.toNat * val ms = F at *
    omega

/-- One round: a digit of `x` is worked in, and a digit shifted out. -/
theorem round_ok {xu : W} {y m r : List W} {dh : BitVec 64} {m0i : W} {n : Nat} (hy : y.length = n + 1) (hm : m.length = n + 1)
    (hr : r.length = n + 1) (hinv : ∀ m0 ∈ m.head?, m0 * m0i = -1) (hyM : val y < val m)
    (hV : val r + dh.toNat * (2 ^ 32) ^ (n + 1) < 2 * val m) :
    ∃ f : Nat, ∃ r' dh', (∀ xs, montyLoop y m m0i (xu :: xs) r dh = montyLoop y m m0i xs r' dh') ∧ r'.length = n + 1 ∧
      val r' + dh'.toNat * (2 ^ 32) ^ (n + 1) < 2 * val m ∧
      (val r' + dh'.toNat * (2 ^ 32) ^ (n + 1)) * 2 ^ 32 = xu.toNat * val y + (val r + dh.toNat * (2 ^ 32) ^ (n + 1)) + f * val m := by
  match y, m, r, hy, hm, hr with
  | y0 :: ys, m0 :: ms, r0 :: rs, hy, hm, hr =>
    have hmi : m0 * m0i = -1 := hinv m0 rfl
    have hml := val_lt (m0 :: ms)
    rw [hm] at hml
    have hdh : dh.toNat ≤ 1 := by
      by_contra hc
      have : 2 * (2 ^ 32) ^ (n + 1) ≤ dh.toNat * (2 ^ 32) ^ (n + 1) := Nat.mul_le_mul_right _ (by omega)
      omega
    obtain ⟨i1, i2, i3, i4⟩ := montyRow_ok xu ((r0 + xu * y0) * m0i) (y0 :: ys) (r0 :: rs) (m0 :: ms) 0 0 (by rw [hy, hr]) (by rw [hm, hr])
      (by decide) (by decide)
    have hstep : ∀ xs, montyLoop (y0 :: ys) (m0 :: ms) m0i (xu :: xs) (r0 :: rs) dh =
        (let o := montyRow xu ((r0 + xu * y0) * m0i) (y0 :: ys) (r0 :: rs) (m0 :: ms) 0 0
         montyLoop (y0 :: ys) (m0 :: ms) m0i xs (o.1.tail ++ [(dh + o.2.1 + o.2.2).setWidth 32]) ((dh + o.2.1 + o.2.2) >>> 32)) := by
      intro xs
      rfl
    simp only [hstep]
    have hf : (r0 + xu * y0) + ((r0 + xu * y0) * m0i) * m0 = 0 := by
      generalize r0 + xu * y0 = g
      grind
    generalize hfe : (r0 + xu * y0) * m0i = f at *
    generalize montyRow xu f (y0 :: ys) (r0 :: rs) (m0 :: ms) 0 0 = o at i1 i2 i3 i4 ⊢
    obtain ⟨zs, a1, a2⟩ := o
    dsimp only at i1 i2 i3 i4 ⊢
    rw [hr] at i1 i2
    simp only [show (0 : BitVec 64).toNat = 0 from rfl, Nat.add_zero] at i2
    have hzh : (dh + a1 + a2).toNat = dh.toNat + a1.toNat + a2.toNat := by
      rw [BitVec.toNat_add, BitVec.toNat_add]; omega
    generalize dh + a1 + a2 = zh at hzh ⊢
    match zs, i1 with
    | z0 :: zt, i1 =>
      have hzt : zt.length = n := by simpa using i1
      have hz0 : z0.toNat = 0 := by
        have h1 := congrArg BitVec.toNat hf
        rw [BitVec.toNat_add, BitVec.toNat_add, BitVec.toNat_mul, BitVec.toNat_mul] at h1
        simp only [show (0 : W).toNat = 0 from rfl] at h1
        rw [bsucc, val, val, val, val, Nat.mul_left_comm, Nat.mul_add, Nat.mul_left_comm xu.toNat, Nat.mul_add,
          Nat.mul_left_comm f.toNat] at i2
        have := z0.isLt
        generalize (a1.toNat + a2.toNat) * (2 ^ 32) ^ n = D at i2
        generalize xu.toNat * val ys = E at i2
        generalize f.toNat * val ms = F at i2
        generalize xu.toNat * y0.toNat = G at *
        generalize f.toNat * m0.toNat = H at *
        omega
      have key : (val zt + (2 ^ 32) ^ n * zh.toNat) * 2 ^ 32 =
          xu.toNat * val (y0 :: ys) + (val (r0 :: rs) + dh.toNat * (2 ^ 32) ^ (n + 1)) + f.toNat * val (m0 :: ms) := by
        rw [val, hz0, Nat.zero_add] at i2
        rw [hzh, Nat.add_assoc, Nat.mul_add, Nat.add_mul, Nat.add_mul]
        have e1 : (2 ^ 32) ^ n * (a1.toNat + a2.toNat) * 2 ^ 32 = (a1.toNat + a2.toNat) * (2 ^ 32) ^ (n + 1) := by rw [bsucc]; ring
        have e2 : (2 ^ 32) ^ n * dh.toNat * 2 ^ 32 = dh.toNat * (2 ^ 32) ^ (n + 1) := by rw [bsucc]; ring
        rw [e1, e2]
        generalize xu.toNat * val (y0 :: ys) = E at i2 ⊢
        generalize f.toNat * val (m0 :: ms) = F at i2 ⊢
        generalize val (r0 :: rs) = G at i2 ⊢
        generalize (a1.toNat + a2.toNat) * (2 ^ 32) ^ (n + 1) = H at i2 ⊢
        generalize dh.toNat * (2 ^ 32) ^ (n + 1) = I
        clear * - i2
        omega
      have hV1 : val (zt ++ [zh.setWidth 32]) + (zh >>> 32).toNat * (2 ^ 32) ^ (n + 1) = val zt + (2 ^ 32) ^ n * zh.toNat := by
        rw [val_append, hzt, high32]
        simp only [val, Nat.mul_zero, Nat.add_zero]
        rw [low32, bsucc]
        have e1 : (2 ^ 32) ^ n * zh.toNat = (2 ^ 32) ^ n * (zh.toNat % 2 ^ 32) + zh.toNat / 2 ^ 32 * (2 ^ 32 * (2 ^ 32) ^ n) := by
          conv_lhs => rw [← Nat.mod_add_div zh.toNat (2 ^ 32)]
          ring
        omega
      refine ⟨f.toNat, _, _, fun xs => rfl, ?_, ?_, ?_⟩
      · simp [hzt]
      · simp only [List.tail_cons]
        rw [hV1]
        have hx := xu.isLt
        have hfl := f.isLt
        have t1 : xu.toNat * val (y0 :: ys) ≤ (2 ^ 32 - 1) * val (m0 :: ms) := Nat.mul_le_mul (by omega) (by omega)
        have t2 : f.toNat * val (m0 :: ms) ≤ (2 ^ 32 - 1) * val (m0 :: ms) := Nat.mul_le_mul (by omega) (Nat.le_refl _)
        generalize xu.toNat * val (y0 :: ys) = E at *
        generalize f.toNat * val (m0 :: ms) = F at *
        omega
      · simp only [List.tail_cons]
        rw [hV1, key]

theorem montyLoop_ok {y m : List W} {m0i : W} {n : Nat} (hy : y.length = n + 1) (hm : m.length = n + 1)
    (hinv : ∀ m0 ∈ m.head?, m0 * m0i = -1) (hyM : val y < val m) :
    ∀ (xs r : List W) (dh : BitVec 64), r.length = n + 1 → val r + dh.toNat * (2 ^ 32) ^ (n + 1) < 2 * val m →
      ∃ r' dh', montyLoop y m m0i xs r dh = .ok (r', dh') ∧ r'.length = n + 1 ∧ val r' + dh'.toNat * (2 ^ 32) ^ (n + 1) < 2 * val m ∧
        (val r' + dh'.toNat * (2 ^ 32) ^ (n + 1)) * (2 ^ 32) ^ xs.length ≡ val r + dh.toNat * (2 ^ 32) ^ (n + 1) + val xs * val y [MOD val m]
  | [], r, dh, hr, hV => by
    refine ⟨r, dh, rfl, hr, hV, ?_⟩
    simp [val, Nat.ModEq]
  | xu :: xs, r, dh, hr, hV => by
    obtain ⟨f, r1, d1, e, l1, v1, k1⟩ := round_ok (xu := xu) hy hm hr hinv hyM hV
    obtain ⟨r', dh', e', l', v', k'⟩ := montyLoop_ok hy hm hinv hyM xs r1 d1 l1 v1
    refine ⟨r', dh', by rw [e, e'], l', v', ?_⟩
    generalize val r' + dh'.toNat * (2 ^ 32) ^ (n + 1) = V' at *
    generalize val r1 + d1.toNat * (2 ^ 32) ^ (n + 1) = V1 at *
    generalize val r + dh.toNat * (2 ^ 32) ^ (n + 1) = V at *
    rw [List.length_cons, bsucc, val]
    have h2 := k'.mul_right (2 ^ 32)
    have e1 : V' * (2 ^ 32 * (2 ^ 32) ^ xs.length) = V' * (2 ^ 32) ^ xs.length * 2 ^ 32 := by ring
    rw [e1]
    refine h2.trans ?_
    have e2 : (V1 + val xs * val y) * 2 ^ 32 = V + (xu.toNat + 2 ^ 32 * val xs) * val y + f * val m := by
      rw [Nat.add_mul, k1]; ring
    rw [e2]
    exact Nat.add_mul_mod_self_right ..

end Verif.Ctbig
