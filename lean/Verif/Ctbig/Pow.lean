import Verif.Ctbig.Monty

/-!
# Powers modulo m

Helper lemmas for C88.
-/

namespace Verif.Ctbig

theorem b2b_ne (p : Bool) : (Ct.not (b2b p) != 0) = !p := by cases p <;> decide

theorem ctlt_ok {a b : Big} {n x y : Nat} (hn : 0 < n) (ha : Is a n x) (hb : Is b n y) : ctlt a b = .ok (a, decide (x < y)) := by
  unfold ctlt
  rw [ctsubcc_zero hn ha ha hb, Res.bind_ok]
  dsimp only
  by_cases h : x < y
  · rw [if_pos h]; simp [h]
  · rw [if_neg h]; simp [h]

theorem ctge_ok {a b : Big} {n x y : Nat} (hn : 0 < n) (ha : Is a n x) (hb : Is b n y) : ctge a b = .ok (a, decide (y ≤ x)) := by
  unfold ctge
  rw [ctlt_ok hn ha hb, Res.bind_ok]
  dsimp only
  rw [b2b_ne]
  by_cases h : x < y
  · rw [decide_eq_true h, decide_eq_false (show ¬ y ≤ x by omega)]; rfl
  · rw [decide_eq_false h, decide_eq_true (show y ≤ x by omega)]; rfl

theorem montymul_ok {r x y m : Big} {m0i : W} {n z a b M : Nat} (hn : 0 < n) (h32 : n % 32 = 0) (hr : Is r n z) (hx : Is x n a) (hy : Is y n b)
    (hm : Is m n M) (hinv : ∀ m0 ∈ m.dig.head?, m0 * m0i = -1) (hb : b < M) :
    ∃ s w, montymul r x y m m0i = .ok s ∧ Is s n w ∧ w < M ∧ w * 2 ^ n ≡ a * b [MOD M] := by
  obtain ⟨l, rfl⟩ : ∃ l, n = 32 * (l + 1) := ⟨n / 32 - 1, by omega⟩
  have hnd : ndig (32 * (l + 1)) = l + 1 := by unfold ndig; omega
  have hBL : (2 ^ 32) ^ (l + 1) = 2 ^ (32 * (l + 1)) := bpow _
  unfold montymul
  rw [checksz_ok hx hy, Res.bind_ok, checksz_ok hx hm, Res.bind_ok, checksz_ok hx hr, Res.bind_ok]
  obtain ⟨d, dh, e, hl, hV, hk⟩ := montyLoop_ok (m0i := m0i) (hy.len.trans hnd) (hm.len.trans hnd) hinv (by rw [hy.val, hm.val]; exact hb) x.dig
    (List.replicate r.dig.length 0) 0 (by rw [List.length_replicate, hr.len, hnd])
    (by rw [val_zeros, hm.val]; simp only [show (0 : BitVec 64).toNat = 0 from rfl]; omega)
  rw [e, Res.bind_ok]
  rw [hx.len, hnd, hx.val, hy.val, hm.val, val_zeros] at hk
  simp only [show (0 : BitVec 64).toNat = 0 from rfl, Nat.zero_mul, Nat.zero_add] at hk
  rw [hm.val] at hV
  have hdl := val_lt d
  rw [hl] at hdl
  have hMl : M < (2 ^ 32) ^ (l + 1) := by rw [hBL]; exact hm.lt
  have hIs : Is { r with dig := d } (32 * (l + 1)) (val d) := ⟨hr.nbit, by rw [hnd]; exact hl, rfl, by rw [← hBL]; exact hdl⟩
  dsimp only
  rw [ctge_ok hn hIs hm, Res.bind_ok]
  dsimp only
  have hdh : dh.toNat ≤ 1 := by
    by_contra hc
    have : 2 * (2 ^ 32) ^ (l + 1) ≤ dh.toNat * (2 ^ 32) ^ (l + 1) := Nat.mul_le_mul_right _ (by omega)
    omega
  have hs : ((Ct.ne false dh 0 ||| (b2b (decide (M ≤ val d))).setWidth 64).setWidth 32 : W) =
      if dh.toNat = 0 ∧ val d < M then 0 else 1 := by
    rw [Ct.ne_means (by decide)]
    have h0 : dh = 0 ↔ dh.toNat = 0 := by
      constructor
      · intro h; rw [h]; rfl
      · intro h; exact BitVec.eq_of_toNat_eq h
    simp only [h0]
    by_cases c1 : dh.toNat = 0 <;> by_cases c2 : val d < M
    · rw [if_pos c1, if_pos ⟨c1, c2⟩, decide_eq_false (show ¬ M ≤ val d by omega)]; decide
    · rw [if_pos c1, if_neg (fun h => c2 h.2), decide_eq_true (show M ≤ val d by omega)]; decide
    · rw [if_neg c1, if_neg (fun h => c1 h.1), decide_eq_false (show ¬ M ≤ val d by omega)]; decide
    · rw [if_neg c1, if_neg (fun h => c1 h.1), decide_eq_true (show M ≤ val d by omega)]; decide
  rw [hs]
  by_cases hc : dh.toNat = 0 ∧ val d < M
  · rw [if_pos hc, ctsubcc_zero hn hIs hIs hm, Res.bind_ok]
    refine ⟨_, val d, rfl, hIs, hc.2, ?_⟩
    rw [hc.1, Nat.zero_mul, Nat.add_zero, hBL] at hk
    exact hk
  · rw [if_neg hc]
    obtain ⟨s, e2, his⟩ := ctsubcc_one hn hIs hIs hm
    rw [e2, Res.bind_ok]
    have hw : (2 ^ (32 * (l + 1)) + val d - M) % 2 ^ (32 * (l + 1)) + M = val d + dh.toNat * (2 ^ 32) ^ (l + 1) := by
      rw [sub_mod (by rw [← hBL]; exact hdl) (by rw [← hBL]; exact hMl), ← hBL]
      rcases (show dh.toNat = 0 ∨ dh.toNat = 1 by omega) with c | c
      · rw [if_pos (by omega), c]; omega
      · rw [if_neg (by rw [c] at hV; omega), c]; omega
    refine ⟨s, _, rfl, his, by omega, ?_⟩
    rw [← hw, hBL] at hk
    refine Nat.ModEq.trans ?_ hk
    rw [Nat.add_mul]
    exact (Nat.add_mul_mod_self_left ..).symm

/-! ## tomonty -/

/-- The numbers that `growmod` gets right. -/
def Fair (n x y : Nat) : Prop := x / 2 ^ (n - 32) ≠ y / 2 ^ (n - 32) ∧ x / 2 ^ (n - 32) ≠ 2 ^ 31

theorem growLoop_ok {m : Big} {n y : Nat} (h64 : 64 ≤ n) (h32 : n % 32 = 0) (hm : Is m n y) (htop : 2 ^ (n - 1) ≤ y) :
    ∀ (k : Nat) (a : Big) (x : Nat), Is a n x → x < y → (∀ i, i < k → Fair n (x * 2 ^ (32 * i) % y) y) →
      ∃ r, growLoop m k a = .ok r ∧ Is r n (x * 2 ^ (32 * k) % y)
  | 0, a, x, ha, hxy, _ => ⟨a, rfl, by simpa [Nat.mod_eq_of_lt hxy] using ha⟩
  | k + 1, a, x, ha, hxy, hf => by
    have f0 := hf 0 (by omega)
    rw [Nat.mul_zero, Nat.pow_zero, Nat.mul_one, Nat.mod_eq_of_lt hxy] at f0
    obtain ⟨r, hr, hi⟩ := growmod_ok 0 h64 h32 ha hm hxy htop f0.1 f0.2
    simp only [show (0 : W).toNat = 0 from rfl, Nat.add_zero] at hi
    have hstep : ∀ i, x * 2 ^ 32 % y * 2 ^ (32 * i) % y = x * 2 ^ (32 * (i + 1)) % y := by
      intro i
      rw [Nat.mod_mul_mod, Nat.mul_assoc, ← Nat.pow_add, show 32 + 32 * i = 32 * (i + 1) by omega]
    unfold growLoop
    rw [hr, Res.bind_ok]
    have := growLoop_ok h64 h32 hm htop k r _ hi (Nat.mod_lt _ (by omega)) (by
      intro i hik
      rw [hstep]
      exact hf (i + 1) (by omega))
    rwa [hstep] at this

/-! ## Bits of the exponent -/

theorem val_digit : ∀ (l : List W) (j : Nat) (h : j < l.length), val l / (2 ^ 32) ^ j % 2 ^ 32 = (l[j]).toNat
  | d :: ds, 0, _ => by
    have := d.isLt
    simp only [val, Nat.pow_zero, Nat.div_one, List.getElem_cons_zero]
    omega
  | d :: ds, j + 1, h => by
    have hd := d.isLt
    rw [List.getElem_cons_succ, ← val_digit ds j (by simpa using h), val, bsucc, ← Nat.div_div_eq_div_mul]
    congr 2
    omega

theorem exp_bit {e : Big} {ne E : Nat} (he : Is e ne E) {i : Nat} (hi : i < ne) :
    ∃ d, rdChk e.dig (i / 32) = .ok d ∧ (d >>> (i % 32)) &&& 1 = if E / 2 ^ i % 2 = 1 then (1 : W) else 0 := by
  have hl : i / 32 < e.dig.length := by rw [he.len]; unfold ndig; omega
  refine ⟨_, rdChk_ok hl, ?_⟩
  have hd := val_digit e.dig (i / 32) hl
  rw [he.val] at hd
  apply BitVec.eq_of_toNat_eq
  rw [BitVec.toNat_and, BitVec.toNat_ushiftRight, Nat.shiftRight_eq_div_pow, show (1 : W).toNat = 2 ^ 1 - 1 from rfl, Nat.and_two_pow_sub_one_eq_mod,
    ← hd, bpow]
  have e1 : E / 2 ^ i = E / 2 ^ (32 * (i / 32)) / 2 ^ (i % 32) := by
    rw [Nat.div_div_eq_div_mul, ← Nat.pow_add, Nat.div_add_mod]
  rw [e1]
  generalize E / 2 ^ (32 * (i / 32)) = F
  have hlt : i % 32 < 32 := Nat.mod_lt _ (by decide)
  have e2 : F % 2 ^ 32 / 2 ^ (i % 32) % 2 = F / 2 ^ (i % 32) % 2 := by
    have h2 : (2 : Nat) ^ 32 = 2 ^ (i % 32) * 2 ^ (32 - i % 32) := by rw [← Nat.pow_add]; congr 1; omega
    rw [h2, Nat.mod_mul_right_div_self, Nat.mod_mod_of_dvd]
    exact dvd_pow_self 2 (by omega)
  rw [show 2 ^ 1 = 2 from rfl, e2]
  split
  · rename_i h; rw [h]; rfl
  · rename_i h
    rw [show (0 : W).toNat = 0 from rfl]
    omega

theorem copyLoop_one : ∀ (r v : List W), r.length = v.length → copyLoop 1 r v = v
  | [], [], _ => rfl
  | r :: rs, v :: vs, h => by rw [copyLoop, mux1, copyLoop_one rs vs (by simpa using h)]

theorem copyLoop_zero : ∀ (r v : List W), r.length = v.length → copyLoop 0 r v = r
  | [], [], _ => rfl
  | r :: rs, v :: vs, h => by rw [copyLoop, mux0, copyLoop_zero rs vs (by simpa using h)]

/-- The loop of `ctmodpow`: square and multiply. -/
theorem powLoop_ok {e m : Big} {m0i : W} {n ne E M A : Nat} (hn : 0 < n) (h32 : n % 32 = 0) (he : Is e ne E) (hm : Is m n M)
    (hinv : ∀ m0 ∈ m.dig.head?, m0 * m0i = -1) (hodd : Nat.Coprime M (2 ^ n)) :
    ∀ (k i : Nat) (t2 r t1 : Big) (z ρ τ : Nat), k + i = ne → Is t2 n z → Is r n ρ → Is t1 n τ → ρ < M → τ < M →
      ρ ≡ A ^ (E % 2 ^ i) [MOD M] → τ ≡ A ^ (2 ^ i) * 2 ^ n [MOD M] →
      ∃ s w, powLoop e m t2 m0i k i r t1 = .ok s ∧ Is s n w ∧ w < M ∧ w ≡ A ^ E [MOD M]
  | 0, i, t2, r, t1, z, ρ, τ, hk, h2, hr, ht, hρ, hτ, cr, ct => by
    have : i = ne := by omega
    subst this
    rw [Nat.mod_eq_of_lt he.lt] at cr
    exact ⟨r, ρ, rfl, hr, hρ, cr⟩
  | k + 1, i, t2, r, t1, z, ρ, τ, hk, h2, hr, ht, hρ, hτ, cr, ct => by
    obtain ⟨d, hd, hctl⟩ := exp_bit he (show i < ne by omega)
    unfold powLoop
    rw [hd, Res.bind_ok]
    dsimp only
    rw [hctl]
    obtain ⟨p, w, hp, ip, lp, cp⟩ := montymul_ok (m0i := m0i) hn h32 h2 hr ht hm hinv hτ
    rw [hp, Res.bind_ok]
    obtain ⟨p', w', hp', ip', lp', cp'⟩ := montymul_ok (m0i := m0i) hn h32 ip ht ht hm hinv hτ
    -- what was multiplied
    have cw : w ≡ ρ * A ^ (2 ^ i) [MOD M] := by
      apply Nat.ModEq.cancel_right_of_coprime (c := 2 ^ n) hodd
      refine cp.trans ?_
      rw [Nat.mul_assoc]
      exact ct.mul_left ρ
    have cw' : w' ≡ A ^ (2 ^ (i + 1)) * 2 ^ n [MOD M] := by
      apply Nat.ModEq.cancel_right_of_coprime (c := 2 ^ n) hodd
      refine cp'.trans ((ct.mul ct).trans ?_)
      rw [Nat.pow_succ, Nat.pow_mul, Nat.pow_two]
      have : A ^ 2 ^ i * 2 ^ n * (A ^ 2 ^ i * 2 ^ n) = A ^ 2 ^ i * A ^ 2 ^ i * 2 ^ n * 2 ^ n := by ring
      rw [this]
    have hsplit : E % 2 ^ (i + 1) = E % 2 ^ i + 2 ^ i * (E / 2 ^ i % 2) := by rw [Nat.pow_succ, Nat.mod_mul]
    have ht1 : Is { t1 with dig := p'.dig } n w' := ⟨ht.nbit, ip'.len, ip'.val, ip'.lt⟩
    have hck : checksz r p = .ok () := checksz_ok hr ip
    have hlen : r.dig.length = p.dig.length := by rw [hr.len, ip.len]
    unfold ccopy
    rw [hck, Res.bind_ok]
    by_cases hb : E / 2 ^ i % 2 = 1
    · rw [if_pos hb, copyLoop_one _ _ hlen, Res.bind_ok, hp', Res.bind_ok]
      have hr1 : Is { r with dig := p.dig } n w := ⟨hr.nbit, ip.len, ip.val, ip.lt⟩
      refine powLoop_ok hn h32 he hm hinv hodd k (i + 1) p' _ _ w' w w' (by omega) ip' hr1 ht1 lp lp' ?_ cw'
      rw [hsplit, hb, Nat.mul_one, Nat.pow_add]
      exact cw.trans (cr.mul_right _)
    · rw [if_neg hb, copyLoop_zero _ _ hlen, Res.bind_ok, hp', Res.bind_ok]
      refine powLoop_ok hn h32 he hm hinv hodd k (i + 1) p' _ _ w' ρ w' (by omega) ip' hr ht1 hρ lp' ?_ cw'
      rw [hsplit, show E / 2 ^ i % 2 = 0 by omega, Nat.mul_zero, Nat.add_zero]
      exact cr

theorem ctmodpow_ok {r a e m : Big} {n ne x E M z : Nat} (h64 : 64 ≤ n) (h32 : n % 32 = 0) (hr : Is r n z) (ha : Is a n x) (he : Is e ne E)
    (hm : Is m n M) (hxM : x < M) (htop : 2 ^ (n - 1) ≤ M) (hodd : M % 2 = 1) (hf : ∀ i, 32 * i < n → Fair n (x * 2 ^ (32 * i) % M) M) :
    ∃ s, ctmodpow r a e m = .ok s ∧ Is s n (x ^ E % M) := by
  have hn : 0 < n := by omega
  obtain ⟨l, hl⟩ : ∃ l, ndig n = l + 1 := ⟨ndig n - 1, by rw [ndig_eq n hn]; omega⟩
  have hnl : n = 32 * (l + 1) := by unfold ndig at hl; omega
  have hM1 : 1 < M := by
    have : 2 ^ 1 ≤ 2 ^ (n - 1) := Nat.pow_le_pow_right (by decide) (by omega)
    omega
  obtain ⟨m0, ms, em⟩ : ∃ m0 ms, m.dig = m0 :: ms := by
    have := hm.len
    match hd : m.dig with
    | [] => rw [hd] at this; simp at this; omega
    | m0 :: ms => exact ⟨m0, ms, rfl⟩
  have hm0 : m0.toNat % 2 = 1 := by
    have := hm.val
    rw [em, val] at this
    omega
  unfold ctmodpow
  rw [rdChk_ok (by rw [hm.len]; omega), Res.bind_ok]
  simp only [em, List.getElem_cons_zero]
  have hto : ∃ t, tomonty a a m = .ok t ∧ Is t n (x * 2 ^ n % M) := by
    unfold tomonty
    rw [checksz_ok ha ha, Res.bind_ok, checksz_ok ha hm, Res.bind_ok]
    have := growLoop_ok h64 h32 hm htop m.dig.length a x ha hxM (by
      intro i hi
      rw [hm.len, hl] at hi
      exact hf i (by omega))
    rw [hm.len, hl, ← hnl] at this
    rw [hm.len, hl]
    exact this
  obtain ⟨t, ht, hti⟩ := hto
  rw [ht, Res.bind_ok]
  have hrl : r.dig.length = l + 1 := by rw [hr.len, hl]
  rw [hrl, wrChk_ok _ (by simp), Res.bind_ok]
  have h1 : Is { r with dig := (List.replicate (l + 1) (0 : W)).set 0 1 } n 1 := by
    refine ⟨hr.nbit, by simp [hl], ?_, ?_⟩
    · rw [List.replicate_succ, List.set_cons_zero, val, val_zeros]; rfl
    · exact Nat.one_lt_two_pow (by omega)
  have hz : Is (ctzero a.nbit) n 0 := by
    rw [ha.nbit]
    exact ⟨rfl, by simp [ctzero], val_zeros _, Nat.two_pow_pos n⟩
  have hcop : Nat.Coprime M (2 ^ n) := by
    apply Nat.Coprime.pow_right
    show Nat.gcd M 2 = 1
    rw [Nat.gcd_comm, Nat.gcd_rec, hodd]
    decide
  obtain ⟨s, w, hs, is, lw, cw⟩ := powLoop_ok (A := x) (m0i := ninv32 m0) hn h32 he hm (by
      intro d hd
      rw [em] at hd
      simp at hd
      rw [← hd]
      exact ninv_ok hm0) hcop e.nbit 0 (ctzero a.nbit) _ t 0 1 (x * 2 ^ n % M) (by rw [he.nbit]; rfl) hz h1 hti hM1 (Nat.mod_lt _ (by omega))
    (by simp [Nat.ModEq, Nat.mod_one]) (by simp [Nat.ModEq])
  refine ⟨s, hs, ?_⟩
  have : w = x ^ E % M := by
    have := cw
    unfold Nat.ModEq at this
    rwa [Nat.mod_eq_of_lt lw] at this
  rwa [← this]

end Verif.Ctbig
