import Verif.Ctbig.Grow

/-!
# What growmod computes

Helper lemmas for C88.
-/

namespace Verif.Ctbig

/-- From the estimated quotient to the remainder. -/
theorem fixup {X Q R y q cc u1 out BL : Nat} (h1 : X = Q * y + R) (h2 : X + cc * BL = out + q * y + u1 * BL) (ho : out < BL) (hy : y < BL)
    (hR : R < y) (hq : q = Q ∨ q = Q + 1 ∨ q + 1 = Q) :
    (u1 < cc → out + y = R + BL) ∧ (cc < u1 → cc + 1 = u1 ∧ out + BL = R + y) ∧ (cc = u1 → out = R ∨ out = R + y) := by
  have hd : ∀ d, cc = u1 + d → cc * BL = u1 * BL + d * BL := by intro d h; rw [h, Nat.add_mul]
  have hd' : ∀ d, u1 = cc + d → u1 * BL = cc * BL + d * BL := by intro d h; rw [h, Nat.add_mul]
  have two : ∀ d, 2 ≤ d → 2 * BL ≤ d * BL := fun d h => Nat.mul_le_mul_right _ h
  have q1 : q = Q + 1 → q * y = Q * y + y := by intro h; rw [h, Nat.add_mul, Nat.one_mul]
  have q2 : q + 1 = Q → Q * y = q * y + y := by intro h; rw [← h, Nat.add_mul, Nat.one_mul]
  refine ⟨fun h => ?_, fun h => ?_, fun h => ?_⟩
  · obtain ⟨d, rfl⟩ : ∃ d, cc = u1 + (d + 1) := ⟨cc - u1 - 1, by omega⟩
    have e := hd _ rfl
    rcases Nat.eq_zero_or_pos d with h0 | h0
    · subst h0
      rcases hq with rfl | hq | hq
      · omega
      · have := q1 hq; omega
      · have := q2 hq; omega
    · have := two (d + 1) (by omega)
      rcases hq with rfl | hq | hq
      · omega
      · have := q1 hq; omega
      · have := q2 hq; omega
  · obtain ⟨d, rfl⟩ : ∃ d, u1 = cc + (d + 1) := ⟨u1 - cc - 1, by omega⟩
    have e := hd' _ rfl
    rcases Nat.eq_zero_or_pos d with h0 | h0
    · subst h0
      rcases hq with rfl | hq | hq
      · omega
      · have := q1 hq; omega
      · have := q2 hq; omega
    · have := two (d + 1) (by omega)
      rcases hq with rfl | hq | hq
      · omega
      · have := q1 hq; omega
      · have := q2 hq; omega
  · subst h
    rcases hq with rfl | hq | hq
    · omega
    · have := q1 hq; omega
    · have := q2 hq; omega

theorem quot_cases {Q g q : Nat} (h : Q ≤ g ∧ g ≤ Q + 2) (hq : q = g - 1) : q = Q ∨ q = Q + 1 ∨ q + 1 = Q := by omega

theorem bit_lt (a b : W) : Ct.lt false a b = 0 ∨ Ct.lt false a b = 1 := by
  rw [Ct.lt_partial (by decide)]
  split <;> split <;> simp

theorem lt_same (a : W) : Ct.lt false a a = 0 := by
  rw [Ct.lt_partial (by decide), if_neg, if_neg]
  · rfl
  · exact BitVec.lt_irrefl a
  · rintro ⟨h, _⟩; exact h rfl

theorem lt_next (a b : W) (h : a.toNat + 1 = b.toNat) (hb : b.toNat ≠ 2 ^ 31) : Ct.lt false a b = 1 := by
  rw [Ct.lt_partial (by decide), if_neg, if_pos]
  · rfl
  · rw [BitVec.lt_def]; omega
  · rintro ⟨hn, _⟩
    apply hn
    rw [BitVec.msb_eq_decide, BitVec.msb_eq_decide, Bool.eq_iff_iff, decide_eq_true_iff, decide_eq_true_iff]
    omega

theorem aligned {v : Big} {i : Nat} (h : i < v.dig.length) : unalignedword v (32 * i) = .ok (v.dig[i]) := by
  unfold unalignedword
  dsimp only
  have e : 32 * i / 32 = i := by omega
  have e2 : 32 * i % 32 = 0 := by omega
  simp only [e, e2, rdChk_ok h, Res.bind_ok, if_true]
  simp

theorem estimate_ok {u1 u2 v1 : W} (hv : 2 ^ 31 ≤ v1.toNat) (hu : u1.toNat < v1.toNat) :
    (estimate (u1.setWidth 64 <<< 32) (u2.setWidth 64 <<< 0) (v1.setWidth 64)).toNat = (u1.toNat * 2 ^ 32 + u2.toNat) / v1.toNat - 1 := by
  have h1 := u1.isLt
  have h2 := u2.isLt
  have h3 := v1.isLt
  have ea0 : ((u1.setWidth 64 : BitVec 64) <<< 32).toNat = u1.toNat * 2 ^ 32 := by
    rw [BitVec.toNat_shiftLeft, w64, Nat.shiftLeft_eq, Nat.mod_eq_of_lt (by omega)]
  have ea1 : ((u2.setWidth 64 : BitVec 64) <<< 0).toNat = u2.toNat := by
    rw [BitVec.shiftLeft_zero, w64]
  have eb0 : (v1.setWidth 64).toNat = v1.toNat := w64 v1
  generalize (u1.setWidth 64 : BitVec 64) <<< 32 = a0 at *
  generalize (u2.setWidth 64 : BitVec 64) <<< 0 = a1 at *
  generalize (v1.setWidth 64) = b0 at *
  have hg : (((a0 + a1) / b0).setWidth 32 : W).toNat = (u1.toNat * 2 ^ 32 + u2.toNat) / v1.toNat := by
    rw [low32, BitVec.toNat_udiv, BitVec.toNat_add, ea0, ea1, eb0, Nat.mod_eq_of_lt (a := u1.toNat * 2 ^ 32 + u2.toNat) (by omega), Nat.mod_eq_of_lt]
    rw [Nat.div_lt_iff_lt_mul (by omega)]
    have : (u1.toNat + 1) * 2 ^ 32 ≤ v1.toNat * 2 ^ 32 := Nat.mul_le_mul_right _ hu
    omega
  unfold estimate
  dsimp only
  generalize (((a0 + a1) / b0).setWidth 32 : W) = g at hg ⊢
  have he : Ct.eq false a0 b0 = 0 := by
    rw [Ct.eq_means (by decide), if_neg]
    · rfl
    · intro h
      have := congrArg BitVec.toNat h
      omega
  rw [he, show (BitVec.setWidth 32 (0 : BitVec 64)) = (0 : W) from rfl, mux0, eq_nat, ← hg]
  have hgl := g.isLt
  by_cases h0 : g.toNat = (0 : W).toNat
  · rw [if_pos h0, mux1, h0]; rfl
  · rw [if_neg h0, mux0, BitVec.toNat_sub]
    have : (0 : W).toNat = 0 := rfl
    have : (1 : W).toNat = 1 := rfl
    omega

theorem list_last {α : Type} {l : List α} {k : Nat} (h : l.length = k + 1) : ∃ i t, l = i ++ [t] ∧ i.length = k := by
  refine ⟨l.take k, l[k], ?_, by simp; omega⟩
  conv_lhs => rw [← List.take_append_drop k l]
  rw [List.drop_eq_getElem_cons (by omega), List.drop_eq_nil_of_le (by omega)]

set_option maxHeartbeats 1000000 in
theorem growmod_ok {a m : Big} {n x y : Nat} (k : W) (h64 : 64 ≤ n) (h32 : n % 32 = 0) (ha : Is a n x) (hm : Is m n y) (hxy : x < y)
    (htop : 2 ^ (n - 1) ≤ y) (h1 : x / 2 ^ (n - 32) ≠ y / 2 ^ (n - 32)) (h2 : x / 2 ^ (n - 32) ≠ 2 ^ 31) :
    ∃ r, growmod a k m = .ok r ∧ Is r n ((x * 2 ^ 32 + k.toNat) % y) := by
  obtain ⟨l, rfl⟩ : ∃ l, n = 32 * (l + 2) := ⟨n / 32 - 2, by omega⟩
  have hnd : ndig (32 * (l + 2)) = l + 2 := by unfold ndig; omega
  have hn0 : 0 < 32 * (l + 2) := by omega
  have hal := ha.len
  have hml := hm.len
  rw [hnd] at hal hml
  obtain ⟨ai, u1, ea, hai⟩ := list_last (k := l + 1) hal
  obtain ⟨lo, u2, eai, hlo⟩ := list_last hai
  obtain ⟨ml, v1, em, hmll⟩ := list_last (k := l + 1) hml
  subst eai
  have bu1 := u1.isLt
  have bu2 := u2.isLt
  have bv1 := v1.isLt
  have bk := k.isLt
  -- the numbers
  have hP : (2 ^ 32) ^ (l + 1) = 2 ^ (32 * (l + 2) - 32) := by rw [bpow]; congr 1
  have hBL : (2 ^ 32) ^ (l + 2) = 2 ^ (32 * (l + 2)) := bpow _
  have hBP : (2 ^ 32) ^ (l + 2) = 2 ^ 32 * (2 ^ 32) ^ (l + 1) := bsucc _
  have hBP' : (2 ^ 32) ^ (l + 1) = 2 ^ 32 * (2 ^ 32) ^ l := bsucc _
  have P0 : 0 < (2 ^ 32) ^ (l + 1) := Nat.pow_pos (by decide)
  have ex : x = val lo + (2 ^ 32) ^ l * u2.toNat + (2 ^ 32) ^ (l + 1) * u1.toNat := by
    rw [← ha.val, ea, val_append, val_append, hai, hlo]; simp [val]
  have ey : y = val ml + (2 ^ 32) ^ (l + 1) * v1.toNat := by
    rw [← hm.val, em, val_append, hmll]; simp [val]
  have vlo := val_lt lo
  rw [hlo] at vlo
  have vml := val_lt ml
  rw [hmll] at vml
  have vai : val lo + (2 ^ 32) ^ l * u2.toNat < (2 ^ 32) ^ (l + 1) := by
    have := val_lt (lo ++ [u2])
    rw [hai, val_append, hlo] at this
    simpa [val] using this
  have dx : x / 2 ^ (32 * (l + 2) - 32) = u1.toNat := by
    rw [← hP, ex, Nat.add_mul_div_left _ _ P0, Nat.div_eq_of_lt vai, Nat.zero_add]
  have dy : y / 2 ^ (32 * (l + 2) - 32) = v1.toNat := by
    rw [← hP, ey, Nat.add_mul_div_left _ _ P0, Nat.div_eq_of_lt vml, Nat.zero_add]
  rw [dx] at h1 h2
  rw [dy] at h1
  have hv1 : 2 ^ 31 ≤ v1.toNat := by
    have e : 2 ^ (32 * (l + 2) - 1) = 2 ^ 31 * 2 ^ (32 * (l + 2) - 32) := by
      rw [← Nat.pow_add]; congr 1; omega
    rw [e] at htop
    rw [← dy, Nat.le_div_iff_mul_le (Nat.two_pow_pos _)]
    exact htop
  have hu : u1.toNat < v1.toNat := by
    have : x / 2 ^ (32 * (l + 2) - 32) ≤ y / 2 ^ (32 * (l + 2) - 32) := Nat.div_le_div_right (by omega)
    rw [dx, dy] at this
    omega
  -- the code
  have g1 : a.dig[l + 1]'(by omega) = u1 := by
    simp only [ea]
    rw [List.getElem_append_right (by omega)]
    simp [hai]
  have g2 : a.dig[l]'(by omega) = u2 := by simp [ea, hlo]
  have g3 : m.dig[l + 1]'(by omega) = v1 := by simp [em, hmll]
  unfold growmod
  rw [checksz_ok ha hm, Res.bind_ok, if_neg (by omega)]
  simp only [hal, hml, ha.nbit, hm.nbit, show l + 2 - 1 = l + 1 by omega]
  rw [rdChk_ok (by omega), Res.bind_ok, g3, if_neg, if_neg (by omega), show 32 * (l + 2) - 32 = 32 * (l + 1) by omega,
    show 32 * (l + 2) - 64 = 32 * l by omega, aligned (by omega), Res.bind_ok, aligned (by omega), Res.bind_ok, aligned (by omega), Res.bind_ok,
    rdChk_ok (by omega), Res.bind_ok, g1, g2, g3]
  rotate_left
  · intro h
    have := congrArg (fun z : W => z.toNat.testBit 31) h
    simp only [BitVec.toNat_and, Nat.testBit_and, show ((1 : W) <<< 31).toNat = 2 ^ 31 from by decide, Nat.testBit_two_pow_self, Bool.and_true] at this
    rw [Nat.testBit_eq_decide_div_mod_eq] at this
    have := of_decide_eq_false this
    omega
  have hest := estimate_ok (u2 := u2) hv1 hu
  generalize estimate (u1.setWidth 64 <<< 32) (u2.setWidth 64 <<< 0) (v1.setWidth 64) = q at hest ⊢
  have etk : a.dig.take (l + 1) = lo ++ [u2] := by rw [ea, ← hai, List.take_left]
  rw [etk]
  have hrl : (k :: (lo ++ [u2])).length = l + 2 := by simp [hlo]
  obtain ⟨s1, s2, s3, s4, s5⟩ := subMul_ok q m.dig (k :: (lo ++ [u2])) 0 1 (by rw [hml, hrl]) (by decide) (.inr rfl)
  rw [hrl, val, val_append, hlo, hm.val] at s2
  simp only [val, Nat.mul_zero, Nat.add_zero, show (0 : BitVec 64).toNat = 0 from rfl] at s2
  rw [hm.val] at s5
  generalize subMul q m.dig (k :: (lo ++ [u2])) 0 1 = o at s1 s2 s3 s4 s5 ⊢
  obtain ⟨out, cc, tb⟩ := o
  dsimp only at s1 s2 s3 s4 s5 ⊢
  rw [hrl] at s1
  have hout := val_lt out
  rw [s1] at hout
  have hyl : y < (2 ^ 32) ^ (l + 2) := by rw [hBL]; exact hm.lt
  have hy0 : 0 < y := by omega
  -- the quotient
  have hX : x * 2 ^ 32 + k.toNat = (u1.toNat * 2 ^ 32 + u2.toNat) * (2 ^ 32) ^ (l + 1) + (k.toNat + 2 ^ 32 * val lo) := by
    rw [ex, hBP']; ring
  have hkn := knuth (B := 2 ^ 32) (P := (2 ^ 32) ^ (l + 1)) (u1 := u1.toNat) (u2 := u2.toNat) (lo := k.toNat + 2 ^ 32 * val lo) (v1 := v1.toNat)
    (vl := val ml) (Q := (x * 2 ^ 32 + k.toNat) / y) (by decide) (by omega) P0 bu2 (by rw [hBP']; omega) vml
    (by rw [hX, ey, Nat.add_comm (val ml), Nat.mul_comm _ v1.toNat]) hu
  have hfix := fixup (X := x * 2 ^ 32 + k.toNat) (Q := (x * 2 ^ 32 + k.toNat) / y) (R := (x * 2 ^ 32 + k.toNat) % y) (y := y) (q := q.toNat)
    (cc := cc.toNat) (u1 := u1.toNat) (out := val out) (BL := (2 ^ 32) ^ (l + 2))
    (by rw [Nat.mul_comm _ y]; exact (Nat.div_add_mod ..).symm)
    (by
      rw [← s2, hX, hBP, hBP']; ring)
    hout hyl (Nat.mod_lt _ hy0) (quot_cases hkn hest)
  have hRy : (x * 2 ^ 32 + k.toNat) % y < y := Nat.mod_lt _ hy0
  generalize (x * 2 ^ 32 + k.toNat) % y = R at hfix hRy ⊢
  -- the corrections
  have echf : ((cc >>> 32).setWidth 32 : W) = 0 := by
    apply BitVec.eq_of_toNat_eq
    rw [low32, high32, Nat.div_eq_of_lt s3]; rfl
  have eclow : ((cc >>> 0).setWidth 32 : W).toNat = cc.toNat := by
    rw [BitVec.ushiftRight_zero, low32, Nat.mod_eq_of_lt s3]
  rw [echf]
  generalize ((cc >>> 0).setWidth 32 : W) = clow at eclow ⊢
  have hIs : Is ⟨32 * (l + 2), out⟩ (32 * (l + 2)) (val out) := ⟨rfl, by rw [hnd]; exact s1, rfl, by rw [← hBL]; exact hout⟩
  rw [gt_nat, eclow]
  simp only [show (0 : W) = 0#32 from rfl, BitVec.zero_or]
  have eall : ∀ z : W, ~~~ 0#32 &&& z = z := by
    intro z
    rw [BitVec.not_zero, BitVec.allOnes_and]
  rw [eall]
  by_cases hover : u1.toNat < cc.toNat
  · rw [if_pos hover]
    obtain ⟨s, hs, his⟩ := ctaddcc_one hn0 hIs hIs hm
    have eun : ~~~ (1 : W) &&& (tb ||| Ct.lt false clow u1) = 0 := by
      rcases s4 with rfl | rfl <;> rcases bit_lt clow u1 with e | e <;> rw [e] <;> decide
    have hv := hfix.1 hover
    rw [show ((1 : W) : BitVec 32) = 1 from rfl] at hs
    rw [hs, Res.bind_ok, eun, ctsubcc_zero hn0 his his hm, Res.bind_ok]
    dsimp only
    rw [clip_id hn0 his]
    refine ⟨s, rfl, ?_⟩
    rwa [hv, hBL, Nat.add_mod_right, Nat.mod_eq_of_lt (by rw [← hBL]; omega)] at his
  · rw [if_neg hover]
    have ezero : ~~~ (0 : W) &&& (tb ||| Ct.lt false clow u1) = tb ||| Ct.lt false clow u1 := eall _
    rw [show (0#32 : BitVec 32) = (0 : W) from rfl, ctaddcc_zero hn0 hIs hIs hm, Res.bind_ok, ezero]
    have fin0 : tb ||| Ct.lt false clow u1 = 0 → val out = R → ∃ r, ((ctsubcc ⟨32 * (l + 2), out⟩ ⟨32 * (l + 2), out⟩ m (tb ||| Ct.lt false clow u1)) >>=
        fun p => clip p.1) = .ok r ∧ Is r (32 * (l + 2)) R := by
      intro e0 e
      rw [e0, ctsubcc_zero hn0 hIs hIs hm, Res.bind_ok]
      dsimp only
      rw [clip_id hn0 hIs]
      exact ⟨_, rfl, e ▸ hIs⟩
    have fin1 : tb ||| Ct.lt false clow u1 = 1 → (2 ^ (32 * (l + 2)) + val out - y) % 2 ^ (32 * (l + 2)) = R →
        ∃ r, ((ctsubcc ⟨32 * (l + 2), out⟩ ⟨32 * (l + 2), out⟩ m (tb ||| Ct.lt false clow u1)) >>=
        fun p => clip p.1) = .ok r ∧ Is r (32 * (l + 2)) R := by
      intro e1 e
      obtain ⟨s, hs, his⟩ := ctsubcc_one hn0 hIs hIs hm
      rw [e1, hs, Res.bind_ok]
      dsimp only
      rw [clip_id hn0 his]
      exact ⟨_, rfl, e ▸ his⟩
    by_cases hlt : cc.toNat < u1.toNat
    · obtain ⟨c1, c2⟩ := hfix.2.1 hlt
      apply fin1
      · rw [lt_next clow u1 (by omega) h2]
        rcases s4 with rfl | rfl <;> decide
      · rw [← hBL, show (2 ^ 32) ^ (l + 2) + val out - y = R by omega]
        exact Nat.mod_eq_of_lt (by omega)
    · have ecu : cc.toNat = u1.toNat := by omega
      have esame : clow = u1 := BitVec.eq_of_toNat_eq (by omega)
      have e0 : ∀ z : W, z ||| Ct.lt false clow u1 = z := by
        intro z; rw [esame, lt_same]; simp
      rcases hfix.2.2 ecu with hR | hR
      · have : tb = 0 := by
          rcases s4 with h | h
          · exact h
          · rcases s5.1 h with h' | h' <;> omega
        exact fin0 (by rw [e0, this]) hR
      · have : tb = 1 := by
          by_cases he : R = 0
          · exact s5.2 (.inr ⟨by omega, rfl⟩)
          · exact s5.2 (.inl (by omega))
        refine fin1 (by rw [e0, this]) ?_
        rw [hR, show 2 ^ (32 * (l + 2)) + (R + y) - y = R + 2 ^ (32 * (l + 2)) by omega, Nat.add_mod_right]
        exact Nat.mod_eq_of_lt (by rw [← hBL]; omega)

end Verif.Ctbig
