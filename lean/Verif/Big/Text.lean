import Verif.Big.Div2
import Verif.IntFmt.Props
import Mathlib.Data.Nat.Digits.Lemmas

/-!
# Conversions
-/

namespace Verif.Bigint

theorem rep_iff {a : Big} {x : Int} : Rep a x ↔ a = ofInt x := ⟨fun h => h.unique (rep_ofInt x), fun h => by rw [h]; exact rep_ofInt x⟩

/-! ## From machine integers -/

theorem mkdig_rep {n : Nat} (hn : n < W64) {z : Int} (hz : z.natAbs = n) :
    Rep (trim ⟨n % Base :: if Base ≤ n then [n / Base % Base] else [], z.sign⟩) z := by
  have hV : V (n % Base :: if Base ≤ n then [n / Base % Base] else []) = n := by
    split
    · rw [V_cons, V_single]; omega
    · rw [V_cons, V_nil]; omega
  refine trim_rep' ?_ ?_ ?_
  · refine Small.cons.2 ⟨Nat.mod_lt _ (by decide), ?_⟩
    split
    · exact Small.cons.2 ⟨Nat.mod_lt _ (by decide), Small.nil⟩
    · exact Small.nil
  · rw [hV]
    rcases Int.lt_trichotomy z 0 with h | h | h
    · exact .inr (.inl (Int.sign_eq_neg_one_of_neg h))
    · right; right; omega
    · exact .inl (Int.sign_eq_one_of_pos h)
  · rw [hV, ← hz, Int.sign_mul_natAbs]

theorem mk_unsigned {w : Nat} (hw : w ≤ 64) (v : BitVec w) : Rep (mkbigint false v) v.toNat := by
  have e0 : (v = 0#w) ↔ v.toNat = 0 := by
    constructor
    · intro h; rw [h]; simp
    · intro h; exact BitVec.eq_of_toNat_eq (by rw [h]; simp)
  have hlt : v.toNat < W64 := Nat.lt_of_lt_of_le v.isLt (Nat.pow_le_pow_right (n := 2) (by decide) hw)
  have e1 : (v.setWidth 64).toNat = v.toNat := by rw [BitVec.toNat_setWidth]; exact Nat.mod_eq_of_lt hlt
  have := mkdig_rep hlt (z := (v.toNat : Int)) (by omega)
  unfold mkbigint
  simp only [Bool.false_and, Bool.false_eq_true, if_false, e1]
  have es : ((v.toNat : Int)).sign = if v = 0#w then 0 else 1 := by
    split
    · rename_i h; rw [e0.1 h]; rfl
    · rename_i h
      have : v.toNat ≠ 0 := fun e => h (e0.2 e)
      exact Int.sign_eq_one_of_pos (by omega)
  rw [es] at this
  exact this

theorem mk_signed {w : Nat} (h0 : 0 < w) (hw : w ≤ 64) (v : BitVec w) (hmin : w = 64 ∨ v ≠ BitVec.intMin w) : Rep (mkbigint true v) v.toInt := by
  have e0 : (v = 0#w) ↔ v.toInt = 0 := by
    constructor
    · intro h; rw [h]; simp
    · intro h; exact BitVec.eq_of_toInt_eq (by rw [h]; simp)
  have hm := BitVec.msb_eq_toInt (x := v)
  have hlo := BitVec.le_toInt v
  have hhi := BitVec.toInt_lt (x := v)
  have hpow : (2 : Int) ^ (w - 1) ≤ 2 ^ 63 := by exact_mod_cast Nat.pow_le_pow_right (n := 2) (by decide) (by omega)
  have key : ((if v.msb then -v else v).signExtend 64).toNat = v.toInt.natAbs := by
    rw [hm]
    by_cases hneg : v.toInt < 0
    · simp only [hneg, decide_true, if_true]
      by_cases hm2 : v = BitVec.intMin w
      · have hw64 : w = 64 := by
          rcases hmin with h | h
          · exact h
          · exact absurd hm2 h
        subst hw64
        subst hm2
        decide
      · have e1 : (-v).toInt = -v.toInt := BitVec.toInt_neg_of_ne_intMin hm2
        have e2 : ((-v).signExtend 64).toInt = (-v).toInt := BitVec.toInt_signExtend_of_le (by omega)
        have e3 := BitVec.toInt_eq_toNat_cond ((-v).signExtend 64)
        rw [e2, e1] at e3
        have hl := ((-v).signExtend 64).isLt
        split at e3 <;> omega
    · simp only [hneg, decide_false, Bool.false_eq_true, if_false]
      have e2 : (v.signExtend 64).toInt = v.toInt := BitVec.toInt_signExtend_of_le (by omega)
      have e3 := BitVec.toInt_eq_toNat_cond (v.signExtend 64)
      rw [e2] at e3
      have hl := (v.signExtend 64).isLt
      split at e3 <;> omega
  have := mkdig_rep (n := v.toInt.natAbs) (by omega) (z := v.toInt) rfl
  unfold mkbigint
  simp only [Bool.true_and, if_true, key]
  have es : v.toInt.sign = if v.msb = true then -1 else if v = 0#w then 0 else 1 := by
    rw [hm]
    by_cases hneg : v.toInt < 0
    · simp only [hneg, decide_true, if_true]
      exact Int.sign_eq_neg_one_of_neg hneg
    · simp only [hneg, decide_false, Bool.false_eq_true, if_false]
      split
      · rename_i h; rw [e0.1 h]; rfl
      · rename_i h
        have : v.toInt ≠ 0 := fun e => h (e0.2 e)
        exact Int.sign_eq_one_of_pos (by omega)
  rw [es] at this
  exact this

theorem mk32 {n : Nat} (h : n < 2 ^ 31) : Rep (mkbigint true (BitVec.ofNat 32 n)) n := by
  have e : (BitVec.ofNat 32 n).toInt = n := by
    rw [BitVec.toInt_eq_toNat_cond, BitVec.toNat_ofNat, Nat.mod_eq_of_lt (by omega), if_pos (by omega)]
  have := mk_signed (by decide) (by decide) (BitVec.ofNat 32 n) (.inr (by
    intro h2
    have h3 := congrArg BitVec.toInt h2
    rw [e, BitVec.toInt_intMin] at h3
    norm_num at h3
    omega))
  rw [e] at this
  exact this

/-! ## Writing -/

theorem digitchars_glyph : ∀ d : Fin 36, digitchars[d.val]? = some (IntFmt.glyphC d.val) := by decide +kernel

theorem putch_ok {buf : List Byte} {n : Nat} (h : n < buf.length) {c : Utf.Char32} {g : Byte} (hc : c.toNat < 0x110000) (hg : Utf.utf8 c.toNat = [g]) :
    putch buf n c = .ok (buf.take n ++ g :: buf.drop (n + 1), n + 1) := by
  unfold putch
  rw [slice_suffix (by omega), Res.bind_ok]
  have := (Utf.encode_utf8 c.toNat hc (buf.drop n)).2
  rw [BitVec.ofNat_toNat, BitVec.setWidth_eq, hg] at this
  rw [this, if_pos (by simp; omega), Res.bind_ok]
  simp

theorem fmtloop_spec {base : Nat} (h2 : 2 ≤ base) (h36 : base ≤ 36) {b : Big} (hb : Rep b base) {fuel : Nat} (hfu : 2 ≤ fuel) :
    ∀ (f : Nat) (x : Int) (buf : List Byte) (n : Nat), (Nat.digits base x.natAbs).length < f → n + (Nat.digits base x.natAbs).length ≤ buf.length →
      fmtloop fuel b f (ofInt x) buf n = .ok (buf.take n ++ (Nat.digits base x.natAbs).map IntFmt.glyph ++ buf.drop (n + (Nat.digits base x.natAbs).length),
        n + (Nat.digits base x.natAbs).length)
  | 0, _, _, _, h, _ => by omega
  | f + 1, x, buf, n, hf, hl => by
    by_cases hx : x = 0
    · subst hx
      have : (ofInt 0).dig = [] := rfl
      rw [fmtloop]
      simp [this]
    · have hne : (ofInt x).dig ≠ [] := fun e => hx ((rep_ofInt x).nil_iff.1 e)
      have hm : 0 < x.natAbs := by omega
      have hdg := Nat.digits_def' (b := base) (by omega) hm
      obtain ⟨q, r, d1, d2, d3⟩ := bigdivmod_exact (rep_ofInt x) hb (by omega) hfu
      have hbn : ((base : Int)).natAbs = base := rfl
      rw [hbn, if_pos (by omega)] at d3
      have hmod : x.natAbs % base < base := Nat.mod_lt _ (by omega)
      have hd0 : r.dig.headD 0 = x.natAbs % base := by
        rw [d3.1]
        have e : ((x.natAbs % base : Nat) : Int).natAbs = x.natAbs % base := rfl
        rw [e]
        rcases Nat.eq_zero_or_pos (x.natAbs % base) with e0 | e0
        · rw [e0]; rfl
        · rw [Nat.digits_def' (by decide) e0, Nat.mod_eq_of_lt (by omega)]; rfl
      have hq : q = ofInt (x.tdiv base) := rep_iff.1 d2
      have hqa : (x.tdiv base).natAbs = x.natAbs / base := Int.natAbs_tdiv x base
      rw [hdg, List.length_cons] at hf hl ⊢
      have hg := IntFmt.glyph_facts ⟨x.natAbs % base, by omega⟩
      simp only at hg
      have hstep : fmtloop fuel b (f + 1) (ofInt x) buf n = fmtloop fuel b f q (buf.take n ++ IntFmt.glyph (x.natAbs % base) :: buf.drop (n + 1)) (n + 1) := by
        rw [fmtloop]
        split
        · rename_i h; exact absurd h hne
        · have hr : rdChk digitchars (x.natAbs % base) = .ok (IntFmt.glyphC (x.natAbs % base)) := by
            have := digitchars_glyph ⟨x.natAbs % base, by omega⟩
            simp only at this
            simp only [rdChk, this]
          rw [d1, Res.bind_ok]
          simp only [hd0, hr, Res.bind_ok]
          rw [putch_ok (by omega) hg.2.2.2.2 hg.1, Res.bind_ok]
      have hlen : (buf.take n ++ IntFmt.glyph (x.natAbs % base) :: buf.drop (n + 1)).length = buf.length := by
        rw [List.length_append, List.length_take, List.length_cons, List.length_drop]
        omega
      have ih := fmtloop_spec h2 h36 hb hfu f (x.tdiv base) (buf.take n ++ IntFmt.glyph (x.natAbs % base) :: buf.drop (n + 1)) (n + 1)
        (by rw [hqa]; omega) (by rw [hqa, hlen]; omega)
      rw [hstep, hq, ih, hqa]
      generalize Nat.digits base (x.natAbs / base) = l at *
      have e1 : (buf.take n ++ IntFmt.glyph (x.natAbs % base) :: buf.drop (n + 1)).take (n + 1) = buf.take n ++ [IntFmt.glyph (x.natAbs % base)] := by
        have : (buf.take n).length = n := by rw [List.length_take]; omega
        rw [List.take_append, this, List.take_of_length_le (by omega), show n + 1 - n = 1 by omega]
        simp
      have e2 : (buf.take n ++ IntFmt.glyph (x.natAbs % base) :: buf.drop (n + 1)).drop (n + 1 + l.length) = buf.drop (n + (l.length + 1)) := by
        have : (buf.take n).length = n := by rw [List.length_take]; omega
        rw [List.drop_append, this, List.drop_eq_nil_of_le (by omega), show n + 1 + l.length - n = l.length + 1 by omega]
        simp only [List.nil_append, List.drop_succ_cons, List.drop_drop]
        congr 1
        omega
      rw [e1, e2]
      simp only [List.map_cons, List.append_assoc, List.singleton_append]
      congr 2
      omega

theorem text_length {base : Nat} (z : Int) : (text base z).length = if z = 0 then 1 else (Nat.digits base z.natAbs).length + if z < 0 then 1 else 0 := by
  unfold text
  split
  · rfl
  · rw [List.length_append, List.length_map, List.length_reverse]
    split
    · rw [List.length_singleton]; omega
    · rw [List.length_nil]; omega

theorem bigbfmt_gen {base : Nat} (h2 : 2 ≤ base) (h36 : base ≤ 36) {b0 : Int} (hb0 : b0 = base ∨ (b0 = 0 ∧ base = 10)) {x : Big} {z : Int} (hx : Rep x z) {buf : List Byte}
    (hl : (text base z).length ≤ buf.length) {fuel : Nat} (hfu : (text base z).length + 2 ≤ fuel) :
    bigbfmt fuel buf x b0 = .ok (text base z ++ buf.drop (text base z).length, (text base z).length) := by
  have htl := text_length (base := base) z
  have hdl : (Nat.digits base z.natAbs).length ≤ (text base z).length := by
    rw [htl]
    split
    · rename_i h; rw [h]; simp
    · omega
  have eb : BitVec.ofInt 32 (if b0 = 0 then 10 else b0) = BitVec.ofNat 32 base := by
    rcases hb0 with h | ⟨h, h'⟩
    · rw [if_neg (by omega), h]; rfl
    · rw [if_pos h, h']; rfl
  have hfl := fmtloop_spec h2 h36 (mk32 (n := base) (by omega)) (fuel := fuel) (by omega) fuel z buf 0 (by omega) (by omega)
  simp only [List.take_zero, List.nil_append, Nat.zero_add] at hfl
  unfold bigbfmt
  rw [if_neg (by omega), eb, rep_iff.1 hx]
  simp only [hfl, Res.bind_ok]
  have hs : (ofInt z).sign = z.sign := rfl
  rw [hs]
  generalize hD : Nat.digits base z.natAbs = D at *
  have e3 : ∀ (n : Nat) (t : List Byte), t.length = n → (List.take n (t ++ buf.drop n)) = t := by
    intro n t ht
    rw [← ht, List.take_left]
  have e4 : ∀ (n : Nat) (t : List Byte), t.length = n → (List.drop n (t ++ buf.drop n)) = buf.drop n := by
    intro n t ht
    subst ht
    rw [List.drop_left]
  have e5 : ∀ (g : Byte) (c : Utf.Char32), c.toNat < 0x110000 → Utf.utf8 c.toNat = [g] → D.length < buf.length →
      putch (D.map IntFmt.glyph ++ buf.drop D.length) D.length c = .ok (D.map IntFmt.glyph ++ [g] ++ buf.drop (D.length + 1), D.length + 1) := by
    intro g c hc hg hlt
    rw [putch_ok (by simp; omega) hc hg, e3 _ _ (by simp)]
    congr 2
    rw [← List.drop_drop, e4 _ _ (by simp), List.drop_drop]
    simp
  rw [htl] at hl
  unfold text
  rcases Int.lt_trichotomy z 0 with h | h | h
  · rw [Int.sign_eq_neg_one_of_neg h, if_neg (by decide), if_pos rfl]
    rw [if_neg (by omega), if_pos h] at hl
    have := e5 45#8 45#32 (by decide) (by decide) (by omega)
    rw [this, Res.bind_ok]
    simp only [if_neg (show ¬ z = 0 by omega), if_pos h, hD]
    rw [e3 _ _ (by simp), e4 _ _ (by simp)]
    simp
  · rw [h]
    have : D = [] := by rw [← hD, h]; simp
    subst this
    have hlt : 0 < buf.length := by
      rw [if_pos h] at hl
      exact hl
    have := e5 48#8 48#32 (by decide) (by decide) hlt
    rw [Int.sign_zero, if_pos rfl, this, Res.bind_ok]
    simp only [if_true]
    rw [e3 _ _ (by simp), e4 _ _ (by simp)]
    simp
  · rw [Int.sign_eq_one_of_pos h, if_neg (by decide), if_neg (by decide)]
    simp only [if_neg (show ¬ z = 0 by omega), if_neg (show ¬ z < 0 by omega), hD]
    rw [e3 _ _ (by simp), e4 _ _ (by simp)]
    simp

theorem digits10_len {l : List Nat} (n : Nat) (hl : l = Nat.digits Base n) : (Nat.digits 10 n).length ≤ 10 * l.length := by
  subst hl
  by_contra hgt
  have hlt : n < Base ^ (Nat.digits Base n).length := by
    have := V_lt (digits_small n)
    rwa [V_digits] at this
  have h1 : Base ^ (Nat.digits Base n).length ≤ 10 ^ (10 * (Nat.digits Base n).length) := by
    rw [Nat.pow_mul]
    exact Nat.pow_le_pow_left (by norm_num) _
  have h2 : (Nat.digits 10 n).length ≤ 10 * (Nat.digits Base n).length := by
    rw [Nat.digits_length_le_iff (by norm_num)]
    exact Nat.lt_of_lt_of_le hlt h1
  omega

/-! ## Reading -/

theorem parse_step {s : Int} (hs : s = 1 ∨ s = -1) {base d : Nat} (hb : base < 2 ^ 31) (hd : d < Base) (fuel : Nat) (x : Int) :
    ∃ y, bigmul (fuel + 1) (ofInt x) (mkbigint true (BitVec.ofNat 32 base)) = .ok y ∧
      bigadd y ⟨[d], if ((d : Nat) : Int) = 0 then 0 else s⟩ = ofInt (base * x + s * d) := by
  have hm := mk32 hb
  have hlen : (mkbigint true (BitVec.ofNat 32 base)).dig.length < Kmin := by
    rw [hm.1]
    have : (Nat.digits Base ((base : Int)).natAbs).length ≤ 1 := by
      rw [Nat.digits_length_le_iff (by decide)]
      show base < _
      omega
    unfold Kmin
    omega
  obtain ⟨y, h1, h2⟩ := bigmul_small (rep_ofInt x) hm (.inr hlen) fuel
  refine ⟨y, h1, ?_⟩
  rw [← rep_iff]
  by_cases h0 : d = 0
  · subst h0
    rw [if_pos (show ((0 : Nat) : Int) = 0 from rfl)]
    have e : base * x + s * ((0 : Nat) : Int) = x * base := by simp [Int.mul_comm]
    rw [e]
    unfold bigadd
    split
    · rename_i hy
      have hy0 : y.sign = 0 := by simpa using hy
      have hx0 := h2.sign_zero.1 hy0
      have hd0 := h2.nil_iff.2 hx0
      rw [hx0]
      have := uadd_rep (a := { y with sign := (0 : Int) }) (b := ⟨[0], 0⟩) h2.small (Small.cons.2 ⟨by decide, Small.nil⟩)
        (.inr (.inr (by simp only [h2.V, hx0, V_single]; rfl)))
      simpa using this
    · simpa using h2
  · rw [if_neg (by omega)]
    have hv : Rep ⟨[d], s⟩ (s * d) := by
      refine ⟨?_, ?_⟩
      · have : (s * (d : Int)).natAbs = d := by rcases hs with h | h <;> rw [h] <;> omega
        rw [this]
        exact (Nat.digits_of_lt Base d h0 hd).symm
      · rw [Int.sign_mul, Int.sign_eq_one_of_pos (a := (d : Int)) (by omega)]
        rcases hs with h | h <;> rw [h] <;> rfl
    have := bigadd_rep h2 hv
    rwa [Int.mul_comm x] at this

theorem parseloop_spec {s : Int} (hs : s = 1 ∨ s = -1) {base : Nat} (hb : base < 2 ^ 31) (fuel : Nat) : ∀ (cs : List Utf.Char32) (x : Int),
    parseloop (fuel + 1) s base cs (ofInt x) = .ok ((IntFmt.digitsIn base cs).map fun ds => ofInt (ds.foldl (fun v d => base * v + s * (d : Nat)) x))
  | [], x => by simp [parseloop, IntFmt.digitsIn]
  | c :: cs, x => by
    rw [parseloop]
    by_cases hc : c = 95#32
    · rw [if_pos hc, parseloop_spec hs hb fuel cs x]
      subst hc
      rfl
    · rw [if_neg hc]
      have ed : IntFmt.digitsIn base (c :: cs) =
          ((IntFmt.digitOf c).bind fun d => if d < base then some d else none).bind fun d => (IntFmt.digitsIn base cs).map fun l => d :: l := by
        unfold IntFmt.digitsIn
        rw [List.filter_cons_of_pos (by simpa using hc), List.mapM_cons]
        rcases (IntFmt.digitOf c).bind fun d => if d < base then some d else none with _ | d
        · rfl
        · simp only [Option.bind_eq_bind, Option.bind_some]
          rcases List.mapM _ _ with _ | l <;> rfl
      rw [ed]
      have hv := IntFmt.charval_spec c base
      rcases hd : IntFmt.digitOf c with _ | d
      · rw [hd] at hv
        simp only at hv
        simp [hv]
      · rw [hd] at hv
        simp only at hv
        by_cases hlt : d < base
        · rw [if_pos hlt] at hv
          obtain ⟨y, h1, h2⟩ := parse_step hs hb (d := d) (by omega) fuel x
          simp only [hv]
          rw [if_neg (by omega), h1, Res.bind_ok]
          have e : ((d : Nat) : Int).toNat = d := rfl
          rw [e, h2, parseloop_spec hs hb fuel cs (base * x + s * d)]
          simp only [Option.bind_some, if_pos hlt]
          rcases IntFmt.digitsIn base cs with _ | l <;> rfl
        · rw [if_neg hlt] at hv
          simp [hv, hlt]

theorem foldl_sign (s : Int) (base : Nat) : ∀ (ds : List Nat) (n : Nat), ds.foldl (fun v d => (base : Int) * v + s * (d : Nat)) (s * n) = s * (ds.foldl (fun v d => base * v + d) n : Nat)
  | [], n => rfl
  | d :: ds, n => by
    rw [List.foldl_cons, List.foldl_cons, ← foldl_sign s base ds]
    congr 1
    push_cast
    ring

theorem parse_chars {s : Int} (hs : s = 1 ∨ s = -1) {base : Nat} (hb : base < 2 ^ 31) (fuel : Nat) (cs : List Utf.Char32) :
    parseloop (fuel + 1) s base cs (mkbigint true 0#32) = .ok ((IntFmt.readNum base cs).map fun n : Nat => ofInt (s * n)) := by
  rw [rep_iff.1 zero_rep, parseloop_spec hs hb]
  have e : IntFmt.readNum base cs = (IntFmt.digitsIn base cs).map (IntFmt.ofDigits base) := rfl
  rw [e, Option.map_map]
  congr 2
  funext ds
  have := foldl_sign s base ds 0
  rw [Int.ofNat_zero, Int.mul_zero] at this
  show ofInt _ = ofInt _
  rw [this]
  rfl

end Verif.Bigint
