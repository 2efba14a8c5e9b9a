import Verif.Flate.Huff
import Verif.Flate.Win

/-! # Lemmas: valid streams are decoded -/

namespace Verif.Flate

theorem lenTable_get (i b e : Nat) (h : lenTable[i]? = some (b, e)) :
    rdChk extral i = .ok e ∧ rdChk basel i = .ok b ∧ e ≤ 5 ∧ i < 29 := by
  have hi : i < 29 := (List.getElem?_eq_some_iff.1 h).1
  have key : ∀ k : Fin 29, lenTable[k.1]? = some (basel[k.1]!, extral[k.1]!) ∧ rdChk extral k.1 = .ok extral[k.1]! ∧
    rdChk basel k.1 = .ok basel[k.1]! ∧ extral[k.1]! ≤ 5 := by decide
  obtain ⟨h1, h2, h3, h4⟩ := key ⟨i, hi⟩
  dsimp only at h1 h2 h3 h4
  rw [h] at h1
  simp only [Option.some.injEq, Prod.mk.injEq] at h1
  obtain ⟨rfl, rfl⟩ := h1
  exact ⟨h2, h3, h4, hi⟩

theorem dstTable_get (i b e : Nat) (h : dstTable[i]? = some (b, e)) :
    rdChk extrad i = .ok e ∧ rdChk based i = .ok b ∧ e ≤ 13 ∧ i < 30 ∧ 1 ≤ b ∧ b + 2 ^ e ≤ WinSz + 1 := by
  have hi : i < 30 := (List.getElem?_eq_some_iff.1 h).1
  have key : ∀ k : Fin 30, dstTable[k.1]? = some (based[k.1]!, extrad[k.1]!) ∧ rdChk extrad k.1 = .ok extrad[k.1]! ∧
    rdChk based k.1 = .ok based[k.1]! ∧ extrad[k.1]! ≤ 13 ∧ 1 ≤ based[k.1]! ∧ based[k.1]! + 2 ^ extrad[k.1]! ≤ WinSz + 1 := by
    decide
  obtain ⟨h1, h2, h3, h4, h5, h6⟩ := key ⟨i, hi⟩
  dsimp only at h1 h2 h3 h4 h5 h6
  rw [h] at h1
  simp only [Option.some.injEq, Prod.mk.injEq] at h1
  obtain ⟨rfl, rfl⟩ := h1
  exact ⟨h2, h3, h4, hi, h5, h6⟩

theorem Code.pos {lens : List Nat} {s : Nat} {b : List Bool} (h : Code lens s b) : 1 ≤ b.length := by
  obtain ⟨l, _, h0, rfl⟩ := h
  rw [msb_length]; omega

/-- Compressed data is decoded. -/
theorem decomp_ok (ll dl : List Nat) (hl hd : Hufc) (fl : hl.For ll) (fd : hd.For dl) (vl : Valid ll) (vd : Valid dl)
    (out : List Byte) (bs : List Bool) (out' : List Byte) (h : Items ll dl out bs out') (fuel : Nat) (hf : bs.length ≤ fuel)
    (i : In) (hw : i.WF) (w : Win) (hi : w.Inv) (ho : w.out = out) (rest : List Bool) (hp : i.pend = bs ++ rest) :
    ∃ i' w', decomp hl hd fuel i w = FM.ret (i', w') ∧ i'.WF ∧ w'.Inv ∧ w'.out = out' ∧ i'.pend = rest := by
  induction h generalizing fuel i w with
  | @stop out b hb =>
    have hb1 := hb.pos
    obtain ⟨fuel, rfl⟩ : ∃ k, fuel = k + 1 := ⟨fuel - 1, by omega⟩
    obtain ⟨i', e1, e2, e3⟩ := readcode_ok hl ll fl vl i hw 256 b rest hb hp
    refine ⟨i', w, ?_, e2, hi, ho, e3⟩
    rw [decomp, e1, FM.bind_ret]
    rfl
  | @lit out b c bs out' hb _ ih =>
    have hb1 := hb.pos
    have hc : c.toNat < 256 := c.isLt
    rw [List.length_append] at hf
    obtain ⟨fuel, rfl⟩ : ∃ k, fuel = k + 1 := ⟨fuel - 1, by omega⟩
    rw [List.append_assoc] at hp
    obtain ⟨i₁, e1, e2, e3⟩ := readcode_ok hl ll fl vl i hw _ b _ hb hp
    obtain ⟨w₁, e4, e5, e6⟩ := outb_ok w hi c
    obtain ⟨i', w', e7⟩ := ih fuel (by omega) i₁ e2 w₁ e5 (by rw [e6, ho]) e3
    refine ⟨i', w', ?_, e7.2⟩
    rw [decomp, e1, FM.bind_ret]
    dsimp only
    rw [if_pos hc, BitVec.ofNat_toNat, BitVec.setWidth_eq, e4, FM.bind_ret]
    exact e7.1
  | @copy out b d bs out' k j base e x base' e' y ht1 ht2 hx hy hb hd' hlen _ ih =>
    have hb1 := hb.pos
    obtain ⟨a1, a2, a3, a4⟩ := lenTable_get _ _ _ ht1
    obtain ⟨b1, b2, b3, b4, b5, b6⟩ := dstTable_get _ _ _ ht2
    simp only [List.length_append] at hf
    obtain ⟨fuel, rfl⟩ : ∃ k, fuel = k + 1 := ⟨fuel - 1, by omega⟩
    simp only [List.append_assoc] at hp
    obtain ⟨i₁, e1, e2, e3⟩ := readcode_ok hl ll fl vl i hw _ b _ hb hp
    obtain ⟨i₂, f1, f2, f3⟩ := bits_lsb i₁ e2 e x (by omega) hx _ e3
    obtain ⟨i₃, g1, g2, g3⟩ := readcode_ok hd dl fd vd i₂ f2 _ d _ hd' f3
    obtain ⟨i₄, k1, k2, k3⟩ := bits_lsb i₃ g2 e' y (by omega) hy _ g3
    obtain ⟨w₁, m1, m2, m3⟩ := copy_ok w hi (base + x) (base' + y) (by omega) (by omega) (by rw [ho]; exact hlen)
    obtain ⟨i', w', e7⟩ := ih fuel (by omega) i₄ k2 w₁ m2 (by rw [m3, ho]) k3
    refine ⟨i', w', ?_, e7.2⟩
    have hr : reference hd i₁ w k = FM.ret (j, i₄, w₁) := by
      rw [reference]
      simp only [a1, a2, b1, b2, FM.lift_ok, FM.bind_ret, f1, g1, k1, m1]
    rw [decomp, e1, FM.bind_ret]
    dsimp only
    rw [if_neg (by omega), if_pos (by omega), show 257 + k - 257 = k by omega, hr, FM.bind_ret, if_pos (by dsimp only; omega)]
    exact e7.1

theorem fixedlen_eq : fixedlen = fixedLL := by decide +kernel
theorem fixeddst_eq : fixeddst = fixedDL := by decide +kernel
theorem fixedLL_valid : Valid fixedLL := by unfold Valid; decide +kernel
theorem fixedDL_valid : Valid fixedDL := by unfold Valid; decide +kernel

theorem pend_le_fuel (i : In) : i.pend.length ≤ i.fuel := by
  rw [pend_length, In.fuel]; omega

theorem fixed_ok (out : List Byte) (bs : List Bool) (out' : List Byte) (h : Items fixedLL fixedDL out bs out')
    (i : In) (hw : i.WF) (w : Win) (hi : w.Inv) (ho : w.out = out) (rest : List Bool) (hp : i.pend = bs ++ rest) :
    ∃ i' w', fixed i w = FM.ret (i', w') ∧ i'.WF ∧ w'.Inv ∧ w'.out = out' ∧ i'.pend = rest := by
  obtain ⟨hl, e1, f1⟩ := mkhufc_ok fixedLL fixedLL_valid.1 (List.replicate MaxLenSyms 0) (by decide +kernel)
  obtain ⟨hd, e2, f2⟩ := mkhufc_ok fixedDL fixedDL_valid.1 (List.replicate MaxLenSyms 0) (by decide +kernel)
  have hf := pend_le_fuel i
  rw [hp, List.length_append] at hf
  rw [fixed, fixedlen_eq, fixeddst_eq, e1, e2]
  simp only [FM.lift_ok, FM.bind_ret]
  exact decomp_ok fixedLL fixedDL hl hd f1 f2 fixedLL_valid fixedDL_valid out bs out' h _ (by omega) i hw w hi ho rest hp

/-! ## Stored blocks -/

theorem lsb_byte (b c : Byte) (h : lsb 8 b.toNat = lsb 8 c.toNat) : b = c := by
  have := congrArg num h
  rw [num_lsb, num_lsb] at this
  apply BitVec.eq_of_toNat_eq
  have := b.isLt
  have := c.isLt
  omega

theorem bitsOf_append (a b : List Byte) : bitsOf (a ++ b) = bitsOf a ++ bitsOf b := List.flatMap_append ..

theorem storedLoop_ok (data : List Byte) (i : In) (h8 : i.bpos = 8) (hw : i.WF) (w : Win) (hi : w.Inv) (rest : List Bool)
    (hp : i.pend = bitsOf data ++ rest) :
    ∃ i' w', storedLoop data.length i w = FM.ret (i', w') ∧ i'.WF ∧ w'.Inv ∧ w'.out = w.out ++ data ∧ i'.pend = rest := by
  induction data generalizing i w with
  | nil => exact ⟨i, w, rfl, hw, hi, by simp, hp⟩
  | cons c data ih =>
    have hp' : bitsOf i.rd = lsb 8 c.toNat ++ (bitsOf data ++ rest) := by
      rw [In.pend, h8] at hp
      rw [← List.append_assoc, ← bitsOf_cons]; exact hp
    rcases hrd : i.rd with _ | ⟨b, rd⟩
    · rw [hrd] at hp'
      have := congrArg List.length hp'
      rw [List.length_append, lsb_length] at this
      simp [bitsOf_nil] at this
      omega
    · rw [hrd, bitsOf_cons] at hp'
      obtain ⟨q1, q2⟩ := List.append_inj hp' (by rw [lsb_length, lsb_length])
      obtain rfl := lsb_byte _ _ q1
      obtain ⟨w₁, e1, e2, e3⟩ := outb_ok w hi b
      obtain ⟨i', w', e4, e5, e6, e7, e8⟩ := ih { i with rd := rd } h8 ⟨hw.lo, hw.hi, hw.byte⟩ w₁ e2 (by
        rw [In.pend]; dsimp only; rw [h8, q2]; rfl)
      refine ⟨i', w', ?_, e5, e6, by rw [e7, e3]; simp, e8⟩
      rw [List.length_cons, storedLoop, hrd]
      dsimp only
      rw [e1, FM.bind_ret]; exact e4

theorem xor_compl (x : Nat) (h : x < 2 ^ 16) : (2 ^ 16 - 1 - x) ^^^ 0xffff = x := by
  apply Nat.eq_of_testBit_eq
  intro i
  rw [Nat.testBit_xor, show 2 ^ 16 - 1 - x = 2 ^ 16 - (x + 1) by omega, Nat.testBit_two_pow_sub_succ h,
    show (0xffff : Nat) = 2 ^ 16 - 1 from rfl, Nat.testBit_two_pow_sub_one]
  by_cases hi : i < 16
  · simp [hi]
  · have : x.testBit i = false := Nat.testBit_lt_two_pow (Nat.lt_of_lt_of_le h (Nat.pow_le_pow_right (by omega) (by omega)))
    simp [hi, this]

theorem bpos_of_mod (i : In) (hw : i.WF) : i.pend.length % 8 = 8 - i.bpos := by
  have := hw.lo
  rw [pend_length]; omega

theorem align_pend (i : In) (hw : i.WF) (pad rest : List Bool) (hp : i.pend = pad ++ rest) (h : pad.length = 8 - i.bpos) :
    In.WF { i with bpos := 8 } ∧ In.pend { i with bpos := 8 } = rest := by
  refine ⟨⟨by dsimp only; omega, by dsimp only; omega, hw.byte⟩, ?_⟩
  rw [In.pend] at hp ⊢
  dsimp only
  exact (List.append_inj hp (by rw [lsb_length, h])).2

theorem nocomp_ok (pad : List Bool) (data : List Byte) (hd : data.length < 2 ^ 16) (i : In) (hw : i.WF)
    (hpad : pad.length = 8 - i.bpos) (w : Win) (hi : w.Inv) (rest : List Bool)
    (hp : i.pend = pad ++ lsb 16 data.length ++ lsb 16 (2 ^ 16 - 1 - data.length) ++ bitsOf data ++ rest) :
    ∃ i' w', nocomp i w = FM.ret (i', w') ∧ i'.WF ∧ w'.Inv ∧ w'.out = w.out ++ data ∧ i'.pend = rest := by
  simp only [List.append_assoc] at hp
  obtain ⟨w0, p0⟩ := align_pend i hw pad _ hp hpad
  have hm : (In.pend { i with bpos := 8 }).length % 8 = 0 := bpos_of_mod _ w0
  rw [p0] at hm
  obtain ⟨i₁, e1, e2, e3⟩ := bits_lsb _ w0 16 data.length (by omega) hd _ p0
  obtain ⟨i₂, f1, f2, f3⟩ := bits_lsb i₁ e2 16 (2 ^ 16 - 1 - data.length) (by omega) (by omega) _ e3
  have h8 : i₂.bpos = 8 := by
    have h1 := bpos_of_mod i₂ f2
    have h2 := f2.hi
    rw [f3] at h1
    simp only [List.length_append, lsb_length] at hm h1
    omega
  rw [nocomp, e1, FM.bind_ret]
  dsimp only
  rw [f1, FM.bind_ret]
  dsimp only
  rw [if_neg (by rw [xor_compl _ hd]; simp)]
  exact storedLoop_ok data i₂ h8 f2 w hi rest f3

/-! ## Dynamic codes -/

theorem coden_eq : coden = clOrder := rfl

theorem coden_all : ∀ k, k < 19 → k ∈ clOrder := by decide

theorem coden_lt : ∀ k, k ∈ clOrder → k < 19 := by decide

/-- The array while the lengths of the code length code are read (auxiliary). -/
def ClInv (cl length : List Nat) (c : Nat) : Prop :=
  length.length = 320 ∧ ∀ k, k < 19 → length[k]? = some (if k ∈ clOrder.take c then cl.getD k 0 else 0)

theorem clLoop_ok (cl : List Nat) (hcl : ∀ l ∈ cl, l < 8) (n c : Nat) (hn : c + n ≤ 19) (i : In) (hw : i.WF) (length : List Nat)
    (h : ClInv cl length c) (rest : List Bool)
    (hp : i.pend = ((clOrder.drop c).take n).flatMap (fun k => lsb 3 (cl.getD k 0)) ++ rest) :
    ∃ i' length', clLoop n c i length = FM.ret (i', length') ∧ i'.WF ∧ i'.pend = rest ∧ ClInv cl length' (c + n) := by
  induction n generalizing c i length with
  | zero => exact ⟨i, length, rfl, hw, by simpa using hp, h⟩
  | succ n ih =>
    have hc : c < clOrder.length := by show c < 19; omega
    rw [List.drop_eq_getElem_cons hc, List.take_succ_cons, List.flatMap_cons, List.append_assoc] at hp
    have hv : cl.getD clOrder[c] 0 < 2 ^ 3 := by
      rw [List.getD_eq_getElem?_getD]
      cases hk : cl[clOrder[c]]? with
      | none => simp
      | some v => simpa using hcl v (List.mem_of_getElem? hk)
    obtain ⟨i₁, e1, e2, e3⟩ := bits_lsb i hw 3 _ (by omega) hv _ hp
    have hk19 : clOrder[c] < 19 := coden_lt _ (List.getElem_mem hc)
    have hlen := h.1
    obtain ⟨i', length', f1, f2, f3, f4⟩ := ih (c + 1) (by omega) i₁ e2 (length.set clOrder[c] (cl.getD clOrder[c] 0))
      ⟨by rw [List.length_set]; exact h.1, by
        intro k hk
        have hmem : k ∈ clOrder.take (c + 1) ↔ k ∈ clOrder.take c ∨ k = clOrder[c] := by
          rw [List.take_succ_eq_append_getElem hc, List.mem_append, List.mem_singleton]
        by_cases e : k = clOrder[c]
        · rw [e, List.getElem?_set_self (by omega), if_pos (by rw [← e, hmem]; exact .inr e)]
        · rw [List.getElem?_set_ne (by omega), h.2 k hk]
          simp only [hmem, e, or_false]⟩ e3
    refine ⟨i', length', ?_, f2, f3, by rw [show c + (n + 1) = c + 1 + n by omega]; exact f4⟩
    rw [clLoop, e1, FM.bind_ret]
    dsimp only
    rw [coden_eq, rdChk_ok hc, FM.lift_ok, FM.bind_ret, wrChk_ok _ (by omega), FM.lift_ok, FM.bind_ret]
    exact f1

theorem Lens.le {cl : List Nat} {tot : Nat} {pre : List Nat} {bs : List Bool} {full : List Nat} (h : Lens cl tot pre bs full) :
    pre.length ≤ tot ∧ full.length = tot := by
  induction h with
  | done h => exact ⟨by omega, h⟩
  | len _ _ _ ih => simp only [List.length_append] at ih; exact ⟨by omega, ih.2⟩
  | copy _ _ _ ih => simp only [List.length_append] at ih ⊢; exact ⟨by omega, ih.2⟩
  | zeros _ _ _ ih => simp only [List.length_append] at ih; exact ⟨by omega, ih.2⟩
  | zeros' _ _ _ ih => simp only [List.length_append] at ih; exact ⟨by omega, ih.2⟩

theorem fill_ok (l pre : List Nat) (h : l.take pre.length = pre) (n v : Nat) (hn : pre.length + n ≤ l.length) :
    ∃ l', fill l pre.length (pre.length + n) v = .ok l' ∧ l'.length = l.length ∧
      l'.take (pre ++ List.replicate n v).length = pre ++ List.replicate n v := by
  rw [fill, slice_ok (by omega) hn, Res.bind_ok]
  refine ⟨_, rfl, ?_, ?_⟩
  · simp; omega
  · rw [h, show pre.length + n - pre.length = n by omega, List.take_left]

theorem set_ok (l pre : List Nat) (h : l.take pre.length = pre) (v : Nat) (hn : pre.length < l.length) :
    (l.set pre.length v).take (pre ++ [v]).length = pre ++ [v] := by
  rw [List.length_append, List.length_singleton, List.take_succ_eq_append_getElem (by rw [List.length_set]; exact hn)]
  rw [List.getElem_set_self, List.take_set_of_le (Nat.le_refl _), h]

/-- The code lengths are read. -/
theorem lensLoop_ok (cl : List Nat) (hc : Hufc) (hf : hc.For cl) (hv : Valid cl) (tot : Nat) (ht : tot ≤ 320) (pre : List Nat)
    (bs : List Bool) (full : List Nat) (h : Lens cl tot pre bs full) (fuel : Nat) (hfu : bs.length < fuel)
    (i : In) (hw : i.WF) (length : List Nat) (hlen : length.length = 320) (hpre : length.take pre.length = pre)
    (rest : List Bool) (hp : i.pend = bs ++ rest) :
    ∃ i' length', lensLoop hc tot fuel i pre.length length = FM.ret (i', length') ∧ i'.WF ∧ i'.pend = rest ∧
      length'.length = 320 ∧ length'.take tot = full := by
  induction h generalizing fuel i length with
  | @done pre h =>
    obtain ⟨fuel, rfl⟩ : ∃ k, fuel = k + 1 := ⟨fuel - 1, by omega⟩
    refine ⟨i, length, ?_, hw, by simpa using hp, hlen, by rw [← h]; exact hpre⟩
    rw [lensLoop, if_neg (by omega)]
  | @len pre s b bs full hs hb hl ih =>
    have hb1 := hb.pos
    have hle := hl.le.1
    simp only [List.length_append, List.length_singleton] at hfu hle
    obtain ⟨fuel, rfl⟩ : ∃ k, fuel = k + 1 := ⟨fuel - 1, by omega⟩
    rw [List.append_assoc] at hp
    obtain ⟨i₁, e1, e2, e3⟩ := readcode_ok hc cl hf hv i hw _ b _ hb hp
    obtain ⟨i', l', f⟩ := ih fuel (by omega) i₁ e2 (length.set pre.length s) (by rw [List.length_set]; exact hlen)
      (set_ok _ _ hpre _ (by omega)) e3
    refine ⟨i', l', ?_, f.2⟩
    rw [lensLoop, if_pos (by omega), e1, FM.bind_ret]
    dsimp only
    rw [if_neg (by omega), if_pos hs, wrChk_ok _ (by omega), FM.lift_ok, FM.bind_ret]
    have := f.1
    rw [List.length_append] at this; exact this
  | @copy pre v n b bs full hn hb hl ih =>
    have hb1 := hb.pos
    have hle := hl.le.1
    simp only [List.length_append, List.length_singleton, List.length_replicate] at hfu hle
    obtain ⟨fuel, rfl⟩ : ∃ k, fuel = k + 1 := ⟨fuel - 1, by omega⟩
    simp only [List.append_assoc] at hp
    obtain ⟨i₁, e1, e2, e3⟩ := readcode_ok hc cl hf hv i hw _ b _ hb hp
    obtain ⟨i₂, g1, g2, g3⟩ := bits_lsb i₁ e2 2 n (by omega) hn _ e3
    obtain ⟨l₁, k1, k2, k3⟩ := fill_ok length (pre ++ [v]) hpre (3 + n) v (by simp; omega)
    obtain ⟨i', l', f⟩ := ih fuel (by omega) i₂ g2 l₁ (by omega) k3 g3
    refine ⟨i', l', ?_, f.2⟩
    have hlast : length[(pre ++ [v]).length - 1]? = some v := by
      rw [← List.getElem?_take_of_lt (show (pre ++ [v]).length - 1 < (pre ++ [v]).length by simp), hpre]; simp
    have hr : rdChk length ((pre ++ [v]).length - 1) = .ok v := by rw [rdChk, hlast]
    have f1 := f.1
    rw [List.length_append, List.length_replicate] at f1
    have hpos : (pre ++ [v]).length ≠ 0 := by simp
    have hle' : (pre ++ [v]).length + (3 + n) ≤ tot := by simp; omega
    generalize (pre ++ [v]).length = c at *
    rw [lensLoop, if_pos (by omega), e1, FM.bind_ret]
    dsimp only
    rw [if_neg (by omega), if_neg (by omega)]
    show (bits i₁ 2 >>= _) = _
    rw [g1, FM.bind_ret]
    dsimp only
    rw [Nat.add_comm n 3, if_pos rfl, if_neg (by omega), hr, FM.lift_ok, FM.bind_ret, k1, FM.lift_ok, FM.bind_ret]
    exact f1
  | @zeros pre n b bs full hn hb hl ih =>
    have hb1 := hb.pos
    have hle := hl.le.1
    simp only [List.length_append, List.length_replicate] at hfu hle
    obtain ⟨fuel, rfl⟩ : ∃ k, fuel = k + 1 := ⟨fuel - 1, by omega⟩
    simp only [List.append_assoc] at hp
    obtain ⟨i₁, e1, e2, e3⟩ := readcode_ok hc cl hf hv i hw _ b _ hb hp
    obtain ⟨i₂, g1, g2, g3⟩ := bits_lsb i₁ e2 3 n (by omega) hn _ e3
    obtain ⟨l₁, k1, k2, k3⟩ := fill_ok length pre hpre (3 + n) 0 (by omega)
    obtain ⟨i', l', f⟩ := ih fuel (by omega) i₂ g2 l₁ (by omega) k3 g3
    refine ⟨i', l', ?_, f.2⟩
    have f1 := f.1
    rw [List.length_append, List.length_replicate] at f1
    rw [lensLoop, if_pos (by omega), e1, FM.bind_ret]
    dsimp only
    rw [if_neg (by omega), if_neg (by omega)]
    show (bits i₁ 3 >>= _) = _
    rw [g1, FM.bind_ret]
    dsimp only
    rw [if_neg (by omega), if_pos rfl, Nat.add_comm n 3, if_neg (by omega), k1, FM.lift_ok, FM.bind_ret]
    exact f1
  | @zeros' pre n b bs full hn hb hl ih =>
    have hb1 := hb.pos
    have hle := hl.le.1
    simp only [List.length_append, List.length_replicate] at hfu hle
    obtain ⟨fuel, rfl⟩ : ∃ k, fuel = k + 1 := ⟨fuel - 1, by omega⟩
    simp only [List.append_assoc] at hp
    obtain ⟨i₁, e1, e2, e3⟩ := readcode_ok hc cl hf hv i hw _ b _ hb hp
    obtain ⟨i₂, g1, g2, g3⟩ := bits_lsb i₁ e2 7 n (by omega) hn _ e3
    obtain ⟨l₁, k1, k2, k3⟩ := fill_ok length pre hpre (11 + n) 0 (by omega)
    obtain ⟨i', l', f⟩ := ih fuel (by omega) i₂ g2 l₁ (by omega) k3 g3
    refine ⟨i', l', ?_, f.2⟩
    have f1 := f.1
    rw [List.length_append, List.length_replicate] at f1
    rw [lensLoop, if_pos (by omega), e1, FM.bind_ret]
    dsimp only
    rw [if_neg (by omega), if_neg (by omega)]
    show (bits i₁ 7 >>= _) = _
    rw [g1, FM.bind_ret]
    dsimp only
    rw [if_neg (by omega), if_neg (show ¬ 18 = 17 by omega), Nat.add_comm n 11, if_neg (by omega), k1, FM.lift_ok, FM.bind_ret]
    exact f1

theorem ClInv.init (cl : List Nat) (J : Junk) (hJ : J.Sized) :
    ∃ l, fill J.length 0 19 0 = .ok l ∧ ClInv cl l 0 := by
  have hlen : J.length.length = 320 := hJ.length
  rw [fill, slice_ok (by omega) (by omega), Res.bind_ok]
  refine ⟨_, rfl, by simp; omega, ?_⟩
  intro k hk
  rw [List.take_zero, List.nil_append, List.getElem?_append_left (by simp; omega), List.getElem?_replicate,
    if_pos (by omega), List.take_zero, if_neg (by simp)]

theorem ClInv.take {cl length : List Nat} {c : Nat} (h : ClInv cl length c) (hcl : cl.length = 19)
    (hz : ∀ k ∈ clOrder.drop c, cl[k]? = some 0) : slice length 0 19 = .ok cl := by
  rw [slice_prefix (by rw [h.1]; omega)]
  congr 1
  apply List.ext_getElem?
  intro k
  by_cases hk : k < 19
  · rw [List.getElem?_take_of_lt hk, h.2 k hk, List.getD_eq_getElem?_getD]
    have hg : cl[k]? = some cl[k] := List.getElem?_eq_getElem (by omega)
    by_cases hm : k ∈ clOrder.take c
    · rw [if_pos hm, hg]; rfl
    · have : k ∈ clOrder.drop c := by
        have h1 := coden_all k hk
        rw [← List.take_append_drop c clOrder, List.mem_append] at h1
        exact h1.resolve_left hm
      rw [if_neg hm, hz k this]
  · rw [List.getElem?_eq_none (by simp; omega), List.getElem?_eq_none (by omega)]

/-- A block with codes of its own is decoded. -/
theorem dynamic_ok (J : Junk) (hJ : J.Sized) (out out' : List Byte) (ll dl cl : List Nat) (ncode : Nat) (lb bs : List Bool)
    (a1 : 257 ≤ ll.length) (a2 : ll.length ≤ 286) (a3 : 1 ≤ dl.length) (a4 : dl.length ≤ 30) (a5 : 4 ≤ ncode) (a6 : ncode ≤ 19)
    (a7 : cl.length = 19) (a8 : ∀ l ∈ cl, l < 8) (a9 : ∀ k ∈ clOrder.drop ncode, cl[k]? = some 0)
    (v1 : Valid cl) (v2 : Valid ll) (v3 : Valid dl) (b1 : ll[256]? ≠ some 0)
    (b2 : Lens cl (ll.length + dl.length) [] lb (ll ++ dl)) (b3 : Items ll dl out bs out')
    (i : In) (hw : i.WF) (w : Win) (hi : w.Inv) (ho : w.out = out) (rest : List Bool)
    (hp : i.pend = lsb 5 (ll.length - 257) ++ lsb 5 (dl.length - 1) ++ lsb 4 (ncode - 4) ++
      (clOrder.take ncode).flatMap (fun k => lsb 3 (cl.getD k 0)) ++ lb ++ bs ++ rest) :
    ∃ i' w', dynamic J i w = FM.ret (i', w') ∧ i'.WF ∧ w'.Inv ∧ w'.out = out' ∧ i'.pend = rest := by
  simp only [List.append_assoc] at hp
  obtain ⟨i₁, e1, e2, e3⟩ := bits_lsb i hw 5 (ll.length - 257) (by omega) (by omega) _ hp
  obtain ⟨i₂, f1, f2, f3⟩ := bits_lsb i₁ e2 5 (dl.length - 1) (by omega) (by omega) _ e3
  obtain ⟨i₃, g1, g2, g3⟩ := bits_lsb i₂ f2 4 (ncode - 4) (by omega) (by omega) _ f3
  obtain ⟨l₀, k1, k2⟩ := ClInv.init cl J hJ
  obtain ⟨i₄, l₁, m1, m2, m3, m4⟩ := clLoop_ok cl a8 ncode 0 (by omega) i₃ g2 l₀ k2 _ (by rw [List.drop_zero]; exact g3)
  rw [Nat.zero_add] at m4
  have n1 := m4.take a7 a9
  have hs288 : J.symbol.length = 288 := hJ.symbol
  obtain ⟨hc, o1, o2⟩ := mkhufc_ok cl v1.1 J.symbol (by omega)
  have hfu := pend_le_fuel i₄
  obtain ⟨i₅, l₂, p1, p2, p3, p4, p5⟩ := lensLoop_ok cl hc o2 v1 (ll.length + dl.length) (by omega) [] lb _ b2 (i₄.fuel + 1)
    (by rw [m3, List.length_append] at hfu; omega) i₄ m2 l₁ m4.1 rfl _ m3
  have q1 : l₂.take ll.length = ll := by
    have := congrArg (List.take ll.length) p5
    rwa [List.take_take, Nat.min_eq_left (by omega), List.take_left] at this
  have q2 : slice l₂ 0 ll.length = .ok ll := by rw [slice_prefix (by omega), q1]
  have q3 : slice l₂ ll.length (ll.length + dl.length) = .ok dl := by
    rw [slice_ok (by omega) (by omega), p5, List.drop_left]
  have q4 : ∃ e, rdChk l₂ 256 = .ok e ∧ e ≠ 0 := by
    have h1 : l₂[256]? = ll[256]? := by
      rw [← List.getElem?_take_of_lt (show 256 < ll.length by omega), q1]
    have h2 : ll[256]? = some ll[256] := List.getElem?_eq_getElem (by omega)
    refine ⟨ll[256], by rw [rdChk, h1, h2], ?_⟩
    intro e; rw [h2, e] at b1; exact b1 rfl
  obtain ⟨e, q5, q6⟩ := q4
  obtain ⟨hl, r1, r2⟩ := mkhufc_ok ll v2.1 J.symbol (by omega)
  obtain ⟨hd, s1, s2⟩ := mkhufc_ok dl v3.1 J.symbol (by omega)
  have hfu2 := pend_le_fuel i₅
  rw [dynamic, e1, FM.bind_ret]
  dsimp only
  rw [show ll.length - 257 + 257 = ll.length by omega, if_neg (by omega), f1, FM.bind_ret]
  dsimp only
  rw [show dl.length - 1 + 1 = dl.length by omega, if_neg (by omega), g1, FM.bind_ret]
  dsimp only
  rw [show ncode - 4 + 4 = ncode by omega, k1, FM.lift_ok, FM.bind_ret, m1, FM.bind_ret]
  dsimp only
  rw [n1, FM.lift_ok, FM.bind_ret, o1, FM.lift_ok, FM.bind_ret]
  rw [show lensLoop hc (ll.length + dl.length) (i₄.fuel + 1) i₄ 0 l₁ = _ from p1, FM.bind_ret]
  dsimp only
  rw [q5, FM.lift_ok, FM.bind_ret, if_neg q6, q2, FM.lift_ok, FM.bind_ret, r1, FM.lift_ok, FM.bind_ret, q3, FM.lift_ok,
    FM.bind_ret, s1, FM.lift_ok, FM.bind_ret]
  exact decomp_ok ll dl hl hd r2 s2 v2 v3 out bs out' b3 _ (by rw [p3, List.length_append] at hfu2; omega) i₅ p2 w hi ho rest p3

/-! ## Streams -/

theorem block_ok (J : Junk) (hJ : J.Sized) (p ty : Nat) (out : List Byte) (bs : List Bool) (out' : List Byte)
    (h : Block True p ty out bs out') (i : In) (hw : i.WF) (w : Win) (hi : w.Inv) (ho : w.out = out) (rest : List Bool)
    (hp : i.pend = bs ++ rest) (hal : (p + i.pend.length) % 8 = 0) :
    ty < 3 ∧ ∃ i' w', block J ty i w = FM.ret (i', w') ∧ i'.WF ∧ w'.Inv ∧ w'.out = out' ∧ i'.pend = rest := by
  cases h with
  | @stored _ pad data h1 h2 =>
    refine ⟨by omega, ?_⟩
    have hm := bpos_of_mod i hw
    have := hw.lo
    have := nocomp_ok pad data h2 i hw (by omega) w hi rest hp
    rw [ho] at this
    exact this
  | fixed h => exact ⟨by omega, fixed_ok out bs out' h i hw w hi ho rest hp⟩
  | dynamic a1 a2 a3 a4 a5 a6 a7 a8 a9 v b1 b2 b3 =>
    obtain ⟨v1, v2, v3⟩ := v trivial
    exact ⟨by omega, dynamic_ok J hJ out out' _ _ _ _ _ _ a1 a2 a3 a4 a5 a6 a7 a8 a9 v1 v2 v3 b1 b2 b3 i hw w hi ho rest hp⟩

theorem lsb_one (b : Bool) (bs : List Bool) : b :: bs = lsb 1 b.toNat ++ bs := by cases b <;> rfl

theorem decodeLoop_ok (J : Junk) (hJ : J.Sized) (p : Nat) (out : List Byte) (bs : List Bool) (out' : List Byte)
    (h : Stream True p out bs out') (fuel : Nat) (hf : bs.length ≤ fuel) (i : In) (hw : i.WF) (w : Win) (hi : w.Inv)
    (ho : w.out = out) (rest : List Bool) (hp : i.pend = bs ++ rest) (hal : (p + i.pend.length) % 8 = 0) :
    ∃ i' w', decodeLoop J fuel i w = FM.ret (i', w') ∧ i'.WF ∧ w'.Inv ∧ w'.out = out' ∧ i'.pend = rest := by
  induction h generalizing fuel i w with
  | @last p ty out bs out' hb =>
    simp only [List.cons_append, List.length_cons] at hf
    obtain ⟨fuel, rfl⟩ : ∃ k, fuel = k + 1 := ⟨fuel - 1, by omega⟩
    have hty : ty < 3 := by cases hb <;> omega
    rw [List.cons_append, List.cons_append, lsb_one, List.append_assoc] at hp
    obtain ⟨i₁, e1, e2, e3⟩ := bits_lsb i hw 1 _ (by omega) (by decide) _ hp
    obtain ⟨i₂, f1, f2, f3⟩ := bits_lsb i₁ e2 2 ty (by omega) (by omega) _ e3
    obtain ⟨_, i', w', g1, g⟩ := block_ok J hJ _ ty out bs out' hb i₂ f2 w hi ho rest f3 (by
      rw [f3]; rw [hp] at hal; simp only [List.length_append, lsb_length] at hal ⊢; omega)
    refine ⟨i', w', ?_, g⟩
    rw [decodeLoop, e1, FM.bind_ret]
    dsimp only
    rw [f1, FM.bind_ret]
    dsimp only
    rw [g1, FM.bind_ret, if_pos (by decide)]
  | @more p ty out bs out₁ rest' out' hb _ ih =>
    simp only [List.cons_append, List.length_cons, List.length_append, lsb_length] at hf
    obtain ⟨fuel, rfl⟩ : ∃ k, fuel = k + 1 := ⟨fuel - 1, by omega⟩
    have hty : ty < 3 := by cases hb <;> omega
    simp only [List.cons_append, List.append_assoc] at hp
    rw [lsb_one] at hp
    obtain ⟨i₁, e1, e2, e3⟩ := bits_lsb i hw 1 _ (by omega) (by decide) _ hp
    obtain ⟨i₂, f1, f2, f3⟩ := bits_lsb i₁ e2 2 ty (by omega) (by omega) _ e3
    obtain ⟨_, i₃, w₁, g1, g2, g3, g4, g5⟩ := block_ok J hJ _ ty out bs out₁ hb i₂ f2 w hi ho (rest' ++ rest) f3 (by
      rw [f3]; rw [hp] at hal; simp only [List.length_append, lsb_length] at hal ⊢; omega)
    obtain ⟨i', w', k1, k⟩ := ih fuel (by omega) i₃ g2 w₁ g3 g4 g5 (by
      rw [g5]; rw [hp] at hal; simp only [List.length_append, lsb_length] at hal ⊢; omega)
    refine ⟨i', w', ?_, k⟩
    rw [decodeLoop, e1, FM.bind_ret]
    dsimp only
    rw [f1, FM.bind_ret]
    dsimp only
    rw [g1, FM.bind_ret, if_neg (by decide)]
    exact k1

theorem init_wf (S : List Byte) : In.WF ⟨S, 0, 8⟩ ∧ In.pend ⟨S, 0, 8⟩ = bitsOf S :=
  ⟨⟨by dsimp only; omega, by dsimp only; omega, by dsimp only; decide⟩, rfl⟩

end Verif.Flate
