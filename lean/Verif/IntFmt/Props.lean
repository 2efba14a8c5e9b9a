import Verif.IntFmt.Model
import Verif.IntFmt.Spec
import Verif.Sort.Props

/-!
# C11: integer formatting and parsing
-/

namespace Verif.IntFmt
open Verif.Utf (Char32)

/-! ## Numerals -/

/-- Least significant digit first. -/
def leDigits (b : Nat) : List Nat → Nat
  | [] => 0
  | d :: ds => d + b * leDigits b ds

theorem ofDigits_append (b : Nat) (l : List Nat) (d : Nat) : ofDigits b (l ++ [d]) = b * ofDigits b l + d := by
  simp [ofDigits]

theorem ofDigits_reverse (b : Nat) (l : List Nat) : ofDigits b l.reverse = leDigits b l := by
  induction l with
  | nil => rfl
  | cons d l ih => rw [List.reverse_cons, ofDigits_append, ih, leDigits, Nat.add_comm]

theorem leDigits_unique (b : Nat) (l m : List Nat) : (∀ d ∈ l, d < b) → (∀ d ∈ m, d < b) →
    l.getLast? ≠ some 0 → m.getLast? ≠ some 0 → leDigits b l = leDigits b m → l = m := by
  induction l generalizing m with
  | nil =>
    intro _ hm _ hml h
    induction m with
    | nil => rfl
    | cons e m ih =>
      exfalso
      simp only [leDigits] at h
      have he : e = 0 := by omega
      have hb : 0 < b := by have := hm e (by simp); omega
      have : leDigits b m = 0 := by
        have h2 : b * leDigits b m = 0 := by omega
        rcases Nat.mul_eq_zero.mp h2 with h3 | h3
        · omega
        · exact h3
      cases m with
      | nil => subst he; simp at hml
      | cons f m =>
        have := ih (fun d hd => hm d (by simp [hd])) (by simpa using hml) (by rw [this]; rfl)
        simp at this
  | cons d l ih =>
    intro hl hm hll hml h
    cases m with
    | nil =>
      exfalso
      simp only [leDigits] at h
      have hd : d = 0 := by omega
      have hb : 0 < b := by have := hl d (by simp); omega
      have : leDigits b l = 0 := by
        have h2 : b * leDigits b l = 0 := by omega
        rcases Nat.mul_eq_zero.mp h2 with h3 | h3
        · omega
        · exact h3
      cases l with
      | nil => subst hd; simp at hll
      | cons f l =>
        have := ih [] (fun d hd => hl d (by simp [hd])) (by simp) (by simpa using hll) (by simp) (by rw [this]; rfl)
        simp at this
    | cons e m =>
      simp only [leDigits] at h
      have hdb := hl d (by simp)
      have heb := hm e (by simp)
      have hde : d = e := by
        have := congrArg (· % b) h
        simpa [Nat.add_mul_mod_self_left, Nat.mod_eq_of_lt hdb, Nat.mod_eq_of_lt heb] using this
      have hr : leDigits b l = leDigits b m := by
        have h2 : b * leDigits b l = b * leDigits b m := by omega
        exact Nat.eq_of_mul_eq_mul_left (by omega) h2
      subst hde
      congr 1
      apply ih m (fun d hd => hl d (by simp [hd])) (fun d hd => hm d (by simp [hd])) ?_ ?_ hr
      · cases l with
        | nil => simp
        | cons => simpa using hll
      · cases m with
        | nil => simp
        | cons => simpa using hml

/-- Canonical numerals are unique, so the theorems below determine the text. -/
theorem numeral_unique (b n : Nat) (l m : List Nat) (hl : Numeral b n l) (hm : Numeral b n m) : l = m := by
  have key : ∀ l : List Nat, Numeral b n l → n = 0 → l = [0] := by
    intro l hl h0
    have hv := hl.value
    obtain ⟨d, t, rfl⟩ : ∃ d t, l = d :: t := by
      cases l with
      | nil => exact absurd rfl hl.ne
      | cons d t => exact ⟨d, t, rfl⟩
    have hfold : ∀ (t : List Nat) (v : Nat), v ≤ t.foldl (fun v d => b * v + d) v ∨ b = 0 := by
      intro t
      induction t with
      | nil => intro v; left; exact Nat.le_refl _
      | cons e t ih =>
        intro v
        rcases Nat.eq_zero_or_pos b with hb | hb
        · right; exact hb
        · rcases ih (b * v + e) with h | h
          · left
            have : v ≤ b * v := Nat.le_mul_of_pos_left v hb
            simp only [List.foldl_cons]
            omega
          · right; exact h
    have hb : d < b := hl.lt d (by simp)
    simp only [ofDigits, List.foldl_cons, Nat.mul_zero, Nat.zero_add] at hv
    rcases hfold t d with h | h
    · have hd : d = 0 := by omega
      rw [hl.lead d t rfl hd, hd]
    · omega
  by_cases h0 : n = 0
  · rw [key l hl h0, key m hm h0]
  · have nz : ∀ l : List Nat, Numeral b n l → l.reverse.getLast? ≠ some 0 := by
      intro l hl hc
      rw [List.getLast?_reverse] at hc
      cases l with
      | nil => simp at hc
      | cons d t =>
        simp at hc
        have := hl.lead d t rfl hc
        subst this
        have hv := hl.value
        simp [ofDigits] at hv
        omega
    have := leDigits_unique b l.reverse m.reverse (fun d hd => hl.lt d (by simpa using hd))
      (fun d hd => hm.lt d (by simpa using hd)) (nz l hl) (nz m hm)
      (by rw [← ofDigits_reverse, ← ofDigits_reverse, List.reverse_reverse, List.reverse_reverse, hl.value, hm.value])
    have e := congrArg List.reverse this
    simpa using e

/-! ## Formatting -/

theorem digitchars_glyph : ∀ d : Fin 16, digitchars[d.val]? = some (glyph d.val) := by decide +kernel

theorem digLoop_spec (base : Nat) (h2 : 2 ≤ base) (h16 : base ≤ 16) (m : Nat) : ∀ (fuel : Nat) (b : List Byte) (val : Nat),
    m < fuel → val < 2 ^ m → b.length + m ≤ 64 →
    ∃ ds, digLoop base fuel b val = .ok (b ++ ds.map glyph) ∧ leDigits base ds = val ∧ (∀ d ∈ ds, d < base) ∧
      ds.getLast? ≠ some 0 := by
  induction m with
  | zero =>
    intro fuel b val hf hv _
    have : val = 0 := by simpa using hv
    subst this
    obtain ⟨f, rfl⟩ : ∃ f, fuel = f + 1 := ⟨fuel - 1, by omega⟩
    exact ⟨[], by simp [digLoop], rfl, by simp, by simp⟩
  | succ m ih =>
    intro fuel b val hf hv hb
    obtain ⟨f, rfl⟩ : ∃ f, fuel = f + 1 := ⟨fuel - 1, by omega⟩
    unfold digLoop
    by_cases h0 : val = 0
    · subst h0
      exact ⟨[], by simp, rfl, by simp, by simp⟩
    · have hlt : val % base < base := Nat.mod_lt _ (by omega)
      have hg := digitchars_glyph ⟨val % base, by omega⟩
      simp only at hg
      have hrd : rdChk digitchars (val % base) = .ok (glyph (val % base)) := by
        unfold rdChk; rw [hg]
      rw [if_pos h0, if_neg (by omega), hrd, Res.bind_ok, if_pos (by omega)]
      have hdiv : val / base < 2 ^ m := by
        have h3 : val / base ≤ val / 2 := Nat.div_le_div_left h2 (by omega)
        rw [Nat.pow_succ] at hv
        omega
      obtain ⟨ds, g1, g2, g3, g4⟩ := ih f (b ++ [glyph (val % base)]) (val / base) (by omega) hdiv (by simp; omega)
      refine ⟨val % base :: ds, by rw [g1]; simp, ?_, ?_, ?_⟩
      · rw [leDigits, g2]; exact Nat.mod_add_div val base
      · intro d hd
        rcases List.mem_cons.mp hd with rfl | hd
        · exact hlt
        · exact g3 d hd
      · cases ds with
        | nil =>
          simp only [leDigits] at g2
          simp only [List.getLast?_singleton, ne_eq, Option.some.injEq]
          intro hz
          have := Nat.mod_add_div val base
          rw [hz, ← g2] at this
          omega
        | cons e t => simpa using g4

theorem emit_spec (base : Nat) (h2 : 2 ≤ base) (h16 : base ≤ 16) (padto : Nat) (fill : Char32) (isneg : Bool)
    (val : Nat) (hv : val < 2 ^ 64) :
    ∃ ds, Numeral base val ds ∧ emit base padto fill isneg val = .ok (layout fill padto isneg ds) := by
  -- the digits
  obtain ⟨ds, hn, hd⟩ : ∃ ds, Numeral base val ds ∧
      digLoop base 66 (if val = 0 then [48#8] else []) val = .ok (ds.reverse.map glyph) := by
    by_cases h0 : val = 0
    · subst h0
      refine ⟨[0], ⟨by simp, by simp; omega, rfl, ?_⟩, ?_⟩
      · intro d rest h _; simp at h; exact h.2
      · simp [digLoop, glyph]
    · obtain ⟨ds, g1, g2, g3, g4⟩ := digLoop_spec base h2 h16 64 66 [] val (by omega) hv (by simp)
      refine ⟨ds.reverse, ⟨?_, by simpa using g3, by rw [ofDigits_reverse, g2], ?_⟩, ?_⟩
      · intro h
        have : ds = [] := by simpa using h
        subst this
        exact h0 (by rw [← g2]; rfl)
      · intro d rest h hd0
        exfalso
        apply g4
        have e := congrArg List.head? h
        rw [List.head?_reverse] at e
        rw [e, hd0]
        rfl
      · rw [if_neg h0, g1]; simp
  refine ⟨ds, hn, ?_⟩
  have hpos : 1 ≤ ds.length := by
    cases ds with
    | nil => exact absurd rfl hn.ne
    | cons => simp
  unfold emit
  rw [hd, Res.bind_ok]
  simp only [List.length_map, List.length_reverse, Res.pure_eq, ← List.map_reverse, List.reverse_reverse]
  congr 1
  unfold layout
  have hfill : fill = 48#32 ↔ fill.toNat = 48 := by
    constructor
    · rintro rfl; rfl
    · intro h; apply BitVec.eq_of_toNat_eq; simpa using h
  have hpad : (if isneg = true then clamp ((padto : Int) - ds.length) 0 padto - 1
      else clamp ((padto : Int) - ds.length) 0 padto).toNat =
      padto - (ds.length + (if isneg = true then [45] else [] : List Byte).length) := by
    unfold clamp
    cases isneg <;> simp <;> split <;> (try split) <;> omega
  rw [hpad]
  simp only
  by_cases hf : fill = 48#32
  · have hf2 := hfill.mp hf
    cases isneg <;> simp [hf]
  · have hf2 : ¬ fill.toNat = 48 := fun h => hf (hfill.mpr h)
    cases isneg <;> simp [hf, hf2]

/-- The integer types. -/
def IsWidth (w : Nat) : Prop := w = 8 ∨ w = 16 ∨ w = 32 ∨ w = 64

theorem shl_one (w : Nat) (hw : IsWidth w) : (1#64 <<< ((w - 1) % 64)).toNat = 2 ^ (w - 1) := by
  rcases hw with rfl | rfl | rfl | rfl <;> rfl

theorem mask (w : Nat) (hw : IsWidth w) (x : BitVec 64) (hx : x.toNat < 2 ^ w) :
    x &&& (BitVec.allOnes 64 >>> (w % 64)) = x := by
  apply BitVec.eq_of_toNat_eq
  rw [BitVec.toNat_and]
  have : ∃ k, w ≤ k ∧ (BitVec.allOnes 64 >>> (w % 64)).toNat = 2 ^ k - 1 := by
    rcases hw with rfl | rfl | rfl | rfl
    · exact ⟨56, by omega, rfl⟩
    · exact ⟨48, by omega, rfl⟩
    · exact ⟨32, by omega, rfl⟩
    · exact ⟨64, by omega, rfl⟩
  obtain ⟨k, h1, h2⟩ := this
  rw [h2, Nat.and_two_pow_sub_one_eq_mod, Nat.mod_eq_of_lt]
  exact Nat.lt_of_lt_of_le hx (Nat.pow_le_pow_right (by omega) h1)

/-- **C11, formatting unsigned integers** of every width, in every base from 2 to 16, with
every padding. -/
theorem fmt_unsigned (w : Nat) (hw : IsWidth w) (v : BitVec w) (base : Nat) (h2 : 2 ≤ base) (h16 : base ≤ 16)
    (padto : Nat) (fill : Char32) :
    ∃ ds, Numeral base v.toNat ds ∧
      intfmt base padto fill false (v.setWidth 64) w = .ok (layout fill padto false ds) := by
  have hv := v.isLt
  have hw64 : 2 ^ w ≤ 2 ^ 64 := Nat.pow_le_pow_right (by omega) (by rcases hw with rfl | rfl | rfl | rfl <;> omega)
  have e : (v.setWidth 64).toNat = v.toNat := by rw [BitVec.toNat_setWidth, Nat.mod_eq_of_lt (by omega)]
  unfold intfmt
  rw [if_neg (by simp), mask w hw _ (by omega), e]
  exact emit_spec base h2 h16 padto fill false v.toNat (by omega)

theorem signExtend_toInt {w : Nat} (hw : IsWidth w) (v : BitVec w) : (v.signExtend 64).toInt = v.toInt := by
  rw [BitVec.toInt_signExtend]
  have h1 := @BitVec.toInt_lt w v
  have h2 := @BitVec.le_toInt w v
  rcases hw with rfl | rfl | rfl | rfl <;>
  · rw [Int.bmod_eq_of_le] <;> simp at * <;> omega

/-- **C11, formatting signed integers, part.**  Missing: the least 64-bit integer in bases
other than ten or with padding, and bases above 16. -/
theorem fmt_signed_partial (w : Nat) (hw : IsWidth w) (v : BitVec w) (base : Nat) (h2 : 2 ≤ base) (h16 : base ≤ 16)
    (padto : Nat) (fill : Char32) (hmin : v.toInt ≠ -2 ^ 63) :
    ∃ ds, Numeral base v.toInt.natAbs ds ∧
      intfmt base padto fill true (v.signExtend 64) w = .ok (layout fill padto (decide (v.toInt < 0)) ds) := by
  have hx := signExtend_toInt hw v
  obtain ⟨x, hxd⟩ : ∃ x, x = v.signExtend 64 := ⟨_, rfl⟩
  rw [← hxd] at hx ⊢
  have hb1 := @BitVec.toInt_lt w v
  have hb2 := @BitVec.le_toInt w v
  have hxn := x.isLt
  have hxi := BitVec.toInt_eq_toNat_cond x
  unfold intfmt
  rw [shl_one w hw]
  by_cases hneg : v.toInt < 0
  · have hxt : 2 * x.toNat ≥ 2 ^ 64 := by
      by_contra hc
      rw [if_pos (by omega)] at hxi
      omega
    rw [if_neg (by omega)] at hxi
    have hge : x.toNat ≥ 2 ^ (w - 1) := by
      rcases hw with rfl | rfl | rfl | rfl <;> simp at * <;> omega
    have hnn : (-x).toNat = v.toInt.natAbs := by
      rw [BitVec.toNat_neg]; omega
    have hlt : v.toInt.natAbs < 2 ^ 63 := by omega
    rw [if_pos ⟨rfl, hge⟩]
    simp only
    rw [if_neg (by rw [BitVec.toInt_eq_toNat_cond, if_pos (by omega)]; omega), hnn]
    simp only [hneg, decide_true]
    exact emit_spec base h2 h16 padto fill true _ (by omega)
  · have hxt : 2 * x.toNat < 2 ^ 64 := by
      by_contra hc
      rw [if_neg (by omega)] at hxi
      omega
    rw [if_pos hxt] at hxi
    have hlt : x.toNat < 2 ^ (w - 1) := by
      rcases hw with rfl | rfl | rfl | rfl <;> simp at * <;> omega
    have hlt2 : x.toNat < 2 ^ w := Nat.lt_of_lt_of_le hlt (Nat.pow_le_pow_right (by omega) (by omega))
    rw [if_neg (by omega), mask w hw x hlt2]
    simp only [hneg, decide_false]
    have : v.toInt.natAbs = x.toNat := by omega
    rw [this]
    exact emit_spec base h2 h16 padto fill false _ (by omega)

/-! ## Prefixes -/

/-- **`hasprefix`** decides the prefix relation. -/
theorem hasprefix_iff (s pre : List Byte) : ∃ b, hasprefix s pre = .ok b ∧ (b = true ↔ pre <+: s) := by
  unfold hasprefix
  rw [Sort.strncmp_spec, Sort.strcmp_spec, Res.bind_ok, List.take_length]
  have hp : pre <+: s ↔ s.take pre.length = pre := by
    constructor
    · intro h; exact (List.prefix_iff_eq_take.mp h).symm
    · intro h; exact List.prefix_iff_eq_take.mpr h.symm
  have hm : s.take pre.length = pre ↔ (s.take pre.length).map (·.toNat) = pre.map (·.toNat) := by
    rw [List.map_inj_right]
    intro x y h
    exact BitVec.eq_of_toNat_eq h
  rw [hp, hm, ← Sort.lex_equal]
  cases Sort.lex ((s.take pre.length).map (·.toNat)) (pre.map (·.toNat))
  · exact ⟨false, rfl, by simp⟩
  · exact ⟨true, rfl, by simp⟩
  · exact ⟨false, rfl, by simp⟩

theorem hasprefix_eq (s pre : List Byte) [Decidable (pre <+: s)] : hasprefix s pre = .ok (decide (pre <+: s)) := by
  obtain ⟨b, h1, h2⟩ := hasprefix_iff s pre
  rw [h1]
  congr 1
  by_cases h : pre <+: s
  · rw [h2.mpr h]; simp [h]
  · cases b
    · simp [h]
    · exact absurd (h2.mp rfl) h

/-! ## Parsing -/

theorem charval_spec (c : Char32) (base : Nat) :
    charval c base = match digitOf c with
      | some d => if d < base then (d : Int) else -1
      | none => -1 := by
  unfold charval digitOf
  simp only [ge_iff_le, BitVec.le_def]
  have e48 : (48#32).toNat = 48 := rfl
  have e57 : (57#32).toNat = 57 := rfl
  have e97 : (97#32).toNat = 97 := rfl
  have e122 : (122#32).toNat = 122 := rfl
  have e65 : (65#32).toNat = 65 := rfl
  have e90 : (90#32).toNat = 90 := rfl
  rw [e48, e57, e97, e122, e65, e90]
  have hc := c.isLt
  by_cases h1 : 48 ≤ c.toNat ∧ c.toNat ≤ 57
  · have e : (c - 48#32).toNat = c.toNat - 48 := by
      rw [BitVec.toNat_sub, e48]; omega
    simp only [if_pos h1, e]
    split <;> split <;> omega
  · by_cases h2 : 97 ≤ c.toNat ∧ c.toNat ≤ 122
    · have e : (c - 97#32 + 10#32).toNat = c.toNat - 87 := by
        rw [BitVec.toNat_add, BitVec.toNat_sub, e97, show (10#32).toNat = 10 from rfl]; omega
      simp only [if_neg h1, if_pos h2, e]
      split <;> split <;> omega
    · by_cases h3 : 65 ≤ c.toNat ∧ c.toNat ≤ 90
      · have e : (c - 65#32 + 10#32).toNat = c.toNat - 55 := by
          rw [BitVec.toNat_add, BitVec.toNat_sub, e65, show (10#32).toNat = 10 from rfl]; omega
        simp only [if_neg h1, if_neg h2, if_pos h3, e]
        split <;> split <;> omega
      · simp [if_neg h1, if_neg h2, if_neg h3]

/-- The digits of a text, if all its characters are digits or underscores. -/
def digitsIn (b : Nat) (cs : List Char32) : Option (List Nat) :=
  (cs.filter (· ≠ 95#32)).mapM fun c => (digitOf c).bind fun d => if d < b then some d else none

theorem parseLoop_spec (w base : Nat) (cs : List Char32) : ∀ (n : Nat),
    parseLoop w base cs (BitVec.ofNat w n) =
      (digitsIn base cs).map fun ds => BitVec.ofNat w (ds.foldl (fun v d => base * v + d) n) := by
  induction cs with
  | nil => intro n; rfl
  | cons c cs ih =>
    intro n
    unfold parseLoop digitsIn
    by_cases hu : c = 95#32
    · rw [if_pos hu, ih n]
      simp [digitsIn, hu]
    · rw [if_neg hu]
      simp only
      rw [List.filter_cons_of_pos (by simpa using hu), List.mapM_cons, charval_spec]
      cases hd : digitOf c with
      | none => simp
      | some d =>
        simp only [Option.bind_some]
        by_cases hlt : d < base
        · rw [if_pos hlt, if_pos hlt, if_pos (by omega)]
          have : BitVec.ofNat w n * BitVec.ofInt w base + BitVec.ofInt w d = BitVec.ofNat w (base * n + d) := by
            apply BitVec.eq_of_toNat_eq
            simp [BitVec.toNat_add, BitVec.toNat_mul, Nat.mul_comm]
          rw [this, ih]
          simp only [digitsIn]
          cases (List.mapM (fun c => (digitOf c).bind fun d => if d < base then some d else none)
            (List.filter (fun x => decide (x ≠ 95#32)) cs)) <;> simp
        · rw [if_neg hlt, if_neg hlt, if_neg (by omega)]
          simp

theorem doparse_spec (w base : Nat) (cs : List Char32) (h : Utf.CodePoints cs) (neg : Bool) :
    doparse w (Utf.enc cs) neg base = .ok ((readNum base cs).map fun n =>
      if neg then -(BitVec.ofNat w n) else BitVec.ofNat w n) := by
  unfold doparse
  rw [Utf.bychar_enc cs h, Res.bind_ok]
  have := parseLoop_spec w base cs 0
  rw [show BitVec.ofNat w 0 = 0#w from rfl] at this
  rw [this]
  unfold readNum
  rw [show (cs.filter (· ≠ 95#32)).mapM (fun c => (digitOf c).bind fun d => if d < base then some d else none) =
    digitsIn base cs from rfl]
  cases digitsIn base cs <;> rfl

theorem enc_minus (cs : List Char32) : Utf.enc (45#32 :: cs) = 45#8 :: Utf.enc cs := rfl

theorem utf8_head_minus (c : Char32) (rest : List Byte) (hc : c.toNat < 0x110000)
    (h : [45#8] <+: Utf.utf8 c.toNat ++ rest) : c = 45#32 := by
  have key : ∀ n, n < 0x110000 → ∀ l, [45#8] <+: Utf.utf8 n ++ l → n = 45 := by
    intro n hn l hl
    obtain ⟨t, ht⟩ := hl
    unfold Utf.utf8 at ht
    have tn : ∀ m, m < 256 → (45#8 = BitVec.ofNat 8 m) → m = 45 := by
      intro m hm h
      have := congrArg BitVec.toNat h
      have e2 : (BitVec.ofNat 8 m).toNat = m := by rw [BitVec.toNat_ofNat]; omega
      rw [e2] at this
      exact this.symm
    split at ht
    · simp at ht; exact tn n (by omega) ht.1
    · split at ht
      · simp at ht; have := tn _ (by omega) ht.1; omega
      · split at ht
        · simp at ht; have := tn _ (by omega) ht.1; omega
        · simp at ht; have := tn _ (by omega) ht.1; omega
  apply BitVec.eq_of_toNat_eq
  exact key _ hc _ h

theorem not_minus (cs : List Char32) (h : Utf.CodePoints cs) (hm : cs.head? ≠ some 45#32) :
    ¬ [45#8] <+: Utf.enc cs := by
  cases cs with
  | nil => simp [Utf.enc]
  | cons c cs =>
    intro hp
    rw [Utf.enc_cons] at hp
    exact hm (by rw [utf8_head_minus c _ (h c (by simp)) hp]; rfl)

/-- **C11, parsing.**  `intparsebase` accepts exactly texts of digits of the base and
underscores after an optional minus sign; the result is the number written, modulo the
width of the type. -/
theorem intparsebase_spec (w base : Nat) (cs : List Char32) (h : Utf.CodePoints cs) :
    (cs.head? ≠ some 45#32 → intparsebase w (Utf.enc cs) base = .ok ((readNum base cs).map (BitVec.ofNat w))) ∧
    (intparsebase w (Utf.enc (45#32 :: cs)) base = .ok ((readNum base cs).map fun n => -(BitVec.ofNat w n))) := by
  constructor
  · intro hm
    unfold intparsebase
    obtain ⟨b, h1, h2⟩ := hasprefix_iff (Utf.enc cs) [45#8]
    have hb : b = false := by
      cases b
      · rfl
      · exact absurd (h2.mp rfl) (not_minus cs h hm)
    rw [h1, hb, Res.bind_ok, if_neg (by simp), doparse_spec w base cs h]
    rfl
  · unfold intparsebase
    obtain ⟨b, h1, h2⟩ := hasprefix_iff (Utf.enc (45#32 :: cs)) [45#8]
    have hb : b = true := h2.mpr ⟨Utf.enc cs, by rw [enc_minus]; rfl⟩
    rw [h1, hb, Res.bind_ok, if_pos rfl, enc_minus, slice_suffix (by simp), Res.bind_ok]
    simp only [List.drop_succ_cons, List.drop_zero]
    rw [doparse_spec w base cs h]
    rfl

/-! ## Round trip -/

/-- A digit as a character. -/
def glyphC (d : Nat) : Char32 := BitVec.ofNat 32 (if d < 10 then 48 + d else 87 + d)

theorem glyph_facts : ∀ d : Fin 36, Utf.utf8 (glyphC d.val).toNat = [glyph d.val] ∧ digitOf (glyphC d.val) = some d.val ∧
    glyphC d.val ≠ 95#32 ∧ glyphC d.val ≠ 45#32 ∧ (glyphC d.val).toNat < 0x110000 := by decide +kernel

theorem enc_glyphs (ds : List Nat) (h : ∀ d ∈ ds, d < 36) : Utf.enc (ds.map glyphC) = ds.map glyph := by
  induction ds with
  | nil => rfl
  | cons d ds ih =>
    have := (glyph_facts ⟨d, h d (by simp)⟩).1
    simp only at this
    rw [List.map_cons, Utf.enc_cons, this, ih fun e he => h e (by simp [he])]
    rfl

theorem codepoints_glyphs (ds : List Nat) (h : ∀ d ∈ ds, d < 36) : Utf.CodePoints (ds.map glyphC) := by
  intro c hc
  obtain ⟨d, hd, rfl⟩ := List.mem_map.mp hc
  exact (glyph_facts ⟨d, h d hd⟩).2.2.2.2

theorem head_glyphs (ds : List Nat) (h : ∀ d ∈ ds, d < 36) : (ds.map glyphC).head? ≠ some 45#32 := by
  cases ds with
  | nil => simp
  | cons d ds =>
    have := (glyph_facts ⟨d, h d (by simp)⟩).2.2.2.1
    simpa using this

theorem digitsIn_glyphs (base : Nat) (hb : base ≤ 36) (ds : List Nat) (h : ∀ d ∈ ds, d < base) :
    digitsIn base (ds.map glyphC) = some ds := by
  induction ds with
  | nil => rfl
  | cons d ds ih =>
    have hd := h d (by simp)
    have hf := glyph_facts ⟨d, by omega⟩
    simp only at hf
    have ih := ih fun e he => h e (by simp [he])
    unfold digitsIn at ih ⊢
    rw [List.map_cons, List.filter_cons_of_pos (by simpa using hf.2.2.1), List.mapM_cons, hf.2.1, ih]
    simp [hd]

/-- Any number of leading zeros is read back, with and without sign. -/
theorem parse_digits (w base n k : Nat) (hb2 : 2 ≤ base) (hb : base ≤ 36) (ds : List Nat) (hn : Numeral base n ds) :
    intparsebase w (List.replicate k 48#8 ++ ds.map glyph) base = .ok (some (BitVec.ofNat w n)) ∧
    intparsebase w (45#8 :: (List.replicate k 48#8 ++ ds.map glyph)) base = .ok (some (-(BitVec.ofNat w n))) := by
  have hz : List.replicate k 48#8 ++ ds.map glyph = (List.replicate k 0 ++ ds).map glyph := by
    simp [glyph]
  have hlt : ∀ d ∈ List.replicate k 0 ++ ds, d < base := by
    intro d hd
    rcases List.mem_append.mp hd with h | h
    · rw [List.eq_of_mem_replicate h]; omega
    · exact hn.lt d h
  have hlt36 : ∀ d ∈ List.replicate k 0 ++ ds, d < 36 := fun d hd => by have := hlt d hd; omega
  have hval : ofDigits base (List.replicate k 0 ++ ds) = n := by
    rw [← hn.value]
    unfold ofDigits
    rw [List.foldl_append]
    have hz0 : ∀ k, (List.replicate k 0).foldl (fun v d => base * v + d) 0 = 0 := by
      intro k
      induction k with
      | zero => rfl
      | succ k ih => simpa [List.replicate_succ] using ih
    rw [hz0]
  have hread : readNum base ((List.replicate k 0 ++ ds).map glyphC) = some n := by
    have e := digitsIn_glyphs base hb _ hlt
    unfold digitsIn at e
    unfold readNum
    rw [e, Option.map_some, hval]
  obtain ⟨p1, p2⟩ := intparsebase_spec w base ((List.replicate k 0 ++ ds).map glyphC) (codepoints_glyphs _ hlt36)
  rw [enc_minus] at p2
  rw [enc_glyphs _ hlt36, hread] at p1 p2
  rw [hz]
  exact ⟨p1 (head_glyphs _ hlt36), p2⟩

/-- **C11, round trip, unsigned.**  Printed without padding, or padded with zeros. -/
theorem roundtrip_unsigned (w : Nat) (hw : IsWidth w) (v : BitVec w) (base : Nat) (h2 : 2 ≤ base) (h16 : base ≤ 16)
    (padto : Nat) :
    ∃ out, intfmt base padto 48#32 false (v.setWidth 64) w = .ok out ∧ intparsebase w out base = .ok (some v) := by
  obtain ⟨ds, hn, h⟩ := fmt_unsigned w hw v base h2 h16 padto 48#32
  refine ⟨_, h, ?_⟩
  have := (parse_digits w base v.toNat (padto - (ds.length + 0)) h2 (by omega) ds hn).1
  rw [BitVec.ofNat_toNat, BitVec.setWidth_eq] at this
  have e : layout 48#32 padto false ds = List.replicate (padto - (ds.length + 0)) 48#8 ++ ds.map glyph := by
    unfold layout
    have eu : Utf.utf8 48 = [48#8] := rfl
    simp [eu]
  rw [e, this]

/-- **C11, round trip, signed, part.**  Missing: the least 64-bit integer. -/
theorem roundtrip_signed_partial (w : Nat) (hw : IsWidth w) (v : BitVec w) (base : Nat) (h2 : 2 ≤ base) (h16 : base ≤ 16)
    (padto : Nat) (hmin : v.toInt ≠ -2 ^ 63) :
    ∃ out, intfmt base padto 48#32 true (v.signExtend 64) w = .ok out ∧ intparsebase w out base = .ok (some v) := by
  obtain ⟨ds, hn, h⟩ := fmt_signed_partial w hw v base h2 h16 padto 48#32 hmin
  refine ⟨_, h, ?_⟩
  have eu : Utf.utf8 48 = [48#8] := rfl
  by_cases hneg : v.toInt < 0
  · have := (parse_digits w base _ (padto - (ds.length + 1)) h2 (by omega) ds hn).2
    have e : layout 48#32 padto (decide (v.toInt < 0)) ds =
        45#8 :: (List.replicate (padto - (ds.length + 1)) 48#8 ++ ds.map glyph) := by
      unfold layout
      simp [eu, hneg]
    rw [e, this]
    congr 2
    rw [← BitVec.toInt_inj]
    have : BitVec.ofNat w v.toInt.natAbs = -v := by
      apply BitVec.eq_of_toInt_eq
      rw [BitVec.toInt_neg, ← BitVec.ofInt_natCast, BitVec.toInt_ofInt]
      have : (v.toInt.natAbs : Int) = -v.toInt := by omega
      rw [this]
    rw [this, BitVec.neg_neg]
  · have := (parse_digits w base _ (padto - (ds.length + 0)) h2 (by omega) ds hn).1
    have e : layout 48#32 padto (decide (v.toInt < 0)) ds =
        List.replicate (padto - (ds.length + 0)) 48#8 ++ ds.map glyph := by
      unfold layout
      simp [eu, hneg]
    rw [e, this]
    congr 2
    apply BitVec.eq_of_toInt_eq
    rw [← BitVec.ofInt_natCast, BitVec.toInt_ofInt]
    have : (v.toInt.natAbs : Int) = v.toInt := by omega
    rw [this, BitVec.toInt_bmod_cancel]

/-- The least 64-bit integer in decimal, unpadded. -/
theorem roundtrip_min64 : intfmt 10 0 32#32 true (BitVec.intMin 64) 64 = .ok minText ∧
    intparsebase 64 minText 10 = .ok (some (BitVec.intMin 64)) := by
  constructor <;> decide +kernel

/-- The claim of C11 for signed 64-bit integers and the bases `std.fmt` has digits for. -/
def FmtClaim : Prop := ∀ (v : BitVec 64) (base : Nat), 2 ≤ base → base ≤ 16 →
  ∃ out, intfmt base 0 32#32 true v 64 = .ok out ∧ intparsebase 64 out base = .ok (some v)

/-- The least 64-bit integer is printed in decimal whatever the base. -/
theorem fmt_min_violated : ¬ FmtClaim := by
  intro h
  obtain ⟨out, h1, h2⟩ := h (BitVec.intMin 64) 16 (by omega) (by omega)
  have e : intfmt 16 0 32#32 true (BitVec.intMin 64) 64 = .ok minText := by decide +kernel
  rw [e] at h1
  cases h1
  revert h2
  decide +kernel

/-- Bases up to 36, as `intparsebase` accepts. -/
def BaseClaim : Prop := ∀ (v : BitVec 8) (base : Nat), 2 ≤ base → base ≤ 36 →
  ∃ out, intfmt base 0 32#32 false (v.setWidth 64) 8 = .ok out

/-- Printing the digit sixteen in base seventeen aborts. -/
theorem fmt_base_violated : ¬ BaseClaim := by
  intro h
  obtain ⟨out, h1⟩ := h 16 17 (by omega) (by omega)
  have e : intfmt 17 0 32#32 false ((16 : BitVec 8).setWidth 64) 8 = .abort := by decide +kernel
  rw [e] at h1
  cases h1

theorem not_prefix_glyphs (ds : List Nat) (h : ∀ d ∈ ds, d < 10) (b : Byte) (hb : ∀ d : Fin 10, glyph d.val ≠ b) :
    ¬ [48#8, b] <+: ds.map glyph := by
  intro hp
  obtain ⟨t, ht⟩ := hp
  match ds, h, ht with
  | [], _, ht => simp at ht
  | [d], _, ht => simp at ht
  | d :: e :: ds, h, ht =>
    simp at ht
    exact hb ⟨e, h e (by simp)⟩ ht.2.1.symm

/-- **C11, `intparse`** reads canonical decimal numerals. -/
theorem intparse_decimal (w n : Nat) (ds : List Nat) (hn : Numeral 10 n ds) :
    intparse w (ds.map glyph) = .ok (some (BitVec.ofNat w n)) ∧
    intparse w (45#8 :: ds.map glyph) = .ok (some (-(BitVec.ofNat w n))) := by
  have hlt36 : ∀ d ∈ ds, d < 36 := fun d hd => by have := hn.lt d hd; omega
  have hcp := codepoints_glyphs ds hlt36
  have hread : readNum 10 (ds.map glyphC) = some n := by
    have e := digitsIn_glyphs 10 (by omega) ds hn.lt
    unfold digitsIn at e
    unfold readNum
    rw [e, Option.map_some, hn.value]
  have body : ∀ neg, intparseBody w (ds.map glyph) neg =
      .ok (some (if neg then -(BitVec.ofNat w n) else BitVec.ofNat w n)) := by
    intro neg
    unfold intparseBody
    rw [if_neg (by simp; exact hn.ne)]
    have hf : ∀ b : Byte, (∀ d : Fin 10, glyph d.val ≠ b) → hasprefix (ds.map glyph) [48#8, b] = .ok false := by
      intro b hb
      obtain ⟨r, h1, h2⟩ := hasprefix_iff (ds.map glyph) [48#8, b]
      cases r
      · exact h1
      · exact absurd (h2.mp rfl) (not_prefix_glyphs ds hn.lt b hb)
    rw [hf 120#8 (by decide +kernel), Res.bind_ok, if_neg (by simp), hf 111#8 (by decide +kernel), Res.bind_ok,
      if_neg (by simp), hf 98#8 (by decide +kernel), Res.bind_ok, if_neg (by simp)]
    have := doparse_spec w 10 (ds.map glyphC) hcp neg
    rw [enc_glyphs ds hlt36, hread] at this
    exact this
  constructor
  · unfold intparse
    obtain ⟨r, h1, h2⟩ := hasprefix_iff (ds.map glyph) [45#8]
    have hr : r = false := by
      cases r
      · rfl
      · exfalso
        have := not_minus _ hcp (head_glyphs ds hlt36)
        rw [enc_glyphs ds hlt36] at this
        exact this (h2.mp rfl)
    rw [h1, hr, Res.bind_ok, if_neg (by simp), body false]
    rfl
  · unfold intparse
    obtain ⟨r, h1, h2⟩ := hasprefix_iff (45#8 :: ds.map glyph) [45#8]
    have hr : r = true := h2.mpr ⟨ds.map glyph, rfl⟩
    rw [h1, hr, Res.bind_ok, if_pos rfl, slice_suffix (by simp), Res.bind_ok]
    simp only [List.drop_succ_cons, List.drop_zero]
    rw [body true]
    rfl

/-! ## Examples -/

/-- -42 as an `int8` in base 16, padded with zeros to six characters: "-0002a". -/
example : intfmt 16 6 48#32 true ((-42#8).signExtend 64) 8 = .ok [45, 48, 48, 48, 50, 97] := by decide +kernel
/-- The same padded with blanks: "   -2a". -/
example : intfmt 16 6 32#32 true ((-42#8).signExtend 64) 8 = .ok [32, 32, 32, 45, 50, 97] := by decide +kernel
/-- The least `int8` in base 2. -/
example : intfmt 2 0 32#32 true ((0x80#8).signExtend 64) 8 = .ok [45, 49, 48, 48, 48, 48, 48, 48, 48] ∧
    intparsebase 8 [45, 49, 48, 48, 48, 48, 48, 48, 48] 2 = .ok (some 0x80#8) := by decide +kernel
example : Numeral 16 0x2a [2, 10] := ⟨by simp, by simp, rfl, by simp⟩
/-- Underscores are skipped; foreign digits refused. -/
example : intparsebase 32 [49, 95, 48] 10 = .ok (some 10) ∧ intparsebase 32 [49, 56] 8 = .ok none := by decide +kernel
example : intparse 32 [45, 48, 120, 102, 102] = .ok (some (-255)) := by decide +kernel

end Verif.IntFmt
