import Verif.Fold.Spec

/-! # Constant folding: lemmas -/

namespace Verif.Fold

theorem Ty.Ok.pos {t : Ty} (h : t.Ok) : 0 < t.w ∧ t.w ≤ 64 := by unfold Ty.Ok at h; omega

/-- Only the low bits count. -/
theorem norm_congr {t : Ty} {x y : Int} (h : x % 2 ^ t.w = y % 2 ^ t.w) : t.norm x = t.norm y := by
  unfold Ty.norm
  split
  · have h : x % ((2 ^ t.w : Nat) : Int) = y % ((2 ^ t.w : Nat) : Int) := by exact_mod_cast h
    rw [← Int.emod_bmod, h, Int.emod_bmod]
  · exact h

theorem norm_emod (t : Ty) (x : Int) : t.norm x % 2 ^ t.w = x % 2 ^ t.w := by
  unfold Ty.norm
  split
  · have := Int.bmod_emod (x := x) (m := 2 ^ t.w)
    exact_mod_cast this
  · exact Int.emod_emod_of_dvd _ (Int.dvd_refl _)

theorem norm_norm (t : Ty) (x : Int) : t.norm (t.norm x) = t.norm x := norm_congr (norm_emod t x)

theorem norm_add (t : Ty) (x y : Int) : t.norm (t.norm x + t.norm y) = t.norm (x + y) :=
  norm_congr (by rw [Int.add_emod, norm_emod, norm_emod, ← Int.add_emod])

theorem norm_sub (t : Ty) (x y : Int) : t.norm (t.norm x - t.norm y) = t.norm (x - y) :=
  norm_congr (by rw [Int.sub_emod, norm_emod, norm_emod, ← Int.sub_emod])

theorem norm_mul (t : Ty) (x y : Int) : t.norm (t.norm x * t.norm y) = t.norm (x * y) :=
  norm_congr (by rw [Int.mul_emod, norm_emod, norm_emod, ← Int.mul_emod])

theorem norm_neg (t : Ty) (x : Int) : t.norm (-t.norm x) = t.norm (-x) := by
  have := norm_sub t 0 x
  rw [show (0 : Int) - x = -x by omega] at this
  rw [← this]
  refine norm_congr ?_
  rw [Int.sub_emod, norm_emod t 0, ← Int.sub_emod]
  congr 1; omega

theorem norm_mul_left (t : Ty) (x y : Int) : t.norm (t.norm x * y) = t.norm (x * y) :=
  norm_congr (by rw [Int.mul_emod, norm_emod, ← Int.mul_emod])

theorem two_pow_split {w : Nat} (h : 0 < w) : (2 : Int) ^ w = 2 * 2 ^ (w - 1) := by
  obtain ⟨k, rfl⟩ : ∃ k, w = k + 1 := ⟨w - 1, by omega⟩
  rw [Nat.add_sub_cancel, Int.pow_succ]; omega

theorem pow_pos' (w : Nat) : (0 : Int) < 2 ^ w := Int.pow_pos (by omega)

theorem norm_of_has {t : Ty} (ht : t.Ok) {x : Int} (h : t.has x) : t.norm x = x := by
  have hp := two_pow_split ht.pos.1
  have hq := pow_pos' (t.w - 1)
  unfold Ty.has at h
  unfold Ty.norm
  split at h
  · rw [if_pos ‹_›]
    refine Int.bmod_eq_of_le ?_ ?_
    · push_cast; rw [hp]; omega
    · push_cast; rw [hp]; omega
  · rw [if_neg ‹_›]; exact Int.emod_eq_of_lt h.1 h.2

theorem has_norm {t : Ty} (ht : t.Ok) (x : Int) : t.has (t.norm x) := by
  have hp := two_pow_split ht.pos.1
  have hq := pow_pos' (t.w - 1)
  unfold Ty.has Ty.norm
  split
  · have hw : (0 : Int) < ((2 ^ t.w : Nat) : Int) := by push_cast; omega
    have h1 := Int.le_bmod (x := x) (m := 2 ^ t.w) (by exact_mod_cast hw)
    have h2 := Int.bmod_lt (x := x) (m := 2 ^ t.w) (by exact_mod_cast hw)
    push_cast at h1 h2
    rw [hp] at h1 h2
    constructor <;> omega
  · exact ⟨Int.emod_nonneg _ (by omega), Int.emod_lt_of_pos _ (by omega)⟩

/-- The value of a word in a type depends on its low bits only. -/
theorem norm_bits {t : Ty} {a b : BitVec 64} (h : a.setWidth t.w = b.setWidth t.w) (hw : t.w ≤ 64) : t.norm a.toInt = t.norm b.toInt := by
  refine norm_congr ?_
  have key : ∀ c : BitVec 64, c.toInt % 2 ^ t.w = ((c.setWidth t.w).toNat : Int) := by
    intro c
    rw [BitVec.toNat_setWidth, BitVec.toInt_eq_toNat_bmod]
    have hd : ((2 ^ t.w : Nat) : Int) ∣ ((2 ^ 64 : Nat) : Int) := by
      exact_mod_cast Nat.pow_dvd_pow 2 hw
    have h1 : ((c.toNat : Int).bmod (2 ^ 64)) % ((2 ^ t.w : Nat) : Int) = (c.toNat : Int) % ((2 ^ t.w : Nat) : Int) := by
      rw [← Int.emod_emod_of_dvd _ hd, Int.bmod_emod, Int.emod_emod_of_dvd _ hd]
    rw [Int.natCast_emod]
    exact_mod_cast h1
  rw [key, key, h]

theorem setWidth_ofInt_norm {t : Ty} (ht : t.Ok) (x : BitVec 64) : (BitVec.ofInt 64 (t.norm x.toInt)).setWidth t.w = x.setWidth t.w := by
  apply BitVec.eq_of_toNat_eq
  have hw := ht.pos.2
  have hd : ((2 ^ t.w : Nat) : Int) ∣ ((2 ^ 64 : Nat) : Int) := by
    exact_mod_cast Nat.pow_dvd_pow 2 hw
  have key : ∀ c : BitVec 64, (((c.setWidth t.w).toNat : Nat) : Int) = c.toInt % 2 ^ t.w := by
    intro c
    rw [BitVec.toNat_setWidth, BitVec.toInt_eq_toNat_bmod]
    have h1 : ((c.toNat : Int).bmod (2 ^ 64)) % ((2 ^ t.w : Nat) : Int) = (c.toNat : Int) % ((2 ^ t.w : Nat) : Int) := by
      rw [← Int.emod_emod_of_dvd _ hd, Int.bmod_emod, Int.emod_emod_of_dvd _ hd]
    rw [Int.natCast_emod]
    exact_mod_cast h1.symm
  have h2 : (BitVec.ofInt 64 (t.norm x.toInt)).toInt % 2 ^ t.w = x.toInt % 2 ^ t.w := by
    rw [BitVec.toInt_ofInt]
    rw [← norm_emod t x.toInt]
    have h1 : ((t.norm x.toInt).bmod (2 ^ 64)) % ((2 ^ t.w : Nat) : Int) = (t.norm x.toInt) % ((2 ^ t.w : Nat) : Int) := by
      rw [← Int.emod_emod_of_dvd _ hd, Int.bmod_emod, Int.emod_emod_of_dvd _ hd]
    exact_mod_cast h1
  have := key (BitVec.ofInt 64 (t.norm x.toInt))
  rw [h2, ← key x] at this
  exact_mod_cast this

theorem toInt_of_inS64 {x : Int} (h : inS64 x) : (BitVec.ofInt 64 x).toInt = x := by
  rw [BitVec.toInt_ofInt]
  unfold inS64 at h
  exact Int.bmod_eq_of_le (by simpa using h.1) (by simpa using h.2)

theorem inS64_toInt (v : BitVec 64) : inS64 v.toInt := by
  have h1 := BitVec.le_toInt v
  have h2 := BitVec.toInt_lt (x := v)
  unfold inS64; simp at h1 h2; omega

theorem toInt_sshiftRight' (a : BitVec 64) (n : Nat) : (a.sshiftRight n).toInt = a.toInt / 2 ^ n := by
  rw [BitVec.toInt_sshiftRight, Int.shiftRight_eq_div_pow]; norm_cast

theorem toNat_of_small {b : BitVec 64} (h : 0 ≤ b.toInt) : b.toNat = b.toInt.toNat := by
  have := b.isLt
  rw [BitVec.toInt_eq_toNat_cond] at h ⊢
  split at h <;> split <;> omega

theorem norm_bmod64 {t : Ty} (ht : t.Ok) (x : Int) : t.norm (x.bmod (2 ^ 64)) = t.norm x := by
  refine norm_congr ?_
  have hd : ((2 ^ t.w : Nat) : Int) ∣ ((2 ^ 64 : Nat) : Int) := by
    exact_mod_cast Nat.pow_dvd_pow 2 ht.pos.2
  have h1 : (x.bmod (2 ^ 64)) % ((2 ^ t.w : Nat) : Int) = x % ((2 ^ t.w : Nat) : Int) := by
    rw [← Int.emod_emod_of_dvd _ hd, Int.bmod_emod, Int.emod_emod_of_dvd _ hd]
  exact_mod_cast h1

theorem has_amount {t : Ty} (ht : t.Ok) {y : Int} (h0 : 0 ≤ y) (h1 : y < t.w) : t.has y := by
  unfold Ty.has
  unfold Ty.Ok at ht
  rcases ht with h | h | h | h <;> rw [h] at h1 ⊢ <;> split <;> constructor <;> omega

theorem mask_amount {t : Ty} (ht : t.Ok) {y : Int} (h0 : 0 ≤ y) (h1 : y < t.w) : t.mask y = y.toNat := by
  unfold Ty.mask
  unfold Ty.Ok at ht
  rcases ht with h | h | h | h <;> rw [h] at h1 ⊢ <;> split <;> congr 1 <;> omega

/-- The compiler's arithmetic on two literals computes the exact value, which agrees with the machine's. -/
theorem arith_spec {t : Ty} (ht : t.Ok) (op : Op) (a b : BitVec 64) (hf : FitOp t op a.toInt b.toInt) :
    ∃ v, arith op a b = .ok v ∧ v.toInt = exactop op a.toInt b.toInt ∧
      t.opr op (t.norm a.toInt) (t.norm b.toInt) = some (t.norm v.toInt) := by
  have hw := ht.pos.2
  cases op with
  | add =>
    refine ⟨_, if_pos hf, ?_, ?_⟩
    · rw [BitVec.toInt_add, ← BitVec.toInt_ofInt]; exact toInt_of_inS64 hf
    · simp only [Ty.opr, Option.some.injEq]; rw [norm_add, BitVec.toInt_add, norm_bmod64 ht]
  | sub =>
    refine ⟨_, rfl, ?_, ?_⟩
    · rw [BitVec.toInt_sub]; rfl
    · simp only [Ty.opr, Option.some.injEq]; rw [norm_sub, BitVec.toInt_sub, norm_bmod64 ht]
  | mul =>
    refine ⟨_, if_pos hf, ?_, ?_⟩
    · rw [BitVec.toInt_mul, ← BitVec.toInt_ofInt]; exact toInt_of_inS64 hf
    · simp only [Ty.opr, Option.some.injEq]; rw [norm_mul, BitVec.toInt_mul, norm_bmod64 ht]
  | div =>
    obtain ⟨h0, hx, hy, hq, hs⟩ := hf
    refine ⟨_, if_pos hs, toInt_of_inS64 hs, ?_⟩
    rw [toInt_of_inS64 hs, norm_of_has ht hx, norm_of_has ht hy, norm_of_has ht hq]
    simp only [Ty.opr]; rw [if_neg (by tauto)]
  | mod =>
    obtain ⟨h0, hx, hy, hq, hs⟩ := hf
    have hr : t.has (a.toInt.tmod b.toInt) := by
      unfold Ty.has at hx hy ⊢
      have hab : (a.toInt.tmod b.toInt).natAbs ≤ a.toInt.natAbs := by
        rw [Int.natAbs_tmod]; exact Nat.mod_le _ _
      have hsg : 0 ≤ a.toInt → 0 ≤ a.toInt.tmod b.toInt := fun h => Int.tmod_nonneg _ h
      have hsg' : a.toInt ≤ 0 → a.toInt.tmod b.toInt ≤ 0 := by
        intro h
        have := Int.tmod_nonneg (a := -a.toInt) b.toInt (by omega)
        rw [Int.neg_tmod] at this; omega
      split at hx
      · rw [if_pos ‹_›]; omega
      · rw [if_neg ‹_›]; omega
    have hr64 : inS64 (a.toInt.tmod b.toInt) := by
      have ha := inS64_toInt a
      unfold inS64 at ha ⊢
      have hab : (a.toInt.tmod b.toInt).natAbs ≤ a.toInt.natAbs := by
        rw [Int.natAbs_tmod]; exact Nat.mod_le _ _
      have hsg : 0 ≤ a.toInt → 0 ≤ a.toInt.tmod b.toInt := fun h => Int.tmod_nonneg _ h
      have hsg' : a.toInt ≤ 0 → a.toInt.tmod b.toInt ≤ 0 := by
        intro h
        have := Int.tmod_nonneg (a := -a.toInt) b.toInt (by omega)
        rw [Int.neg_tmod] at this; omega
      omega
    refine ⟨_, if_pos hs, toInt_of_inS64 hr64, ?_⟩
    rw [toInt_of_inS64 hr64, norm_of_has ht hx, norm_of_has ht hy, norm_of_has ht hr]
    simp only [Ty.opr]; rw [if_neg (by tauto)]
  | bsl =>
    obtain ⟨h0, h1⟩ := hf
    refine ⟨_, if_pos ⟨h0, by omega⟩, ?_, ?_⟩
    · rw [BitVec.toInt_shiftLeft, toNat_of_small h0, Nat.shiftLeft_eq]
      simp only [exactop]
      rw [BitVec.toInt_eq_toNat_bmod (x := a)]
      push_cast
      rw [Int.bmod_mul_bmod]
    · simp only [Ty.opr, Option.some.injEq]
      rw [norm_of_has ht (has_amount ht h0 h1), mask_amount ht h0 h1, norm_mul_left, BitVec.toInt_shiftLeft, toNat_of_small h0,
        norm_bmod64 ht, Nat.shiftLeft_eq]
      push_cast
      rw [← norm_bmod64 ht, ← norm_bmod64 ht (_ * _), BitVec.toInt_eq_toNat_bmod (x := a), Int.bmod_mul_bmod]
  | bsr =>
    obtain ⟨h0, h1, hx⟩ := hf
    refine ⟨_, if_pos ⟨h0, by omega⟩, ?_, ?_⟩
    · rw [toInt_sshiftRight', toNat_of_small h0]; rfl
    · simp only [Ty.opr, Option.some.injEq]
      rw [norm_of_has ht (has_amount ht h0 h1), mask_amount ht h0 h1, norm_of_has ht hx, toInt_sshiftRight', toNat_of_small h0]
  | bor =>
    refine ⟨_, rfl, ?_, ?_⟩
    · simp only [exactop, BitVec.ofInt_toInt]
    · simp only [Ty.opr, Option.some.injEq]
      refine norm_bits ?_ hw
      rw [BitVec.setWidth_or, BitVec.setWidth_or, setWidth_ofInt_norm ht, setWidth_ofInt_norm ht]
  | band =>
    refine ⟨_, rfl, ?_, ?_⟩
    · simp only [exactop, BitVec.ofInt_toInt]
    · simp only [Ty.opr, Option.some.injEq]
      refine norm_bits ?_ hw
      rw [BitVec.setWidth_and, BitVec.setWidth_and, setWidth_ofInt_norm ht, setWidth_ofInt_norm ht]
  | bxor =>
    refine ⟨_, rfl, ?_, ?_⟩
    · simp only [exactop, BitVec.ofInt_toInt]
    · simp only [Ty.opr, Option.some.injEq]
      refine norm_bits ?_ hw
      rw [BitVec.setWidth_xor, BitVec.setWidth_xor, setWidth_ofInt_norm ht, setWidth_ofInt_norm ht]

/-- The value of an expression is in its type. -/
theorem eval_norm (W : World) : ∀ (e : Expr), WT e → ∀ h x h', eval W e h = some (x, h') → e.ty.norm x = x := by
  intro e
  induction e with
  | lit v t s => intro _ h x h' he; simp only [eval, Option.some.injEq, Prod.mk.injEq] at he; rw [← he.1]; exact norm_norm _ _
  | var d t => intro _ h x h' he; simp only [eval, Option.some.injEq, Prod.mk.injEq] at he; rw [← he.1]; exact norm_norm _ _
  | neg a t _ =>
    intro _ h x h' he
    simp only [eval] at he
    split at he
    · cases he
    · simp only [Option.some.injEq, Prod.mk.injEq] at he; rw [← he.1]; exact norm_norm _ _
  | cast a t _ =>
    intro _ h x h' he
    simp only [eval] at he
    split at he
    · cases he
    · simp only [Option.some.injEq, Prod.mk.injEq] at he; rw [← he.1]; exact norm_norm _ _
  | call f a t _ =>
    intro _ h x h' he
    simp only [eval] at he
    split at he
    · cases he
    · simp only [Option.some.injEq, Prod.mk.injEq] at he; rw [← he.1]; exact norm_norm _ _
  | bin op a b t iha ihb =>
    intro hw h x h' he
    obtain ⟨hwa, hwb, hta, htb, ht⟩ := hw
    simp only [eval] at he
    split at he
    · cases he
    rename_i x1 h1 ha
    split at he
    · cases he
    rename_i y1 h2 hb
    split at he
    · cases he
    rename_i z hz
    simp only [Option.some.injEq, Prod.mk.injEq] at he
    obtain ⟨rfl, rfl⟩ := he
    show t.norm z = z
    have hnx := iha hwa _ _ _ ha
    rw [hta] at hnx
    cases op <;> simp only [Ty.opr] at hz
    case div =>
      split at hz
      · cases hz
      · rename_i hc; cases hz; exact norm_of_has ht (by tauto)
    case mod =>
      split at hz
      · cases hz
      · rename_i hc
        cases hz
        refine norm_of_has ht ?_
        have hx := has_norm ht x1
        rw [hnx] at hx
        unfold Ty.has at hx ⊢
        have hab : (x1.tmod y1).natAbs ≤ x1.natAbs := by
          rw [Int.natAbs_tmod]; exact Nat.mod_le _ _
        have hsg : 0 ≤ x1 → 0 ≤ x1.tmod y1 := fun h => Int.tmod_nonneg _ h
        have hsg' : x1 ≤ 0 → x1.tmod y1 ≤ 0 := by
          intro h
          have := Int.tmod_nonneg (a := -x1) y1 (by omega)
          rw [Int.neg_tmod] at this; omega
        split at hx
        · rw [if_pos ‹_›]; omega
        · rw [if_neg ‹_›]; omega
    all_goals (simp only [Option.some.injEq] at hz; rw [← hz]; exact norm_norm _ _)

theorem norm_zero {t : Ty} (ht : t.Ok) : t.norm 0 = 0 := by
  refine norm_of_has ht ?_
  have := pow_pos' (t.w - 1)
  have := pow_pos' t.w
  unfold Ty.has; split <;> omega

theorem norm_one {t : Ty} (ht : t.Ok) : t.norm 1 = 1 := by
  refine norm_of_has ht ?_
  have h1 : (2 : Int) ^ 1 ≤ 2 ^ (t.w - 1) := by
    exact_mod_cast Nat.pow_le_pow_right (n := 2) (by omega) (show 1 ≤ t.w - 1 by unfold Ty.Ok at ht; omega)
  have h2 := two_pow_split ht.pos.1
  unfold Ty.has; split <;> omega

theorem isintval_iff {e : Expr} {v : BitVec 64} : isintval e v = true ↔ ∃ t s, e = .lit v t s := by
  unfold isintval getintlit
  cases e <;> simp

/-- What folding a node gives. -/
structure Good (e e' : Expr) : Prop where
  wt : WT e'
  ty : e'.ty = e.ty
  lit : ∀ x, exact e = some x → ∃ v s, e' = .lit v e.ty s ∧ v.toInt = x
  non : exact e = none → getintlit e' = none
  sem : ∀ W h, eval W e' h = eval W e h

theorem exact_zero {e e' : Expr} (g : Good e e') (h : isintval e' 0 = true) : exact e = some 0 := by
  obtain ⟨t, s, rfl⟩ := isintval_iff.1 h
  cases he : exact e with
  | none => have := g.non he; cases this
  | some x => obtain ⟨v, s', h1, h2⟩ := g.lit x he; cases h1; rw [← h2]; rfl

theorem exact_one {e e' : Expr} (g : Good e e') (h : isintval e' 1 = true) : exact e = some 1 := by
  obtain ⟨t, s, rfl⟩ := isintval_iff.1 h
  cases he : exact e with
  | none => have := g.non he; cases this
  | some x => obtain ⟨v, s', h1, h2⟩ := g.lit x he; cases h1; rw [← h2]; rfl

theorem isintval_of_exact {e e' : Expr} (g : Good e e') {x : BitVec 64} (h : exact e = some x.toInt) : isintval e' x = true := by
  obtain ⟨v, s, h1, h2⟩ := g.lit _ h
  have : v = x := BitVec.eq_of_toInt_eq h2
  subst this
  exact isintval_iff.2 ⟨_, _, h1⟩

theorem eval_bin_congr {op : Op} {a b a' b' : Expr} {t : Ty} (ha : ∀ W h, eval W a' h = eval W a h) (hb : ∀ W h, eval W b' h = eval W b h) :
    ∀ W h, eval W (.bin op a' b' t) h = eval W (.bin op a b t) h := by
  intro W h; simp only [eval, ha, hb]

theorem exact_bin_none {op : Op} {a b : Expr} {t : Ty} (hn : exact a = none ∨ exact b = none)
    (h1 : ¬ (op = .mul ∧ exact a = some 0)) (h2 : ¬ (op = .mul ∧ exact b = some 0)) (h3 : ¬ (op = .mod ∧ exact b = some 1)) :
    exact (.bin op a b t) = none := by
  simp only [exact]
  cases ha : exact a <;> cases hb : exact b <;> simp_all

theorem exact_bin_zero {op : Op} {a b : Expr} {t : Ty} (hn : exact a = none ∨ exact b = none)
    (h : (op = .mul ∧ exact a = some 0) ∨ (op = .mul ∧ exact b = some 0) ∨ (op = .mod ∧ exact b = some 1)) :
    exact (.bin op a b t) = some 0 := by
  simp only [exact]
  cases ha : exact a <;> cases hb : exact b <;> simp_all

theorem simp1_ok {op : Op} {a' b' : Expr} {t : Ty} (h : (op = .div ∨ op = .mod) → isintval b' 0 = false) : ∃ r, simp1 op a' b' t = .ok r := by
  cases op <;> simp only [simp1] <;> first | exact ⟨_, rfl⟩ | (rw [h (by simp)]; exact ⟨_, rfl⟩)

theorem foldbin_of_lits {op : Op} {v1 v2 v : BitVec 64} {t t1 t2 : Ty} {s1 s2 : Option Nat}
    (h : (op = .div ∨ op = .mod) → v2 ≠ 0) (ha : arith op v1 v2 = .ok v) :
    foldbin op (.lit v1 t1 s1) (.lit v2 t2 s2) t = .ok (val v t) := by
  obtain ⟨r, hr⟩ := simp1_ok (op := op) (a' := .lit v1 t1 s1) (b' := .lit v2 t2 s2) (t := t) (by
    intro ho
    have := h ho
    simpa [isintval, getintlit] using this)
  unfold foldbin
  rw [hr, Res.bind_ok]
  simp only [getintlit, ha, Res.bind_ok, Res.pure_eq]

theorem foldbin_of_none {op : Op} {a' b' : Expr} {t : Ty} {r : Option Expr} (hr : simp1 op a' b' t = .ok r)
    (hn : getintlit a' = none ∨ getintlit b' = none) : foldbin op a' b' t = .ok (r.getD (.bin op a' b' t)) := by
  unfold foldbin
  rw [hr, Res.bind_ok]
  rcases hn with hn | hn <;> rw [hn]
  · rfl
  · cases getintlit a' <;> rfl

/-- An operand stands for the whole node. -/
theorem good_operand {op : Op} {a b x' x : Expr} {t : Ty} (g : Good x x') (hx : x.ty = t)
    (he : exact (.bin op a b t) = exact x)
    (hs : ∀ W h, eval W x h = eval W (.bin op a b t) h) : Good (.bin op a b t) x' where
  wt := g.wt
  ty := by rw [g.ty, hx]; rfl
  lit := by intro y hy; rw [he] at hy; obtain ⟨v, s, h1, h2⟩ := g.lit y hy; exact ⟨v, s, by rw [h1, hx]; rfl, h2⟩
  non := by intro hn; rw [he] at hn; exact g.non hn
  sem := by intro W h; rw [g.sem, hs]

theorem eval_of_exact {e e' : Expr} (g : Good e e') {x : Int} (hx : exact e = some x) (W : World) (h) : eval W e h = some (e.ty.norm x, h) := by
  obtain ⟨v, s, h1, h2⟩ := g.lit x hx
  rw [← g.sem, h1, ← h2]; rfl

theorem foldbin_good {op : Op} {a b a' b' : Expr} {t : Ty} (hw : WT (.bin op a b t)) (hf : Fits (.bin op a b t))
    (ga : Good a a') (gb : Good b b') : ∃ r, foldbin op a' b' t = .ok r ∧ Good (.bin op a b t) r := by
  obtain ⟨hwa, hwb, hta, htb, ht⟩ := hw
  obtain ⟨hfa, hfb, hop, hdz, hma, hmb, hmo⟩ := hf
  by_cases hab : exact a = none ∨ exact b = none
  · obtain ⟨r, hr⟩ := simp1_ok (op := op) (a' := a') (b' := b') (t := t) (by
      intro ho
      have := hdz ho
      cases hi : isintval b' 0
      · rfl
      · exact absurd (exact_zero gb hi) this)
    have hn : getintlit a' = none ∨ getintlit b' = none := hab.imp ga.non gb.non
    refine ⟨_, foldbin_of_none hr hn, ?_⟩
    -- values of constant operands
    have eva : ∀ x, exact a = some x → ∀ W h, eval W a h = some (t.norm x, h) := fun x hx W h => by
      rw [eval_of_exact ga hx, hta]
    have evb : ∀ x, exact b = some x → ∀ W h, eval W b h = some (t.norm x, h) := fun x hx W h => by
      rw [eval_of_exact gb hx, htb]
    have ea0 : isintval a' 0 = true → exact a = some 0 := exact_zero ga
    have eb0 : isintval b' 0 = true → exact b = some 0 := exact_zero gb
    have ea1 : isintval a' 1 = true → exact a = some 1 := exact_one ga
    have eb1 : isintval b' 1 = true → exact b = some 1 := exact_one gb
    have na0 : exact a = some 0 → isintval a' 0 = true := fun h => isintval_of_exact ga (x := 0) h
    have nb0 : exact b = some 0 → isintval b' 0 = true := fun h => isintval_of_exact gb (x := 0) h
    have nb1 : exact b = some 1 → isintval b' 1 = true := fun h => isintval_of_exact gb (x := 1) h
    have nova : ∀ W h x h', eval W a h = some (x, h') → t.norm x = x := fun W h x h' he => by
      have := eval_norm W a hwa h x h' he; rwa [hta] at this
    have novb : ∀ W h x h', eval W b h = some (x, h') → t.norm x = x := fun W h x h' he => by
      have := eval_norm W b hwb h x h' he; rwa [htb] at this
    -- the node is kept
    have keep : exact (.bin op a b t) = none → Good (.bin op a b t) (.bin op a' b' t) := fun hx =>
      { wt := ⟨ga.wt, gb.wt, by rw [ga.ty, hta], by rw [gb.ty, htb], ht⟩
        ty := rfl
        lit := fun x hx' => by rw [hx] at hx'; cases hx'
        non := fun _ => rfl
        sem := eval_bin_congr ga.sem gb.sem }
    -- the right operand is neutral
    have neutb : exact a = none → (∀ W h x, (∃ h', eval W a h = some (x, h')) → ∀ y, exact b = some y → t.opr op x (t.norm y) = some x) →
        ∀ y, exact b = some y → exact (.bin op a b t) = none → Good (.bin op a b t) a' := fun hna ho y hy hx =>
      good_operand ga hta (by rw [hx, hna]) (by
        intro W h
        simp only [eval]
        cases hea : eval W a h with
        | none => rfl
        | some p =>
          obtain ⟨x, h1⟩ := p
          simp only [evb y hy, ho W h x ⟨h1, hea⟩ y hy])
    have neuta : exact b = none → (∀ W h x, (∃ h', eval W b h = some (x, h')) → ∀ y, exact a = some y → t.opr op (t.norm y) x = some x) →
        ∀ y, exact a = some y → exact (.bin op a b t) = none → Good (.bin op a b t) b' := fun hnb ho y hy hx =>
      good_operand gb htb (by rw [hx, hnb]) (by
        intro W h
        simp only [eval, eva y hy]
        cases heb : eval W b h with
        | none => rfl
        | some p =>
          obtain ⟨x, h1⟩ := p
          simp only [ho W h x ⟨h1, heb⟩ y hy])
    have nz : t.norm 0 = 0 := norm_zero ht
    have no : t.norm 1 = 1 := norm_one ht
    cases op
    case add =>
      simp only [simp1] at hr
      split at hr
      · rename_i hi
        cases hr
        have hb := eb0 hi
        have hna : exact a = none := by rcases hab with h | h; exact h; rw [hb] at h; cases h
        refine neutb hna ?_ 0 hb (exact_bin_none hab (by simp) (by simp) (by simp))
        rintro W h x ⟨h', hx⟩ y hy
        rw [hb] at hy; cases hy
        simp only [Ty.opr, nz, Int.add_zero, nova W h x h' hx]
      split at hr
      · rename_i hi
        cases hr
        have ha := ea0 hi
        have hnb : exact b = none := by rcases hab with h | h; rw [ha] at h; cases h; exact h
        refine neuta hnb ?_ 0 ha (exact_bin_none hab (by simp) (by simp) (by simp))
        rintro W h x ⟨h', hx⟩ y hy
        rw [ha] at hy; cases hy
        simp only [Ty.opr, nz, Int.zero_add, novb W h x h' hx]
      · cases hr
        exact keep (exact_bin_none hab (by simp) (by simp) (by simp))
    case sub =>
      simp only [simp1] at hr
      split at hr
      · rename_i hi
        cases hr
        have hb := eb0 hi
        have hna : exact a = none := by rcases hab with h | h; exact h; rw [hb] at h; cases h
        refine neutb hna ?_ 0 hb (exact_bin_none hab (by simp) (by simp) (by simp))
        rintro W h x ⟨h', hx⟩ y hy
        rw [hb] at hy; cases hy
        simp only [Ty.opr, nz, Int.sub_zero, nova W h x h' hx]
      · cases hr
        exact keep (exact_bin_none hab (by simp) (by simp) (by simp))
    case mul =>
      simp only [simp1] at hr
      split at hr
      · rename_i hi
        cases hr
        have hb := eb0 hi
        refine good_operand gb htb (by rw [hb]; exact exact_bin_zero hab (by simp [hb])) ?_
        intro W h
        obtain ⟨x, hx⟩ := hmb rfl hb W h
        simp only [eval, hx, evb 0 hb, Ty.opr, nz, Int.mul_zero]
      rename_i hnb0
      split at hr
      · rename_i hi
        cases hr
        have ha := ea0 hi
        refine good_operand ga hta (by rw [ha]; exact exact_bin_zero hab (by simp [ha])) ?_
        intro W h
        obtain ⟨x, hx⟩ := hma rfl ha W h
        simp only [eval, hx, eva 0 ha, Ty.opr, nz, Int.zero_mul]
      rename_i hna0
      have hx0 : exact (.bin .mul a b t) = none := exact_bin_none hab (fun h => hna0 (na0 h.2)) (fun h => hnb0 (nb0 h.2)) (by simp)
      split at hr
      · rename_i hi
        cases hr
        have hb := eb1 hi
        have hna : exact a = none := by rcases hab with h | h; exact h; rw [hb] at h; cases h
        refine neutb hna ?_ 1 hb hx0
        rintro W h x ⟨h', hx⟩ y hy
        rw [hb] at hy; cases hy
        simp only [Ty.opr, no, Int.mul_one, nova W h x h' hx]
      split at hr
      · rename_i hi
        cases hr
        have ha := ea1 hi
        have hnb : exact b = none := by rcases hab with h | h; rw [ha] at h; cases h; exact h
        refine neuta hnb ?_ 1 ha hx0
        rintro W h x ⟨h', hx⟩ y hy
        rw [ha] at hy; cases hy
        simp only [Ty.opr, no, Int.one_mul, novb W h x h' hx]
      · cases hr
        exact keep hx0
    case div =>
      simp only [simp1] at hr
      split at hr
      · cases hr
      have hx0 : exact (.bin .div a b t) = none := exact_bin_none hab (by simp) (by simp) (by simp)
      split at hr
      · rename_i hi
        cases hr
        have hb := eb1 hi
        have hna : exact a = none := by rcases hab with h | h; exact h; rw [hb] at h; cases h
        refine neutb hna ?_ 1 hb hx0
        rintro W h x ⟨h', hx⟩ y hy
        rw [hb] at hy; cases hy
        have hhas := has_norm ht x
        rw [nova W h x h' hx] at hhas
        simp only [Ty.opr, no, Int.tdiv_one]
        rw [if_neg (by simp [hhas])]
      · cases hr
        exact keep hx0
    case mod =>
      simp only [simp1] at hr
      split at hr
      · cases hr
      split at hr
      · rename_i hi
        cases hr
        have hb := eb1 hi
        have hx0 : exact (.bin .mod a b t) = some 0 := exact_bin_zero hab (by simp [hb])
        refine { wt := ht, ty := rfl, lit := ?_, non := ?_, sem := ?_ }
        · intro x hx; rw [hx0] at hx; cases hx; exact ⟨_, _, rfl, rfl⟩
        · intro hx; rw [hx0] at hx; cases hx
        · intro W h
          obtain ⟨x, hx⟩ := hmo rfl hb W h
          have hhas := has_norm ht x
          rw [nova W h x h hx] at hhas
          simp only [eval, hx, evb 1 hb, Ty.opr, no, Int.tdiv_one, Int.tmod_one]
          rw [if_neg (by simp [hhas])]
          simp only [Option.getD, val, eval]
          rw [show (0 : BitVec 64).toInt = 0 from rfl, nz]
      · rename_i hi
        cases hr
        exact keep (exact_bin_none hab (by simp) (by simp) (fun h => hi (nb1 h.2)))
    all_goals
      cases hr
      exact keep (exact_bin_none hab (by simp) (by simp) (by simp))
  · cases ha : exact a with
    | none => exact absurd (.inl ha) hab
    | some x =>
      cases hb : exact b with
      | none => exact absurd (.inr hb) hab
      | some y =>
        obtain ⟨v1, s1, e1, hv1⟩ := ga.lit x ha
        obtain ⟨v2, s2, e2, hv2⟩ := gb.lit y hb
        subst e1 e2
        have hfo := hop x y ha hb
        rw [← hv1, ← hv2] at hfo
        obtain ⟨v, har, hvx, hvo⟩ := arith_spec ht op v1 v2 hfo
        refine ⟨val v t, foldbin_of_lits ?_ har, ?_⟩
        · intro ho hz
          refine hdz ho ?_
          rw [hb, ← hv2, hz]; rfl
        · have hx : exact (.bin op a b t) = some v.toInt := by
            simp only [exact, ha, hb]; rw [hvx, hv1, hv2]
          refine { wt := ht, ty := rfl, lit := ?_, non := ?_, sem := ?_ }
          · intro z hz; rw [hx] at hz; cases hz; exact ⟨_, _, rfl, rfl⟩
          · intro hz; rw [hx] at hz; cases hz
          · intro W h
            simp only [eval, val, ← ga.sem, ← gb.sem, hta, htb, hvo]

/-- Folding preserves the meaning of expressions whose constants fit. -/
theorem fold_good : ∀ (fuel : Nat) (e : Expr) (D : Decls), WT e → Fits e → depth e ≤ fuel →
    ∃ D' e', fold false fuel D e = .ok (D', e') ∧ Good e e' ∧ (Own e → D' = D ∧ Own e') := by
  intro fuel
  induction fuel with
  | zero => intro e D _ _ hd; cases e <;> simp [depth] at hd
  | succ n ih =>
    intro e D hw hf hd
    cases e with
    | lit v t s =>
      refine ⟨D, _, rfl, ?_, fun h => ⟨rfl, h⟩⟩
      exact { wt := hw, ty := rfl, lit := fun x hx => by cases hx; exact ⟨v, s, rfl, rfl⟩, non := (fun h => by cases h), sem := fun _ _ => rfl }
    | var d t =>
      refine ⟨D, .var d t, ?_, ?_, fun h => ⟨rfl, h⟩⟩
      · simp only [fold]
      · exact { wt := hw, ty := rfl, lit := (fun x hx => by cases hx), non := fun _ => rfl, sem := fun _ _ => rfl }
    | bin op a b t =>
      simp only [depth] at hd
      obtain ⟨D1, a', ha, ga, oa⟩ := ih a D hw.1 hf.1 (by omega)
      obtain ⟨D2, b', hb, gb, ob⟩ := ih b D1 hw.2.1 hf.2.1 (by omega)
      obtain ⟨r, hr, gr⟩ := foldbin_good hw hf ga gb
      refine ⟨D2, r, ?_, gr, ?_⟩
      · simp only [fold, ha, hb, hr, Res.bind_ok, Res.pure_eq]
      · intro ho
        obtain ⟨rfl, oa'⟩ := oa ho.1
        obtain ⟨rfl, ob'⟩ := ob ho.2
        refine ⟨rfl, ?_⟩
        unfold foldbin at hr
        rw [Res.bind_eq_ok] at hr
        obtain ⟨r1, h1, hr⟩ := hr
        have h1 : ∀ x, r1 = some x → Own x := by
          intro x hx
          subst hx
          cases op <;> simp only [simp1] at h1 <;> (repeat' split at h1) <;> cases h1 <;> first | assumption | rfl
        split at hr
        · rw [Res.bind_eq_ok] at hr
          obtain ⟨v, _, hr⟩ := hr
          cases hr; rfl
        · cases hr
          cases r1 with
          | none => exact ⟨oa', ob'⟩
          | some x => exact h1 x rfl
    | neg a t =>
      simp only [depth] at hd
      obtain ⟨hwa, hta, ht⟩ := hw
      obtain ⟨D1, a', ha, ga, oa⟩ := ih a D hwa hf.1 (by omega)
      cases hx : exact a with
      | none =>
        refine ⟨D1, .neg a' t, ?_, ?_, fun h => oa h⟩
        · simp only [fold, ha, Res.bind_ok, ga.non hx, Res.pure_eq]
        · refine { wt := ⟨ga.wt, by rw [ga.ty, hta], ht⟩, ty := rfl, lit := ?_, non := fun _ => rfl, sem := ?_ }
          · intro x h; simp [exact, hx] at h
          · intro W h; simp only [eval, ga.sem]
      | some x =>
        obtain ⟨v, s, e1, hv⟩ := ga.lit x hx
        have hin := hf.2 x hx
        subst hv
        refine ⟨D1, val (-v) t, ?_, ?_, fun h => ⟨(oa h).1, rfl⟩⟩
        · simp only [fold, ha, Res.bind_ok, e1, getintlit, Res.pure_eq]; rw [if_pos hin]
        · have hneg : (-v).toInt = -v.toInt := by
            rw [BitVec.toInt_neg, ← BitVec.toInt_ofInt]; exact toInt_of_inS64 hin
          refine { wt := ht, ty := rfl, lit := ?_, non := ?_, sem := ?_ }
          · intro y h; simp only [exact, hx, Option.map] at h; cases h; exact ⟨_, _, rfl, hneg⟩
          · intro h; simp [exact, hx] at h
          · intro W h
            simp only [eval, val, eval_of_exact ga hx, hta]
            rw [norm_neg, hneg]
    | cast a t =>
      simp only [depth] at hd
      obtain ⟨hwa, ht⟩ := hw
      obtain ⟨D1, a', ha, ga, oa⟩ := ih a D hwa hf.1 (by omega)
      have hfold : fold false (n + 1) D (.cast a t) = .ok (foldcast D1 a' t) := by
        simp only [fold, ha, Res.bind_ok, Res.pure_eq]
      have hex : exact (.cast a t) = exact a := rfl
      have kept : exact a = none → Good (.cast a t) (.cast a' t) := fun hx =>
        { wt := ⟨ga.wt, ht⟩, ty := rfl, lit := (fun x h => by rw [hex, hx] at h; cases h), non := fun _ => rfl,
          sem := fun W h => by simp only [eval, ga.sem] }
      have same : exact a = none → a'.ty = t → Good (.cast a t) a' := fun hx hty =>
        { wt := ga.wt, ty := hty, lit := (fun x h => by rw [hex, hx] at h; cases h), non := fun _ => ga.non hx,
          sem := fun W h => by
            simp only [eval]
            rw [ga.sem]
            cases he : eval W a h with
            | none => rfl
            | some p =>
              obtain ⟨x, h'⟩ := p
              have := eval_norm W a hwa h x h' he
              rw [← ga.ty, hty] at this
              simp only [this] }
      cases hx : exact a with
      | some x =>
        obtain ⟨v, s, e1, hv⟩ := ga.lit x hx
        subst e1
        rw [hfold]
        refine ⟨_, _, rfl, ?_, ?_⟩
        · refine { wt := ht, ty := rfl, lit := ?_, non := ?_, sem := ?_ }
          · intro y h; rw [hex, hx] at h; cases h; exact ⟨v, s, rfl, hv⟩
          · intro h; rw [hex, hx] at h; cases h
          · intro W h
            have hh := hf.2 x hx
            have hta : a.ty.Ok := ga.wt
            simp only [eval, eval_of_exact ga hx, hv, norm_of_has hta hh]
        · intro ho
          obtain ⟨rfl, hs⟩ := oa ho
          simp only [Own] at hs
          subst hs
          exact ⟨rfl, rfl⟩
      | none =>
        rw [hfold]
        have hnl := ga.non hx
        cases a' with
        | lit v t' s => cases hnl
        | _ =>
          simp only [foldcast]
          refine ⟨_, _, rfl, ?_, ?_⟩
          · split
            · rename_i h; subst h; exact same hx rfl
            · exact kept hx
          · intro ho
            refine ⟨(oa ho).1, ?_⟩
            have := (oa ho).2
            split <;> exact this
    | call f a t =>
      simp only [depth] at hd
      obtain ⟨hwa, ht⟩ := hw
      obtain ⟨D1, a', ha, ga, oa⟩ := ih a D hwa hf (by omega)
      refine ⟨D1, .call f a' t, ?_, ?_, fun h => oa h⟩
      · simp only [fold, ha, Res.bind_ok, Res.pure_eq]
      · exact { wt := ⟨ga.wt, ht⟩, ty := rfl, lit := (fun x h => by cases h), non := fun _ => rfl, sem := fun W h => by simp only [eval, ga.sem] }

/-- Folding with the values of constants, without casts, changes no declaration and gives what the expression with the
constants' initialisers in their places means. -/
theorem fold_true_good : ∀ (fuel : Nat) (e i : Expr) (D : Decls), (∀ k e, (D k).init = some e → NoCast e) → NoCast e →
    inl fuel D e = some i → WT i → Fits i → ∃ e', fold true fuel D e = .ok (D, e') ∧ Good i e' := by
  intro fuel
  induction fuel with
  | zero => intro e i D _ _ hi; cases hi
  | succ n ih =>
    intro e i D hD hc hi hw hf
    cases e with
    | lit v t s =>
      cases hi
      exact ⟨_, rfl, { wt := hw, ty := rfl, lit := fun x hx => by cases hx; exact ⟨v, s, rfl, rfl⟩, non := (fun h => by cases h), sem := fun _ _ => rfl }⟩
    | var d t =>
      cases hd : D d with
      | mk c init =>
        cases c with
        | false =>
          simp only [inl, hd] at hi
          cases hi
          refine ⟨.var d t, by simp only [fold, hd], ?_⟩
          exact { wt := hw, ty := rfl, lit := (fun x hx => by cases hx), non := fun _ => rfl, sem := fun _ _ => rfl }
        | true =>
          cases init with
          | none =>
            simp only [inl, hd] at hi
            cases hi
            refine ⟨.var d t, by simp only [fold, hd], ?_⟩
            exact { wt := hw, ty := rfl, lit := (fun x hx => by cases hx), non := fun _ => rfl, sem := fun _ _ => rfl }
          | some e =>
            simp only [inl, hd] at hi
            split at hi
            · obtain ⟨e', h1, h2⟩ := ih e i D hD (hD d e (by rw [hd])) hi hw hf
              refine ⟨e', ?_, h2⟩
              simp only [fold, hd, h1]
            · cases hi
    | bin op a b t =>
      simp only [inl] at hi
      cases ha : inl n D a with
      | none => rw [ha] at hi; cases hi
      | some ia =>
        cases hb : inl n D b with
        | none => rw [ha, hb] at hi; cases hi
        | some ib =>
          rw [ha, hb] at hi
          cases hi
          obtain ⟨a', ha', ga⟩ := ih a ia D hD hc.1 ha hw.1 hf.1
          obtain ⟨b', hb', gb⟩ := ih b ib D hD hc.2 hb hw.2.1 hf.2.1
          obtain ⟨r, hr, gr⟩ := foldbin_good hw hf ga gb
          refine ⟨r, ?_, gr⟩
          simp only [fold, ha', hb', hr, Res.bind_ok, Res.pure_eq]
    | neg a t =>
      simp only [inl] at hi
      cases ha : inl n D a with
      | none => rw [ha] at hi; cases hi
      | some ia =>
        rw [ha] at hi
        cases hi
        obtain ⟨hwa, hta, ht⟩ := hw
        obtain ⟨a', ha', ga⟩ := ih a ia D hD hc ha hwa hf.1
        cases hx : exact ia with
        | none =>
          refine ⟨.neg a' t, ?_, ?_⟩
          · simp only [fold, ha', Res.bind_ok, ga.non hx, Res.pure_eq]
          · refine { wt := ⟨ga.wt, by rw [ga.ty, hta], ht⟩, ty := rfl, lit := ?_, non := fun _ => rfl, sem := ?_ }
            · intro x h; simp [exact, hx] at h
            · intro W h; simp only [eval, ga.sem]
        | some x =>
          obtain ⟨v, s, e1, hv⟩ := ga.lit x hx
          have hin := hf.2 x hx
          subst hv
          refine ⟨val (-v) t, ?_, ?_⟩
          · simp only [fold, ha', Res.bind_ok, e1, getintlit, Res.pure_eq]; rw [if_pos hin]
          · have hneg : (-v).toInt = -v.toInt := by
              rw [BitVec.toInt_neg, ← BitVec.toInt_ofInt]; exact toInt_of_inS64 hin
            refine { wt := ht, ty := rfl, lit := ?_, non := ?_, sem := ?_ }
            · intro y h; simp only [exact, hx, Option.map] at h; cases h; exact ⟨_, _, rfl, hneg⟩
            · intro h; simp [exact, hx] at h
            · intro W h
              simp only [eval, val, eval_of_exact ga hx, hta]
              rw [norm_neg, hneg]
    | cast a t => exact absurd hc id
    | call f a t =>
      simp only [inl] at hi
      cases ha : inl n D a with
      | none => rw [ha] at hi; cases hi
      | some ia =>
        rw [ha] at hi
        cases hi
        obtain ⟨a', ha', ga⟩ := ih a ia D hD hc ha hw.1 hf
        refine ⟨.call f a' t, ?_, ?_⟩
        · simp only [fold, ha', Res.bind_ok, Res.pure_eq]
        · exact { wt := ⟨ga.wt, hw.2⟩, ty := rfl, lit := (fun x h => by cases h), non := fun _ => rfl, sem := fun W h => by simp only [eval, ga.sem] }

theorem inl_sem {D : Decls} {W : World} (hW : Consts D W) : ∀ (fuel : Nat) (e i : Expr), inl fuel D e = some i →
    i.ty = e.ty ∧ ∀ h, eval W i h = eval W e h := by
  intro fuel
  induction fuel with
  | zero => intro e i hi; cases hi
  | succ n ih =>
    intro e i hi
    cases e with
    | lit v t s => cases hi; exact ⟨rfl, fun _ => rfl⟩
    | var d t =>
      cases hd : D d with
      | mk c init =>
        cases c with
        | false => simp only [inl, hd] at hi; cases hi; exact ⟨rfl, fun _ => rfl⟩
        | true =>
          cases init with
          | none => simp only [inl, hd] at hi; cases hi; exact ⟨rfl, fun _ => rfl⟩
          | some e =>
            simp only [inl, hd] at hi
            split at hi
            · rename_i ht
              obtain ⟨h1, h2⟩ := ih e i hi
              refine ⟨by rw [h1, ht]; rfl, fun h => ?_⟩
              rw [h2, hW d e hd h, ht]; rfl
            · cases hi
    | bin op a b t =>
      simp only [inl] at hi
      cases ha : inl n D a with
      | none => rw [ha] at hi; cases hi
      | some ia =>
        cases hb : inl n D b with
        | none => rw [ha, hb] at hi; cases hi
        | some ib =>
          rw [ha, hb] at hi
          cases hi
          refine ⟨rfl, fun h => ?_⟩
          simp only [eval, (ih a ia ha).2, (ih b ib hb).2]
    | neg a t =>
      simp only [inl] at hi
      cases ha : inl n D a with
      | none => rw [ha] at hi; cases hi
      | some ia => rw [ha] at hi; cases hi; exact ⟨rfl, fun h => by simp only [eval, (ih a ia ha).2]⟩
    | cast a t =>
      simp only [inl] at hi
      cases ha : inl n D a with
      | none => rw [ha] at hi; cases hi
      | some ia => rw [ha] at hi; cases hi; exact ⟨rfl, fun h => by simp only [eval, (ih a ia ha).2]⟩
    | call f a t =>
      simp only [inl] at hi
      cases ha : inl n D a with
      | none => rw [ha] at hi; cases hi
      | some ia => rw [ha] at hi; cases hi; exact ⟨rfl, fun h => by simp only [eval, (ih a ia ha).2]⟩

/-! ## Arrays -/

theorem foldelems_map {fuel : Nat} {D : Decls} {f : Expr → Expr} : ∀ es : List (Int × Expr),
    (∀ p ∈ es, fold true fuel D p.2 = .ok (D, f p.2)) → foldelems true fuel D es = .ok (D, es.map fun p => (p.1, f p.2)) := by
  intro es
  induction es with
  | nil => intro _; rfl
  | cons p es ih =>
    intro h
    obtain ⟨i, e⟩ := p
    simp only [foldelems, h (i, e) (by simp), Res.bind_ok, ih fun q hq => h q (by simp [hq]), Res.pure_eq, List.map_cons]

theorem lastidx_none {k : Nat} : ∀ es : List (Int × Expr), some k ∉ es.map (fun p => p.2.src) → lastidx k es = none := by
  intro es
  induction es with
  | nil => intro _; rfl
  | cons p es ih =>
    intro h
    obtain ⟨i, e⟩ := p
    simp only [List.map_cons, List.mem_cons, not_or] at h
    simp only [lastidx, ih h.2]
    rw [if_neg (Ne.symm h.1)]

theorem lastidx_of_mem {k : Nat} : ∀ es : List (Int × Expr), (es.filterMap fun p => p.2.src).Nodup → ∀ p ∈ es, p.2.src = some k → lastidx k es = some p.1 := by
  intro es
  induction es with
  | nil => intro _ p hp; cases hp
  | cons q es ih =>
    intro hn p hp hs
    obtain ⟨i, e⟩ := q
    rcases List.mem_cons.1 hp with rfl | hp
    · simp only at hs
      rw [List.filterMap_cons, hs] at hn
      simp only [List.nodup_cons, List.mem_filterMap, not_exists, not_and] at hn
      simp only [lastidx]
      rw [lastidx_none es (by
        intro hm
        obtain ⟨q, hq, hqs⟩ := List.mem_map.1 hm
        exact hn.1 q hq hqs)]
      simp only [hs, if_true]
    · simp only [lastidx]
      have hn' : (es.filterMap fun p => p.2.src).Nodup := by
        rw [List.filterMap_cons] at hn
        split at hn
        · exact hn
        · exact (List.nodup_cons.1 hn).2
      rw [ih hn' p hp hs]

theorem readback_id {es : List (Int × Expr)} (hn : (es.filterMap fun p => p.2.src).Nodup) : es.map (readback es) = es := by
  conv => rhs; rw [← List.map_id es]
  apply List.map_congr_left
  intro p hp
  unfold readback
  cases hs : p.2.src with
  | none => rfl
  | some k => simp only [lastidx_of_mem es hn p hp hs, Option.getD_some]; rfl

theorem insert_perm (p : Int × Expr) (l : List (Int × Expr)) : (insert p l).Perm (p :: l) := by
  induction l with
  | nil => exact List.Perm.refl _
  | cons q qs ih =>
    simp only [insert]
    split
    · exact List.Perm.refl _
    · exact (List.Perm.cons q ih).trans (List.Perm.swap p q qs)

theorem sort_perm (l : List (Int × Expr)) : (l.foldr insert []).Perm l := by
  induction l with
  | nil => exact List.Perm.refl _
  | cons p l ih => exact (insert_perm p _).trans (List.Perm.cons p ih)

theorem insert_le (p : Int × Expr) (l : List (Int × Expr)) (h : l.Pairwise fun a b => a.1 ≤ b.1) : (insert p l).Pairwise fun a b => a.1 ≤ b.1 := by
  induction l with
  | nil => exact List.pairwise_singleton _ _
  | cons q qs ih =>
    obtain ⟨h1, h2⟩ := List.pairwise_cons.1 h
    simp only [insert]
    split
    · rename_i hlt
      refine List.pairwise_cons.2 ⟨?_, h⟩
      intro r hr
      rcases List.mem_cons.1 hr with rfl | hr
      · omega
      · have := h1 r hr; omega
    · refine List.pairwise_cons.2 ⟨?_, ih h2⟩
      intro r hr
      rcases List.mem_cons.1 ((insert_perm p qs).mem_iff.1 hr) with rfl | hr
      · omega
      · exact h1 r hr

theorem sort_le (l : List (Int × Expr)) : (l.foldr insert []).Pairwise fun a b => a.1 ≤ b.1 := by
  induction l with
  | nil => exact List.Pairwise.nil
  | cons p l ih => exact insert_le p _ ih

end Verif.Fold
