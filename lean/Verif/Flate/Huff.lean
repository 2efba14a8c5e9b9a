import Verif.Flate.Bits

/-! # Lemmas: the tables and reading a symbol -/

namespace Verif.Flate

/-- The number of shorter codes (auxiliary). -/
def base (lens : List Nat) (m : Nat) : Nat := lens.countP fun l => decide (l ≠ 0 ∧ l < m)

theorem base_zero (lens : List Nat) : base lens 0 = 0 := by
  simp [base]

theorem base_succ (lens : List Nat) (m : Nat) : base lens (m + 1) = base lens m + blCount lens m := by
  induction lens with
  | nil => simp [base, blCount]
  | cons x xs ih =>
    simp only [base, blCount, List.countP_cons, List.count_cons] at ih ⊢
    simp only [beq_iff_eq, decide_eq_true_eq]
    split <;> split at ih <;> (try split) <;> (try split) <;> omega

theorem base_le (lens : List Nat) (m : Nat) : base lens m ≤ lens.length := List.countP_le_length

theorem base_mono (lens : List Nat) (m k : Nat) (h : m ≤ k) : base lens m ≤ base lens k := by
  induction k with
  | zero => rw [show m = 0 by omega]
  | succ k ih =>
    rcases Nat.lt_or_eq_of_le h with h | h
    · exact Nat.le_trans (ih (by omega)) (by rw [base_succ]; omega)
    · rw [h]

theorem base_cnt (lens : List Nat) (m k : Nat) (h : m < k) : base lens m + blCount lens m ≤ base lens k := by
  rw [← base_succ]; exact base_mono _ _ _ h

theorem nth_count (lens : List Nat) (l j : Nat) (h : j < lens.count l) :
    ∃ s, lens[s]? = some l ∧ (lens.take s).count l = j := by
  induction lens generalizing j with
  | nil => simp at h
  | cons x xs ih =>
    rw [List.count_cons] at h
    by_cases hx : x = l
    · subst hx
      cases j with
      | zero => exact ⟨0, rfl, rfl⟩
      | succ j =>
        obtain ⟨s, e1, e2⟩ := ih j (by simp at h; omega)
        exact ⟨s + 1, by simpa using e1, by simp [List.take_succ_cons, e2]⟩
    · obtain ⟨s, e1, e2⟩ := ih j (by simp [hx] at h; omega)
      exact ⟨s + 1, by simpa using e1, by rw [List.take_succ_cons, List.count_cons]; simp [hx, e2]⟩

theorem take_count_lt (lens : List Nat) (s l : Nat) (h : lens[s]? = some l) : (lens.take s).count l < lens.count l := by
  have h1 : lens = lens.take s ++ l :: lens.drop (s + 1) := by
    obtain ⟨hlt, e⟩ := List.getElem?_eq_some_iff.1 h
    rw [← e, ← List.drop_eq_getElem_cons hlt, List.take_append_drop]
  conv => rhs; rw [h1]
  rw [List.count_append, List.count_cons]; simp

/-- An array of 16 numbers (auxiliary). -/
def Holds (c : List Nat) (f : Nat → Nat) : Prop := c.length = 16 ∧ ∀ l, l < 16 → c[l]? = some (f l)

theorem Holds.rd {c : List Nat} {f : Nat → Nat} (h : Holds c f) {l : Nat} (hl : l < 16) : rdChk c l = .ok (f l) := by
  rw [rdChk, h.2 l hl]

theorem Holds.wr {c : List Nat} {f : Nat → Nat} (h : Holds c f) {l v : Nat} (hl : l < 16) :
    ∃ c', wrChk c l v = .ok c' ∧ Holds c' fun k => if k = l then v else f k := by
  have hlen := h.1
  refine ⟨c.set l v, by rw [wrChk, if_pos (by omega)], by rw [List.length_set]; exact h.1, ?_⟩
  intro k hk
  dsimp only
  by_cases e : k = l
  · subst e; rw [List.getElem?_set_self (by omega), if_pos rfl]
  · rw [List.getElem?_set_ne (by omega), h.2 k hk, if_neg e]

theorem Holds.congr {c : List Nat} {f g : Nat → Nat} (h : Holds c f) (e : ∀ l, l < 16 → f l = g l) : Holds c g :=
  ⟨h.1, fun l hl => by rw [h.2 l hl, e l hl]⟩

theorem holds_zero : Holds (List.replicate (MaxBits + 1) 0) fun _ => 0 :=
  ⟨List.length_replicate, fun l hl => by rw [List.getElem?_replicate, if_pos (by exact hl)]⟩

theorem countLoop_ok (lens : List Nat) (hb : ∀ l ∈ lens, l ≤ 15) (c : List Nat) (f : Nat → Nat) (h : Holds c f) :
    ∃ c', countLoop lens c = .ok c' ∧ Holds c' fun l => f l + lens.count l := by
  induction lens generalizing c f with
  | nil => exact ⟨c, rfl, h.congr (by simp)⟩
  | cons x xs ih =>
    have hx := hb x (List.mem_cons_self ..)
    obtain ⟨c₁, e1, h1⟩ := h.wr (l := x) (v := f x + 1) (by omega)
    obtain ⟨c', e2, h2⟩ := ih (fun l hl => hb l (List.mem_cons_of_mem _ hl)) c₁ _ h1
    refine ⟨c', ?_, h2.congr ?_⟩
    · rw [countLoop, h.rd (by omega), Res.bind_ok, e1, Res.bind_ok, e2]
    · intro l _
      rw [List.count_cons]
      by_cases e : l = x
      · subst e; simp; omega
      · rw [if_neg e, if_neg (by simp; omega)]; omega

theorem indexLoop_ok (lens count : List Nat) (hc : Holds count (blCount lens)) (n l : Nat) (hl : 1 ≤ l) (hn : n + l = 16)
    (ix : List Nat) (f : Nat → Nat) (h : Holds ix f) (hf : ∀ k, k < l → f k = base lens k) :
    ∃ ix', indexLoop count n l ix = .ok ix' ∧ Holds ix' (base lens) := by
  induction n generalizing l ix f with
  | zero => exact ⟨ix, rfl, h.congr fun k hk => hf k (by omega)⟩
  | succ n ih =>
    obtain ⟨ix₁, e1, h1⟩ := h.wr (l := l) (v := f (l - 1) + blCount lens (l - 1)) (by omega)
    obtain ⟨ix', e2, h2⟩ := ih (l + 1) (by omega) (by omega) ix₁ _ h1 (by
      intro k hk
      by_cases e : k = l
      · rw [if_pos e, hf _ (by omega), ← base_succ, e]; congr 1; omega
      · rw [if_neg e, hf k (by omega)])
    exact ⟨ix', by rw [indexLoop, h.rd (by omega), Res.bind_ok, hc.rd (by omega), Res.bind_ok, e1, Res.bind_ok, e2], h2⟩

/-- The symbols of a table, for the symbols before `n` (auxiliary). -/
def Syms (lens sy : List Nat) (n : Nat) : Prop :=
  ∀ s l, s < n → lens[s]? = some l → l ≠ 0 → sy[base lens l + (lens.take s).count l]? = some s

theorem symLoop_ok (lens : List Nat) (hb : ∀ l ∈ lens, l ≤ 15) (rest P : List Nat) (hP : lens = P ++ rest) (ix sy : List Nat)
    (hix : Holds ix fun l => base lens l + (if l = 0 then 0 else P.count l)) (hlen : lens.length ≤ sy.length)
    (hs : Syms lens sy P.length) :
    ∃ sy', symLoop rest P.length ix sy = .ok sy' ∧ sy'.length = sy.length ∧ Syms lens sy' lens.length := by
  induction rest generalizing P ix sy with
  | nil =>
    refine ⟨sy, rfl, rfl, ?_⟩
    rw [hP, List.append_nil] at *; exact hs
  | cons x xs ih =>
    have hx : x ≤ 15 := hb x (by rw [hP]; simp)
    have hP' : lens = (P ++ [x]) ++ xs := by rw [hP, List.append_assoc]; rfl
    have htake : lens.take P.length = P := by rw [hP, List.take_left]
    have hat : lens[P.length]? = some x := by rw [hP]; simp
    have hPl : (P ++ [x]).length = P.length + 1 := by simp
    rw [symLoop]
    by_cases h0 : x = 0
    · subst h0
      rw [if_neg (by simp)]
      have := ih (P ++ [0]) hP' ix sy (hix.congr (by
        intro l _; by_cases e : l = 0
        · rw [if_pos e, if_pos e]
        · rw [if_neg e, if_neg e, List.count_append, List.count_singleton]; simp; omega)) hlen
        (by
          intro s l hs1 hs2 hs3
          rw [hPl] at hs1
          by_cases e : s = P.length
          · subst e; rw [hat] at hs2; simp at hs2; omega
          · exact hs s l (by omega) hs2 hs3)
      rwa [hPl] at this
    · have hlt := take_count_lt lens P.length x hat
      rw [htake] at hlt
      have hbc : blCount lens x = lens.count x := by rw [blCount, if_neg h0]
      have hbd := base_cnt lens x 16 (by omega)
      have hbl := base_le lens 16
      rw [if_pos h0, hix.rd (by omega), Res.bind_ok, if_neg h0]
      obtain ⟨ix₁, e1, h1⟩ := hix.wr (l := x) (v := base lens x + P.count x + 1) (by omega)
      rw [e1, Res.bind_ok, wrChk, if_pos (by omega), Res.bind_ok]
      have := ih (P ++ [x]) hP' ix₁ (sy.set (base lens x + P.count x) P.length) (h1.congr (by
          intro l _
          by_cases e : l = x
          · subst e; rw [if_pos rfl, if_neg h0, List.count_append, List.count_singleton]; simp; omega
          · rw [if_neg e]
            by_cases e0 : l = 0
            · rw [if_pos e0, if_pos e0]
            · rw [if_neg e0, if_neg e0, List.count_append, List.count_singleton, if_neg (by simp; omega), Nat.add_zero]))
        (by rw [List.length_set]; exact hlen)
        (by
          intro s l hs1 hs2 hs3
          rw [hPl] at hs1
          by_cases e : s = P.length
          · subst e; rw [hat] at hs2; simp only [Option.some.injEq] at hs2; subst hs2
            rw [htake, List.getElem?_set_self (by omega)]
          · rw [List.getElem?_set_ne]
            · exact hs s l (by omega) hs2 hs3
            · have hlt' := take_count_lt lens s l hs2
              have hbl' : blCount lens l = lens.count l := by rw [blCount, if_neg hs3]
              by_cases hxl : x = l
              · subst hxl
                have : P[s]? = some x := by
                  rw [hP, List.getElem?_append_left (by omega)] at hs2; exact hs2
                have := take_count_lt P s x this
                have : lens.take s = P.take s := by rw [hP, List.take_append_of_le_length (by omega)]
                rw [this]; omega
              · rcases Nat.lt_or_ge x l with h | h
                · have := base_cnt lens x l h; omega
                · have := base_cnt lens l x (by omega); omega)
      rw [hPl, List.length_set] at this
      exact this

/-- The tables are those of the lengths (auxiliary). -/
structure Hufc.For (hc : Hufc) (lens : List Nat) : Prop where
  count : Holds hc.count (blCount lens)
  syms : Syms lens hc.symbol lens.length
  small : ∀ l ∈ lens, l ≤ 15

theorem mkhufc_ok (lens : List Nat) (hb : ∀ l ∈ lens, l ≤ 15) (sy : List Nat) (hlen : lens.length ≤ sy.length) :
    ∃ hc, mkhufc lens sy = .ok hc ∧ hc.For lens := by
  obtain ⟨c, e1, h1⟩ := countLoop_ok lens hb _ _ holds_zero
  obtain ⟨c', e2, h2⟩ := h1.wr (l := 0) (v := 0) (by omega)
  have h3 : Holds c' (blCount lens) := h2.congr fun l _ => by
    dsimp only [blCount]; rw [Nat.zero_add]
  obtain ⟨ix, e4, h4⟩ := indexLoop_ok lens c' h3 MaxBits 1 (by omega) rfl _ _ holds_zero (by
    intro k hk; rw [show k = 0 by omega, base_zero])
  obtain ⟨sy', e5, _, h5⟩ := symLoop_ok lens hb lens [] rfl ix sy (h4.congr (by simp)) hlen (by
    intro s l hs; simp at hs)
  exact ⟨⟨c', sy'⟩, by
    rw [mkhufc, if_pos hlen, e1, Res.bind_ok, e2, Res.bind_ok, e4, Res.bind_ok]
    show (symLoop lens 0 ix sy >>= _) = _
    rw [show symLoop lens 0 ix sy = _ from e5]; rfl, h3, h5, hb⟩

/-! ## Code values -/

/-- The part of Kraft's sum for lengths below `m` (auxiliary). -/
def kr (lens : List Nat) (m : Nat) : Nat :=
  (lens.map fun l => if l = 0 then 0 else if l < m then 2 ^ (15 - l) else 0).sum

theorem kr_succ (lens : List Nat) (m : Nat) : kr lens (m + 1) = kr lens m + blCount lens m * 2 ^ (15 - m) := by
  induction lens with
  | nil => simp [kr, blCount]
  | cons x xs ih =>
    simp only [kr, blCount, List.map_cons, List.sum_cons, List.count_cons] at ih ⊢
    rw [ih]
    by_cases h0 : m = 0
    · subst h0; simp
    · rw [if_neg h0, if_neg h0]
      by_cases hx : x = m
      · subst hx
        simp only [h0, beq_self_eq_true, if_true, if_false, Nat.lt_irrefl, Nat.lt_succ_self, Nat.add_mul]
        omega
      · simp only [beq_iff_eq, hx, if_false, Nat.add_zero]
        have : (x < m + 1) = (x < m) := by apply propext; omega
        simp only [this]; omega

theorem nextCode_kr (lens : List Nat) (m : Nat) (h : m ≤ 15) : nextCode lens m * 2 ^ (15 - m) = kr lens m := by
  induction m with
  | zero =>
    simp only [nextCode, Nat.zero_mul, kr, Nat.not_lt_zero, if_false, ite_self]
    induction lens with
    | nil => rfl
    | cons x xs ih => simpa using ih
  | succ m ih =>
    rw [kr_succ, ← ih (by omega), nextCode, ← Nat.add_mul, show 15 - m = (15 - (m + 1)) + 1 by omega, Nat.pow_succ,
      Nat.mul_comm (2 ^ _) 2, Nat.mul_assoc]

theorem kr_mono (lens : List Nat) (m k : Nat) (h : m ≤ k) : kr lens m ≤ kr lens k := by
  induction k with
  | zero => rw [show m = 0 by omega]
  | succ k ih =>
    rcases Nat.lt_or_eq_of_le h with h | h
    · exact Nat.le_trans (ih (by omega)) (by rw [kr_succ]; omega)
    · rw [h]

theorem codeVal_lt (lens : List Nat) (hv : Valid lens) (s l : Nat) (h : lens[s]? = some l) (h0 : l ≠ 0) :
    codeVal lens s l < 2 ^ l := by
  have hl : l ≤ 15 := hv.1 l (List.mem_of_getElem? h)
  have h1 : kr lens 16 ≤ 2 ^ 15 := by
    refine Nat.le_trans (Nat.le_of_eq ?_) hv.2
    rw [kr]; congr 1
    apply List.map_congr_left
    intro x hx
    have := hv.1 x hx
    have hx16 : x < 16 := by omega
    rw [if_pos hx16]
  have h2 : (nextCode lens l + blCount lens l) * 2 ^ (15 - l) ≤ 2 ^ 15 := by
    rw [Nat.add_mul, nextCode_kr lens l hl, ← kr_succ]
    exact Nat.le_trans (kr_mono _ _ _ (by omega)) h1
  have h3 : nextCode lens l + blCount lens l ≤ 2 ^ l := by
    apply Nat.le_of_mul_le_mul_right _ (Nat.two_pow_pos (15 - l))
    rw [← Nat.pow_add, show l + (15 - l) = 15 by omega]; exact h2
  have h4 := take_count_lt lens s l h
  rw [blCount, if_neg h0] at h3
  rw [codeVal]; omega

theorem nextCode_ge (lens : List Nat) (m d : Nat) :
    (nextCode lens m + blCount lens m) * 2 ^ (d + 1) ≤ nextCode lens (m + d + 1) := by
  induction d with
  | zero => rw [Nat.zero_add, Nat.pow_one, Nat.add_zero, nextCode]
  | succ d ih =>
    rw [show m + (d + 1) + 1 = (m + d + 1) + 1 by omega, nextCode, Nat.pow_succ, ← Nat.mul_assoc]
    exact Nat.mul_le_mul_right _ (by omega)

/-! ## Reading a symbol -/

theorem half (c d : Nat) : 2 * (c / 2 ^ (d + 1)) + (c.testBit d).toNat = c / 2 ^ d := by
  rw [Nat.testBit_eq_decide_div_mod_eq, Nat.pow_succ, ← Nat.div_div_eq_div_mul]
  rcases Nat.mod_two_eq_zero_or_one (c / 2 ^ d) with h | h <;> simp [h] <;> omega

theorem codeLoop_ok (hc : Hufc) (lens : List Nat) (hf : hc.For lens) (s L : Nat) (hs : lens[s]? = some L) (h0 : L ≠ 0)
    (d n len : Nat) (hd : len + d = L) (hn : n = 16 - len) (hlen : 1 ≤ len) (i : In) (hw : i.WF) (rest : List Bool)
    (hp : i.pend = msb (d + 1) (codeVal lens s L) ++ rest) :
    ∃ i', codeLoop hc n len i (2 * (codeVal lens s L / 2 ^ (d + 1))) (nextCode lens len) (base lens len) = FM.ret (s, i') ∧
      i'.WF ∧ i'.pend = rest := by
  have hL : L ≤ 15 := hf.small L (List.mem_of_getElem? hs)
  induction d generalizing n len i with
  | zero =>
    obtain ⟨n, rfl⟩ : ∃ k, n = k + 1 := ⟨n - 1, by omega⟩
    obtain rfl : len = L := by omega
    obtain ⟨i', e1, e2, e3⟩ := bits_ok i hw 1 (by omega) (by rw [hp, List.length_append, msb_length]; omega)
    rw [hp] at e1 e3
    simp only [msb, List.cons_append, List.nil_append, List.take_succ_cons, List.take_zero, num,
      Nat.mul_zero, Nat.add_zero, List.drop_succ_cons, List.drop_zero] at e1 e3
    refine ⟨i', ?_, e2, e3⟩
    rw [codeLoop, e1, FM.bind_ret, hf.count.rd (by omega), FM.lift_ok, FM.bind_ret]
    dsimp only
    rw [Nat.zero_add, half, Nat.pow_zero, Nat.div_one]
    have hlt := take_count_lt lens s len hs
    have hlen' : s < lens.length := (List.getElem?_eq_some_iff.1 hs).1
    rw [if_pos (by rw [codeVal, blCount, if_neg h0]; omega)]
    have hi : (base lens len : Int) + ((codeVal lens s len : Int) - nextCode lens len)
        = ((base lens len + (lens.take s).count len : Nat) : Int) := by
      rw [codeVal]; push_cast; omega
    rw [hi, rdInt, if_neg (by omega), Int.toNat_natCast, rdChk, hf.syms s len hlen' hs h0]
    rfl
  | succ d ih =>
    obtain ⟨n, rfl⟩ : ∃ k, n = k + 1 := ⟨n - 1, by omega⟩
    obtain ⟨i', e1, e2, e3⟩ := bits_ok i hw 1 (by omega) (by rw [hp, List.length_append, msb_length]; omega)
    rw [hp] at e1 e3
    rw [msb] at e1 e3
    simp only [List.cons_append, List.take_succ_cons, List.take_zero, num,
      Nat.mul_zero, Nat.add_zero, List.drop_succ_cons, List.drop_zero] at e1 e3
    rw [codeLoop, e1, FM.bind_ret, hf.count.rd (by omega), FM.lift_ok, FM.bind_ret]
    dsimp only
    rw [half]
    have hge := nextCode_ge lens len d
    rw [show len + d + 1 = L by omega] at hge
    rw [if_neg (by
      have : nextCode lens len + blCount lens len ≤ codeVal lens s L / 2 ^ (d + 1) := by
        rw [Nat.le_div_iff_mul_le (Nat.two_pow_pos _)]
        rw [codeVal]; omega
      omega)]
    have := ih n (len + 1) (by omega) (by omega) (by omega) i' e2 e3
    rw [nextCode, base_succ] at this
    rw [Nat.shiftLeft_eq, Nat.shiftLeft_eq, Nat.pow_one, Nat.mul_comm (_ / _) 2]
    exact this

/-- A code at the front of the input is read as its symbol, and exactly its bits are taken. -/
theorem readcode_ok (hc : Hufc) (lens : List Nat) (hf : hc.For lens) (hv : Valid lens) (i : In) (hw : i.WF) (s : Nat)
    (b rest : List Bool) (hb : Code lens s b) (hp : i.pend = b ++ rest) :
    ∃ i', readcode i hc = FM.ret (s, i') ∧ i'.WF ∧ i'.pend = rest := by
  obtain ⟨L, h1, h0, rfl⟩ := hb
  have hlt := codeVal_lt lens hv s L h1 h0
  have hz : codeVal lens s L / 2 ^ (L - 1 + 1) = 0 := by
    rw [show L - 1 + 1 = L by omega]; exact Nat.div_eq_of_lt hlt
  have := codeLoop_ok hc lens hf s L h1 h0 (L - 1) 15 1 (by omega) rfl (by omega) i hw rest
    (by rw [show L - 1 + 1 = L by omega]; exact hp)
  rw [hz, base_succ, base_zero] at this
  exact this

/-- The number whose bits, most significant first, are given (auxiliary). -/
def numM (bs : List Bool) : Nat := bs.foldl (fun v b => 2 * v + b.toNat) 0

theorem numM_append (bs : List Bool) (b : Bool) : numM (bs ++ [b]) = 2 * numM bs + b.toNat := by
  simp [numM, List.foldl_append]

theorem msb_add (n x : Nat) (b : Bool) : msb (n + 1) (2 * x + b.toNat) = msb n x ++ [b] := by
  induction n with
  | zero =>
    rw [msb, msb, msb, Nat.testBit_zero]
    cases b <;> simp
  | succ n ih =>
    rw [msb, ih, msb, List.cons_append, Nat.testBit_succ]
    congr 2
    cases b <;> (simp; try omega)

theorem msb_numM (bs : List Bool) : msb bs.length (numM bs) = bs := by
  obtain ⟨r, rfl⟩ : ∃ r : List Bool, bs = r.reverse := ⟨bs.reverse, by simp⟩
  induction r with
  | nil => rfl
  | cons b r ih =>
    rw [List.reverse_cons, numM_append, List.length_append, List.length_singleton, msb_add, ih]

theorem codeLoop_back (hc : Hufc) (lens : List Nat) (hf : hc.For lens) (n len : Nat) (hn : n + len = 16) (hlen : 1 ≤ len)
    (i : In) (hw : i.WF) (pre : List Bool) (hpre : pre.length + 1 = len) (code first index : Nat) (hcode : code = 2 * numM pre)
    (hfirst : first = nextCode lens len) (hindex : index = base lens len) (hge : first ≤ code) :
    codeLoop hc n len i code first index = FM.err .io ∨ codeLoop hc n len i code first index = FM.err .format ∨
    ∃ s i' b, codeLoop hc n len i code first index = FM.ret (s, i') ∧ i'.WF ∧ Code lens s (pre ++ b) ∧
      i.pend = b ++ i'.pend := by
  induction n generalizing len i pre code first index with
  | zero => exact .inr (.inl rfl)
  | succ n ih =>
    by_cases hp : i.pend.length = 0
    · left; rw [codeLoop, bits_short i hw 1 (by omega) (by omega)]; rfl
    · obtain ⟨i', e1, e2, e3⟩ := bits_ok i hw 1 (by omega) (by omega)
      obtain ⟨b, r, hbr⟩ : ∃ b r, i.pend = b :: r := by
        cases h : i.pend with
        | nil => rw [h] at hp; simp at hp
        | cons b r => exact ⟨b, r, rfl⟩
      rw [hbr] at e1 e3
      simp only [List.take_succ_cons, List.take_zero, num, Nat.mul_zero, Nat.add_zero, List.drop_succ_cons,
        List.drop_zero] at e1 e3
      rw [codeLoop, e1, FM.bind_ret, hf.count.rd (by omega), FM.lift_ok, FM.bind_ret]
      dsimp only
      have hnum : code + b.toNat = numM (pre ++ [b]) := by rw [numM_append, hcode]
      by_cases hlt : code + b.toNat < first + blCount lens len
      · rw [if_pos hlt]
        have h0 : len ≠ 0 := by omega
        rw [blCount, if_neg h0] at hlt
        obtain ⟨s, hs1, hs2⟩ := nth_count lens len (code + b.toNat - first) (by omega)
        have hsl : s < lens.length := (List.getElem?_eq_some_iff.1 hs1).1
        have hi : (index : Int) + (((code + b.toNat : Nat) : Int) - first)
            = ((base lens len + (lens.take s).count len : Nat) : Int) := by
          rw [hs2, hindex]; omega
        rw [hi, rdInt, if_neg (by omega), Int.toNat_natCast, rdChk, hf.syms s len hsl hs1 h0]
        refine .inr (.inr ⟨s, i', [b], rfl, e2, ⟨len, hs1, h0, ?_⟩, by rw [hbr, e3]; rfl⟩)
        rw [codeVal, hs2, ← hfirst, show first + (code + b.toNat - first) = numM (pre ++ [b]) by omega,
          show len = (pre ++ [b]).length by simp; omega, msb_numM]
      · rw [if_neg hlt]
        rcases ih (len + 1) (by omega) (by omega) i' e2 (pre ++ [b]) (by simp; omega) ((code + b.toNat) <<< 1)
          ((first + blCount lens len) <<< 1) (index + blCount lens len)
          (by rw [Nat.shiftLeft_eq, hnum]; omega) (by rw [Nat.shiftLeft_eq, nextCode, hfirst])
          (by rw [base_succ, hindex]) (by rw [Nat.shiftLeft_eq, Nat.shiftLeft_eq]; omega) with h | h | ⟨s, i'', b', h1, h2, h3, h4⟩
        · exact .inl h
        · exact .inr (.inl h)
        · refine .inr (.inr ⟨s, i'', b :: b', h1, h2, by simpa using h3, by rw [hbr, ← e3, h4]; rfl⟩)

/-- Whatever the input, reading a symbol gives an error or a symbol whose code was there. -/
theorem readcode_back (hc : Hufc) (lens : List Nat) (hf : hc.For lens) (i : In) (hw : i.WF) :
    readcode i hc = FM.err .io ∨ readcode i hc = FM.err .format ∨
    ∃ s i' b, readcode i hc = FM.ret (s, i') ∧ i'.WF ∧ Code lens s b ∧ i.pend = b ++ i'.pend := by
  have := codeLoop_back hc lens hf 15 1 rfl (by omega) i hw [] rfl 0 0 0 rfl rfl
    (by rw [base_succ, base_zero]; rfl) (Nat.le_refl _)
  simpa [readcode, MaxBits] using this

end Verif.Flate
