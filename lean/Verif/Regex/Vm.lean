import Verif.Regex.Code

/-! # The virtual machine -/

namespace Verif.Regex
open Verif.Utf

/-! ## Packed instructions -/

/-- The number of a packed instruction. -/
def val : Inst → Nat
  | .byte b => b.toNat * 16
  | .range a b => 1 + a.toNat * 16 + b.toNat * 65536
  | .lbra m => 2 + m * 16
  | .rbra m => 3 + m * 16
  | .bol => 4
  | .eol => 5
  | .bow => 6
  | .eow => 7
  | .fork a b => 8 + a * 16 + b * 17179869184
  | .jmp d => 9 + d * 16
  | .mtch m => 10 + m * 16

/-- The fields are small enough. -/
def Fits : Inst → Prop
  | .lbra m => m < 16
  | .rbra m => m < 16
  | .fork a b => a < 2 ^ 30 ∧ b < 2 ^ 30
  | .jmp d => d < 2 ^ 30
  | .mtch m => m = 0
  | .bow => False
  | .eow => False
  | _ => True

theorem or_shl (k x n : Nat) (h : k < 2 ^ n) : k ||| x <<< n = k + x * 2 ^ n := by
  rw [Nat.or_comm, ← Nat.shiftLeft_add_eq_or_of_lt h, Nat.shiftLeft_eq, Nat.add_comm]

theorem or2 (k : BitVec 64) (x n : Nat) (hk : k.toNat < 2 ^ n) (hn : n ≤ 34) (hx : x < 2 ^ 30) :
    (k ||| (BitVec.ofNat 64 x <<< n)).toNat = k.toNat + x * 2 ^ n := by
  have h1 : x * 2 ^ n < 2 ^ 64 := by
    have : 2 ^ n ≤ 2 ^ 34 := Nat.pow_le_pow_right (by omega) hn
    calc x * 2 ^ n < 2 ^ 30 * 2 ^ n := Nat.mul_lt_mul_of_pos_right hx (Nat.two_pow_pos n)
      _ ≤ 2 ^ 30 * 2 ^ 34 := Nat.mul_le_mul_left _ this
      _ = 2 ^ 64 := by decide
  have h2 : (BitVec.ofNat 64 x <<< n).toNat = x <<< n := by
    rw [BitVec.toNat_shiftLeft, BitVec.toNat_ofNat, Nat.mod_eq_of_lt (show x < 2 ^ 64 by omega), Nat.shiftLeft_eq,
      Nat.mod_eq_of_lt h1]
  rw [BitVec.toNat_or, h2, or_shl _ _ _ hk]

theorem or1 (k : BitVec 64) (x : Nat) (hk : k.toNat < 16) (hx : x < 2 ^ 30) :
    (k ||| (BitVec.ofNat 64 x <<< 4)).toNat = k.toNat + x * 16 :=
  or2 k x 4 hk (by omega) hx

theorem byte64 (b : Byte) : b.setWidth 64 = BitVec.ofNat 64 b.toNat := by
  apply BitVec.eq_of_toNat_eq
  have := b.isLt
  simp

theorem val_lt (x : Inst) (h : Fits x) : val x < 2 ^ 64 := by
  cases x with
  | byte b => have := b.isLt; simp only [val]; omega
  | range a b => have := a.isLt; have := b.isLt; simp only [val]; omega
  | lbra m => simp only [val, Fits] at *; omega
  | rbra m => simp only [val, Fits] at *; omega
  | fork a b => simp only [val, Fits] at *; omega
  | jmp a => simp only [val, Fits] at *; omega
  | mtch a => simp only [val, Fits] at *; omega
  | bol => simp only [val]; omega
  | eol => simp only [val]; omega
  | bow => simp only [val]; omega
  | eow => simp only [val]; omega

theorem enc_val (x : Inst) (h : Fits x) : (encinst x).toNat = val x := by
  cases x with
  | byte b =>
    have := b.isLt
    rw [encinst, byte64, or1 _ _ (by decide) (by omega)]
    simp [val]
  | range a b =>
    have := a.isLt; have := b.isLt
    rw [encinst, byte64, byte64, or2 _ _ 16 (by rw [or1 _ _ (by decide) (by omega)]; simp; omega) (by omega) (by omega),
      or1 _ _ (by decide) (by omega)]
    simp [val]
  | lbra m => simp only [Fits] at h; rw [encinst, or1 _ _ (by decide) (by omega)]; simp [val]
  | rbra m => simp only [Fits] at h; rw [encinst, or1 _ _ (by decide) (by omega)]; simp [val]
  | fork a b =>
    simp only [Fits] at h
    rw [encinst, or2 _ _ 34 (by rw [or1 _ _ (by decide) (by omega)]; simp; omega) (by omega) (by omega),
      or1 _ _ (by decide) (by omega)]
    simp [val]
  | jmp a => simp only [Fits] at h; rw [encinst, or1 _ _ (by decide) (by omega)]; simp [val]
  | mtch a => simp only [Fits] at h; rw [encinst, or1 _ _ (by decide) (by omega)]; simp [val]
  | bol => rfl
  | eol => rfl
  | bow => rfl
  | eow => rfl

theorem op_val (x : Inst) (h : Fits x) : encinst x &&& 0xf#64 = BitVec.ofNat 64 (val x % 16) := by
  apply BitVec.eq_of_toNat_eq
  rw [BitVec.toNat_and, enc_val x h, show (0xf#64).toNat = 2 ^ 4 - 1 from rfl,
    Nat.and_two_pow_sub_one_eq_mod, BitVec.toNat_ofNat, Nat.mod_eq_of_lt (show val x % 16 < 2 ^ 64 by omega)]

theorem shr_val (x : Inst) (h : Fits x) (n : Nat) : (encinst x >>> n).toNat = val x / 2 ^ n := by
  rw [BitVec.toNat_ushiftRight, enc_val x h, Nat.shiftRight_eq_div_pow]

theorem fld_val (x : Inst) (h : Fits x) (n : Nat) : ((encinst x >>> n) &&& 0x3fffffff#64).toNat = val x / 2 ^ n % 2 ^ 30 := by
  rw [BitVec.toNat_and, shr_val x h, show (0x3fffffff#64).toNat = 2 ^ 30 - 1 from rfl, Nat.and_two_pow_sub_one_eq_mod]

theorem byte_val (x : Inst) (h : Fits x) (n : Nat) : (encinst x >>> n).setWidth 8 = BitVec.ofNat 8 (val x / 2 ^ n) := by
  apply BitVec.eq_of_toNat_eq
  rw [BitVec.toNat_setWidth, shr_val x h, BitVec.toNat_ofNat]

/-! ## One step -/

variable {P : List Inst} {s : List Byte} {i : Nat} {t : Thr} {cur : Int}

theorem rd_map {x : Inst} (hp : P[t.ip]? = some x) : rdChk (P.map encinst) t.ip = .ok (encinst x) := by
  simp [rdChk, hp]

theorem step_byte {b : Byte} (hp : P[t.ip]? = some (.byte b)) : step (P.map encinst) s i t cur =
    .ok (if s[i]? = some b then .alive { t with ip := t.ip + 1 } else .dead) := by
  have hf : Fits (.byte b) := trivial
  simp only [step, rd_map hp, Res.bind_ok, op_val _ hf, byte_val _ hf]
  have h1 : val (.byte b) % 16 = 0 := by simp only [val]; omega
  have h2 : BitVec.ofNat 8 (val (.byte b) / 2 ^ 4) = b := by
    simp only [val]
    rw [show b.toNat * 16 / 2 ^ 4 = b.toNat by omega]
    simp
  rw [h1, h2]
  rw [if_neg (by decide), if_pos rfl]
  cases hs : s[i]? with
  | none =>
    rw [if_neg (by have := List.getElem?_eq_none_iff.mp hs; omega)]
    simp
  | some c =>
    obtain ⟨hl, -⟩ := List.getElem?_eq_some_iff.mp hs
    rw [if_pos hl]
    simp only [rdChk, hs, Res.bind_ok, Res.pure_eq, Option.some.injEq]
    by_cases h : b = c
    · rw [if_neg (by simpa using h), if_pos h.symm]
    · rw [if_pos h, if_neg (fun e => h e.symm)]

theorem step_range {x y : Byte} (hp : P[t.ip]? = some (.range x y)) : step (P.map encinst) s i t cur =
    .ok (if ∃ b, s[i]? = some b ∧ x ≤ b ∧ b ≤ y then .alive { t with ip := t.ip + 1 } else .dead) := by
  have hf : Fits (.range x y) := trivial
  simp only [step, rd_map hp, Res.bind_ok, op_val _ hf, byte_val _ hf]
  have hx := x.isLt
  have hy := y.isLt
  have h1 : val (.range x y) % 16 = 1 := by simp only [val]; omega
  have h2 : BitVec.ofNat 8 (val (.range x y) / 2 ^ 4) = x := by
    apply BitVec.eq_of_toNat_eq
    simp only [val, BitVec.toNat_ofNat]
    omega
  have h3 : BitVec.ofNat 8 (val (.range x y) / 2 ^ 16) = y := by
    apply BitVec.eq_of_toNat_eq
    simp only [val, BitVec.toNat_ofNat]
    omega
  rw [h1, h2, h3]
  rw [if_pos rfl]
  cases hs : s[i]? with
  | none =>
    rw [if_neg (by have := List.getElem?_eq_none_iff.mp hs; omega)]
    simp
  | some c =>
    obtain ⟨hl, -⟩ := List.getElem?_eq_some_iff.mp hs
    rw [if_pos hl]
    simp only [rdChk, hs, Res.bind_ok, Res.pure_eq]
    by_cases h : x ≤ c ∧ c ≤ y
    · rw [if_neg (by rw [BitVec.le_def, BitVec.le_def] at h; rw [gt_iff_lt, BitVec.lt_def, BitVec.lt_def]; omega),
        if_pos ⟨c, rfl, h⟩]
    · rw [if_pos (by rw [BitVec.le_def, BitVec.le_def] at h; rw [gt_iff_lt, BitVec.lt_def, BitVec.lt_def]; omega),
        if_neg (by rintro ⟨b, e, h'⟩; cases e; exact h h')]

theorem setlo_ok (g : Groups) (m i : Nat) (h : m < g.length) : setlo g m i = .ok (opened g m i) := by
  simp only [setlo, rdChk_ok h, Res.bind_ok, wrChk_ok _ h, opened]
  congr 1
  apply List.ext_getElem?
  intro k
  rw [List.getElem?_set, List.getElem?_modify]
  by_cases hk : m = k
  · subst hk; simp [h]
  · simp [hk]

theorem sethi_ok (g : Groups) (m i : Nat) (h : m < g.length) : sethi g m i = .ok (closed g m i) := by
  simp only [sethi, rdChk_ok h, Res.bind_ok, wrChk_ok _ h, closed]
  congr 1
  apply List.ext_getElem?
  intro k
  rw [List.getElem?_set, List.getElem?_modify]
  by_cases hk : m = k
  · subst hk; simp [h]
  · simp [hk]

theorem step_lbra {m : Nat} (hp : P[t.ip]? = some (.lbra m)) (hm : m < 16) (hl : t.mg.length = 16) :
    step (P.map encinst) s i t cur = .ok (.cont { ip := t.ip + 1, mg := opened t.mg m i } none) := by
  have hf : Fits (.lbra m) := hm
  simp only [step, rd_map hp, Res.bind_ok, op_val _ hf, shr_val _ hf]
  have h1 : val (.lbra m) % 16 = 2 := by simp only [val]; omega
  have h2 : val (.lbra m) / 2 ^ 4 = m := by simp only [val]; omega
  rw [h1, h2, setlo_ok _ _ _ (by omega)]
  rfl

theorem step_rbra {m : Nat} (hp : P[t.ip]? = some (.rbra m)) (hm : m < 16) (hl : t.mg.length = 16) :
    step (P.map encinst) s i t cur = .ok (.cont { ip := t.ip + 1, mg := closed t.mg m i } none) := by
  have hf : Fits (.rbra m) := hm
  simp only [step, rd_map hp, Res.bind_ok, op_val _ hf, shr_val _ hf]
  have h1 : val (.rbra m) % 16 = 3 := by simp only [val]; omega
  have h2 : val (.rbra m) / 2 ^ 4 = m := by simp only [val]; omega
  rw [h1, h2, sethi_ok _ _ _ (by omega)]
  rfl

theorem step_fork {l r : Nat} (hp : P[t.ip]? = some (.fork l r)) (hl : l < 2 ^ 30) (hr : r < 2 ^ 30) :
    step (P.map encinst) s i t cur =
      .ok (.cont { t with ip := l } (if (r : Int) ≠ cur then some { ip := r, mg := t.mg } else none)) := by
  have hf : Fits (.fork l r) := ⟨hl, hr⟩
  simp only [step, rd_map hp, Res.bind_ok, op_val _ hf, fld_val _ hf]
  have h1 : val (.fork l r) % 16 = 8 := by simp only [val]; omega
  have h2 : val (.fork l r) / 2 ^ 4 % 2 ^ 30 = l := by simp only [val]; omega
  have h3 : val (.fork l r) / 2 ^ 34 % 2 ^ 30 = r := by simp only [val]; omega
  rw [h1, h2, h3]
  rfl

theorem step_jmp {d : Nat} (hp : P[t.ip]? = some (.jmp d)) (hd : d < 2 ^ 30) :
    step (P.map encinst) s i t cur = .ok (.cont { t with ip := d } none) := by
  have hf : Fits (.jmp d) := hd
  simp only [step, rd_map hp, Res.bind_ok, op_val _ hf, shr_val _ hf]
  have h1 : val (.jmp d) % 16 = 9 := by simp only [val]; omega
  have h2 : val (.jmp d) / 2 ^ 4 = d := by simp only [val]; omega
  rw [h1, h2]
  rfl

theorem step_mtch {m : Nat} (hp : P[t.ip]? = some (.mtch m)) (hm : m = 0) :
    step (P.map encinst) s i t cur = .ok (.matched t) := by
  have hf : Fits (.mtch m) := hm
  simp only [step, rd_map hp, Res.bind_ok, op_val _ hf]
  have h1 : val (.mtch m) % 16 = 10 := by simp only [val]; omega
  rw [h1]
  rfl

theorem step_bol (hp : P[t.ip]? = some .bol) (hi : i ≤ s.length) : ∃ b : Bool, (b = true ↔ AtBol s i) ∧
    step (P.map encinst) s i t cur = .ok (anchor b t) := by
  have hf : Fits .bol := trivial
  simp only [step, rd_map hp, Res.bind_ok, op_val _ hf]
  rw [show val .bol % 16 = 4 from rfl]
  by_cases h0 : i = 0
  · refine ⟨true, by simp [AtBol, h0], ?_⟩
    rw [if_pos h0]
    rfl
  · refine ⟨s[i - 1]? == some 10#8, by simp [AtBol, h0], ?_⟩
    rw [if_neg h0]
    have hl : i - 1 < s.length := by omega
    rw [rdChk_ok hl, List.getElem?_eq_getElem hl]
    simp only [Res.bind_ok, Res.pure_eq]
    rfl

theorem step_eol (hp : P[t.ip]? = some .eol) (hi : i ≤ s.length) : ∃ b : Bool, (b = true ↔ AtEol s i) ∧
    step (P.map encinst) s i t cur = .ok (anchor b t) := by
  have hf : Fits .eol := trivial
  simp only [step, rd_map hp, Res.bind_ok, op_val _ hf]
  rw [show val .eol % 16 = 5 from rfl]
  by_cases h0 : i = s.length
  · refine ⟨true, by simp [AtEol, h0], ?_⟩
    rw [if_pos h0]
    rfl
  · refine ⟨s[i]? == some 10#8, by simp [AtEol, h0], ?_⟩
    rw [if_neg h0]
    have hl : i < s.length := by omega
    rw [rdChk_ok hl, List.getElem?_eq_getElem hl]
    simp only [Res.bind_ok, Res.pure_eq]
    rfl

/-! ## Programs -/

/-- A well formed program: targets and groups in range, the last instruction is not run over, and a byte is
never consumed just before a `match`. -/
structure Wf (P : List Inst) : Prop where
  small : P.length ≤ 2 ^ 30
  fits : ∀ (ip : Nat) x, P[ip]? = some x → Fits x
  next : ∀ (ip : Nat) x, P[ip]? = some x → (∀ m, x ≠ .mtch m) → (∀ l r, x ≠ .fork l r) → (∀ d, x ≠ .jmp d) → ip + 1 < P.length
  fork : ∀ (ip : Nat) l r, P[ip]? = some (.fork l r) → l < P.length ∧ r < P.length
  jmp : ∀ (ip : Nat) d, P[ip]? = some (.jmp d) → d < P.length
  byte : ∀ (ip : Nat) b m, P[ip]? = some (.byte b) → P[ip + 1]? ≠ some (.mtch m)
  range : ∀ (ip : Nat) x y m, P[ip]? = some (.range x y) → P[ip + 1]? ≠ some (.mtch m)

/-- A weight that pays for all threads. -/
def Weight (P : List Inst) (w : Nat → Nat) : Prop := ∀ ip, w ip = 1 + ((succs P ip).map w).sum

theorem weight_exists (h : ∀ ip, Fin P ip) : ∃ w, Weight P w := by
  have wf : WellFounded (fun y x => y ∈ succs P x) := ⟨h⟩
  refine ⟨wf.fix fun x r => 1 + ((succs P x).attach.map fun y => r y.1 y.2).sum, ?_⟩
  intro ip
  rw [wf.fix_eq]
  simp only [List.map_attach_eq_pmap, List.pmap_eq_map]

/-- The outcome of running one thread. -/
structure ThreadPost (P : List Inst) (s : List Byte) (i : Nat) (w : Nat → Nat) (t : Thr) (k : Kind) (t' : Thr) (q' : List Thr) : Prop where
  pay : (q'.map fun u => w u.ip).sum + 1 ≤ w t.ip
  new : ∀ u ∈ q', u.ip < P.length ∧ u.mg.length = 16 ∧ ∀ j g', Hit P s u.ip i u.mg j g' → Hit P s t.ip i t.mg j g'
  alive : k = .alive → i < s.length ∧ t'.ip < P.length ∧ t'.mg.length = 16 ∧ (∀ m, P[t'.ip]? ≠ some (.mtch m)) ∧
    ∀ j g', Hit P s t'.ip (i + 1) t'.mg j g' → Hit P s t.ip i t.mg j g'
  matched : k = .matched → (∃ m, P[t'.ip]? = some (.mtch m)) ∧ Hit P s t.ip i t.mg i t'.mg
  all : ∀ j g', Hit P s t.ip i t.mg j g' → (k = .alive ∧ ∃ g2, Hit P s t'.ip (i + 1) t'.mg j g2) ∨ (k = .matched ∧ j = i) ∨
    ∃ u ∈ q', ∃ g2, Hit P s u.ip i u.mg j g2

theorem opened_length (g : Groups) (m i : Nat) : (opened g m i).length = g.length := by simp [opened]
theorem closed_length (g : Groups) (m i : Nat) : (closed g m i).length = g.length := by simp [closed]

/-- Going on with one successor. -/
theorem ThreadPost.one {w : Nat → Nat} {t t1 t' : Thr} {k : Kind} {q' : List Thr}
    (hw : w t1.ip < w t.ip)
    (h : ThreadPost P s i w t1 k t' q')
    (hf : ∀ j g', Hit P s t1.ip i t1.mg j g' → Hit P s t.ip i t.mg j g')
    (hb : ∀ j g', Hit P s t.ip i t.mg j g' → Hit P s t1.ip i t1.mg j g') : ThreadPost P s i w t k t' q' where
  pay := by have := h.pay; omega
  new := fun u hu => ⟨(h.new u hu).1, (h.new u hu).2.1, fun j g' hh => hf _ _ ((h.new u hu).2.2 j g' hh)⟩
  alive := fun hk => by
    obtain ⟨a, b, c, d, e⟩ := h.alive hk
    exact ⟨a, b, c, d, fun j g' hh => hf _ _ (e j g' hh)⟩
  matched := fun hk => ⟨(h.matched hk).1, hf _ _ (h.matched hk).2⟩
  all := fun j g' hh => h.all j g' (hb j g' hh)

theorem ThreadPost.dead {w : Nat → Nat} {t : Thr} (hw : 1 ≤ w t.ip) (h : ∀ j g', ¬ Hit P s t.ip i t.mg j g') :
    ThreadPost P s i w t .dead t [] where
  pay := by simpa using hw
  new := by simp
  alive := by simp
  matched := by simp
  all := fun j g' hh => (h j g' hh).elim

theorem Hit.inv_byte {ip j : Nat} {g g' : Groups} {x : Byte} (hp : P[ip]? = some (.byte x)) (h : Hit P s ip i g j g') :
    s[i]? = some x ∧ Hit P s (ip + 1) (i + 1) g j g' := by
  obtain ⟨n, h⟩ := h
  obtain ⟨n', -, h1, h2⟩ := hn_byte hp h
  exact ⟨h1, n', h2⟩

theorem Hit.inv_range {ip j : Nat} {g g' : Groups} {x y : Byte} (hp : P[ip]? = some (.range x y)) (h : Hit P s ip i g j g') :
    (∃ b, s[i]? = some b ∧ x ≤ b ∧ b ≤ y) ∧ Hit P s (ip + 1) (i + 1) g j g' := by
  obtain ⟨n, h⟩ := h
  obtain ⟨n', b, -, h1, h2, h3, h4⟩ := hn_range hp h
  exact ⟨⟨b, h1, h2, h3⟩, n', h4⟩

theorem thread_spec (hwf : Wf P) {w : Nat → Nat} (hw : Weight P w) (hi : i ≤ s.length) (start : Nat) (fuel : Nat) :
    ∀ (t : Thr) (cur : Int) (q : List Thr) (n : Int), t.ip < P.length → t.mg.length = 16 → w t.ip ≤ fuel →
    w t.ip ≤ w start → (cur = -1 ∨ cur = (start : Int)) →
    ∃ k t' q', thread (P.map encinst) s i start fuel cur t q n =
      .ok (k, t', q' ++ q, n + q'.length - (if k = .alive then 0 else 1)) ∧ ThreadPost P s i w t k t' q' := by
  induction fuel with
  | zero =>
    intro t cur q n _ _ hf
    have := hw t.ip
    omega
  | succ fuel ih =>
    intro t cur q n hip hmg hf hst hcur
    have hpos : 1 ≤ w t.ip := by have := hw t.ip; omega
    have hx : P[t.ip]? = some P[t.ip] := List.getElem?_eq_getElem hip
    have one : ∀ (t1 : Thr), step (P.map encinst) s i t cur = .ok (.cont t1 none) → t1.ip < P.length → t1.mg.length = 16 →
        w t1.ip < w t.ip → (∀ j g', Hit P s t1.ip i t1.mg j g' → Hit P s t.ip i t.mg j g') →
        (∀ j g', Hit P s t.ip i t.mg j g' → Hit P s t1.ip i t1.mg j g') →
        ∃ k t' q', thread (P.map encinst) s i start (fuel + 1) cur t q n =
          .ok (k, t', q' ++ q, n + q'.length - (if k = .alive then 0 else 1)) ∧ ThreadPost P s i w t k t' q' := by
      intro t1 hstep h1 h2 h3 h4 h5
      obtain ⟨k, t', q', e, hp⟩ := ih t1 start q n h1 h2 (by omega) (by omega) (.inr rfl)
      refine ⟨k, t', q', ?_, hp.one h3 h4 h5⟩
      simp only [thread, hstep, Res.bind_ok]
      exact e
    have dead : step (P.map encinst) s i t cur = .ok .dead → (∀ j g', ¬ Hit P s t.ip i t.mg j g') →
        ∃ k t' q', thread (P.map encinst) s i start (fuel + 1) cur t q n =
          .ok (k, t', q' ++ q, n + q'.length - (if k = .alive then 0 else 1)) ∧ ThreadPost P s i w t k t' q' := by
      intro hstep h
      refine ⟨.dead, t, [], ?_, .dead hpos h⟩
      simp [thread, hstep]
    have alive : step (P.map encinst) s i t cur = .ok (.alive { t with ip := t.ip + 1 }) → i < s.length → t.ip + 1 < P.length →
        (∀ m, P[t.ip + 1]? ≠ some (.mtch m)) →
        (∀ j g', Hit P s (t.ip + 1) (i + 1) t.mg j g' ↔ Hit P s t.ip i t.mg j g') →
        ∃ k t' q', thread (P.map encinst) s i start (fuel + 1) cur t q n =
          .ok (k, t', q' ++ q, n + q'.length - (if k = .alive then 0 else 1)) ∧ ThreadPost P s i w t k t' q' := by
      intro hstep h1 h2 h3 h4
      refine ⟨.alive, { t with ip := t.ip + 1 }, [], ?_, ?_⟩
      · simp [thread, hstep]
      · exact {
          pay := by simpa using hpos
          new := by simp
          alive := fun _ => ⟨h1, h2, hmg, h3, fun j g' hh => (h4 j g').mp hh⟩
          matched := by simp
          all := fun j g' hh => .inl ⟨rfl, g', (h4 j g').mpr hh⟩ }
    cases hins : P[t.ip] with
    | byte b =>
      rw [hins] at hx
      by_cases hb : s[i]? = some b
      · refine alive (by rw [step_byte hx, if_pos hb]) (List.getElem?_eq_some_iff.mp hb).1
          (hwf.next _ _ hx (by simp) (by simp) (by simp)) (fun m => hwf.byte _ _ m hx) ?_
        exact fun j g' => ⟨fun h => .step (.byte hx hb) h, fun h => (h.inv_byte hx).2⟩
      · exact dead (by rw [step_byte hx, if_neg hb]) (fun j g' h => hb (h.inv_byte hx).1)
    | range x y =>
      rw [hins] at hx
      by_cases hb : ∃ b, s[i]? = some b ∧ x ≤ b ∧ b ≤ y
      · have hb' := hb
        obtain ⟨b, hb1, hb2, hb3⟩ := hb
        refine alive (by rw [step_range hx, if_pos hb']) (List.getElem?_eq_some_iff.mp hb1).1
          (hwf.next _ _ hx (by simp) (by simp) (by simp)) (fun m => hwf.range _ _ _ m hx) ?_
        exact fun j g' => ⟨fun h => .step (.range hx hb1 hb2 hb3) h, fun h => (h.inv_range hx).2⟩
      · exact dead (by rw [step_range hx, if_neg hb]) (fun j g' h => hb (h.inv_range hx).1)
    | lbra m =>
      rw [hins] at hx
      have hs : w t.ip = 1 + w (t.ip + 1) := by rw [hw t.ip]; simp [succs, hx]
      refine one _ (step_lbra hx (hwf.fits _ _ hx) hmg) (hwf.next _ _ hx (by simp) (by simp) (by simp))
        (by simp [opened_length, hmg]) (by simp only; omega) ?_ ?_
      · exact fun j g' h => .step (.lbra hx) h
      · rintro j g' ⟨n, h⟩
        obtain ⟨n', -, h⟩ := hn_lbra hx h
        exact ⟨n', h⟩
    | rbra m =>
      rw [hins] at hx
      have hs : w t.ip = 1 + w (t.ip + 1) := by rw [hw t.ip]; simp [succs, hx]
      refine one _ (step_rbra hx (hwf.fits _ _ hx) hmg) (hwf.next _ _ hx (by simp) (by simp) (by simp))
        (by simp [closed_length, hmg]) (by simp only; omega) ?_ ?_
      · exact fun j g' h => .step (.rbra hx) h
      · rintro j g' ⟨n, h⟩
        obtain ⟨n', -, h⟩ := hn_rbra hx h
        exact ⟨n', h⟩
    | bol =>
      rw [hins] at hx
      have hs : w t.ip = 1 + w (t.ip + 1) := by rw [hw t.ip]; simp [succs, hx]
      obtain ⟨b, hb, hstep⟩ := step_bol (cur := cur) hx hi
      cases b with
      | true =>
        refine one _ hstep (hwf.next _ _ hx (by simp) (by simp) (by simp)) hmg (by simp only; omega) ?_ ?_
        · exact fun j g' h => .step (.bol hx (hb.mp rfl)) h
        · rintro j g' ⟨n, h⟩
          obtain ⟨n', -, -, h⟩ := hn_bol hx h
          exact ⟨n', h⟩
      | false =>
        refine dead hstep ?_
        rintro j g' ⟨n, h⟩
        obtain ⟨n', -, h, -⟩ := hn_bol hx h
        exact absurd (hb.mpr h) (by simp)
    | eol =>
      rw [hins] at hx
      have hs : w t.ip = 1 + w (t.ip + 1) := by rw [hw t.ip]; simp [succs, hx]
      obtain ⟨b, hb, hstep⟩ := step_eol (cur := cur) hx hi
      cases b with
      | true =>
        refine one _ hstep (hwf.next _ _ hx (by simp) (by simp) (by simp)) hmg (by simp only; omega) ?_ ?_
        · exact fun j g' h => .step (.eol hx (hb.mp rfl)) h
        · rintro j g' ⟨n, h⟩
          obtain ⟨n', -, -, h⟩ := hn_eol hx h
          exact ⟨n', h⟩
      | false =>
        refine dead hstep ?_
        rintro j g' ⟨n, h⟩
        obtain ⟨n', -, h, -⟩ := hn_eol hx h
        exact absurd (hb.mpr h) (by simp)
    | bow => rw [hins] at hx; exact (hwf.fits _ _ hx).elim
    | eow => rw [hins] at hx; exact (hwf.fits _ _ hx).elim
    | jmp d =>
      rw [hins] at hx
      have hs : w t.ip = 1 + w d := by rw [hw t.ip]; simp [succs, hx]
      refine one _ (step_jmp hx (hwf.fits _ _ hx)) (hwf.jmp _ _ hx) hmg (by simp only; omega) ?_ ?_
      · exact fun j g' h => .step (.jmp hx) h
      · rintro j g' ⟨n, h⟩
        obtain ⟨n', -, h⟩ := hn_jmp hx h
        exact ⟨n', h⟩
    | mtch m =>
      rw [hins] at hx
      refine ⟨.matched, t, [], by simp [thread, step_mtch hx (hwf.fits _ _ hx)], ?_⟩
      exact {
        pay := by simpa using hpos
        new := by simp
        alive := by simp
        matched := fun _ => ⟨⟨m, hx⟩, 0, .here hx⟩
        all := fun j g' hh => by
          obtain ⟨n, hh⟩ := hh
          exact .inr (.inl ⟨rfl, (hn_mtch hx hh).1⟩) }
    | fork l r =>
      rw [hins] at hx
      have hs : w t.ip = 1 + (w l + w r) := by rw [hw t.ip]; simp [succs, hx]
      have hlr := hwf.fork _ _ _ hx
      have hfit := hwf.fits _ _ hx
      have hne : (r : Int) ≠ cur := by
        rcases hcur with rfl | rfl
        · omega
        · intro h
          have : r = start := by omega
          rw [this] at hs
          omega
      have hstep := step_fork (s := s) (i := i) (cur := cur) hx hfit.1 hfit.2
      rw [if_pos hne] at hstep
      obtain ⟨k, t', q', e, hp⟩ := ih { t with ip := l } start ({ ip := r, mg := t.mg } :: q) (n + 1) hlr.1 hmg (by simp only; omega)
        (by simp only; omega) (.inr rfl)
      refine ⟨k, t', q' ++ [{ ip := r, mg := t.mg }], ?_, ?_⟩
      · simp only [thread, hstep, Res.bind_ok]
        rw [e]
        congr 1
        simp only [List.length_append, List.length_singleton, List.append_assoc, List.singleton_append, Prod.mk.injEq,
          true_and]
        omega
      · exact {
          pay := by
            have := hp.pay
            simp only [List.map_append, List.sum_append, List.map_cons, List.map_nil, List.sum_cons, List.sum_nil] at this ⊢
            omega
          new := by
            intro u hu
            rcases List.mem_append.mp hu with hu | hu
            · exact ⟨(hp.new u hu).1, (hp.new u hu).2.1, fun j g' hh => .step (.forkl hx) ((hp.new u hu).2.2 j g' hh)⟩
            · cases List.mem_singleton.mp hu
              exact ⟨hlr.2, hmg, fun j g' hh => .step (.forkr hx) hh⟩
          alive := fun hk => by
            obtain ⟨a, b, c, d, e⟩ := hp.alive hk
            exact ⟨a, b, c, d, fun j g' hh => .step (.forkl hx) (e j g' hh)⟩
          matched := fun hk => ⟨(hp.matched hk).1, .step (.forkl hx) (hp.matched hk).2⟩
          all := by
            rintro j g' ⟨n, hh⟩
            obtain ⟨n', -, hh | hh⟩ := hn_fork hx hh
            · rcases hp.all j g' ⟨n', hh⟩ with h | h | ⟨u, hu, h⟩
              · exact .inl h
              · exact .inr (.inl h)
              · exact .inr (.inr ⟨u, List.mem_append_left _ hu, h⟩)
            · exact .inr (.inr ⟨_, List.mem_append_right _ (List.mem_singleton.mpr rfl), g', n', hh⟩) }

end Verif.Regex
