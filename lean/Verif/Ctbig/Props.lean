import Verif.Ctbig.Pow

/-!
# C87, C88: numbers for cryptography

`Is x n v` says that `x` is the number `v` in `n` bits, `leVal` and `beVal` are the
numbers that bytes stand for.

* C87, arithmetic and conversions: `arith_means`, `compare_means`, `from_bytes`;
  `iszero_violated`, `iszero_partial`; `bytes_violated`, `bytes_partial`;
  `make_violated`, `make_partial`.
* C88, powers modulo a number: `modpow_violated`, `grow_violated`, `modpow_partial`,
  `grow_partial`.
-/

namespace Verif.Ctbig

open Endian (leVal beVal)

/-! ## C87 -/

/-- **C87.** Sums, differences and products are those of the numbers, modulo the size. -/
theorem arith_means {r a b : Big} {n z x y : Nat} (hn : 0 < n) (hr : Is r n z) (ha : Is a n x) (hb : Is b n y) :
    (∃ s, ctadd r a b = .ok s ∧ Is s n ((x + y) % 2 ^ n)) ∧
    (∃ s, ctsub r a b = .ok s ∧ Is s n ((2 ^ n + x - y) % 2 ^ n)) ∧
    (∃ s, ctmul r a b = .ok s ∧ Is s n (x * y % 2 ^ n)) := by
  refine ⟨ctaddcc_one hn hr ha hb, ?_, ctmul_ok hn hr ha hb⟩
  obtain ⟨s, h1, h2⟩ := ctsubcc_one hn hr ha hb
  refine ⟨s, ?_, h2⟩
  unfold ctsub
  rw [h1]
  rfl

theorem or_zero_iff (a b : W) : a ||| b = 0 ↔ a = 0 ∧ b = 0 := by
  constructor
  · intro h
    have h1 : ∀ i, (a ||| b).getLsbD i = false := by intro i; rw [h]; simp
    simp only [BitVec.getLsbD_or, Bool.or_eq_false_iff] at h1
    refine ⟨?_, ?_⟩ <;> apply BitVec.eq_of_getLsbD_eq <;> intro i hi <;> simp [h1 i]
  · rintro ⟨rfl, rfl⟩; decide

theorem eqFold : ∀ (a b : List W) (nz : W), a.length = b.length →
    ((a.zip b).foldl (fun (nz : W) p => nz ||| (p.1 - p.2)) nz = 0 ↔ nz = 0 ∧ a = b)
  | [], [], nz, _ => by simp
  | x :: xs, y :: ys, nz, h => by
    rw [List.zip_cons_cons, List.foldl_cons, eqFold xs ys _ (by simpa using h), or_zero_iff, List.cons.injEq]
    have : x - y = 0 ↔ x = y := by
      constructor
      · intro hs
        apply BitVec.eq_of_toNat_eq
        have := congrArg BitVec.toNat hs
        rw [BitVec.toNat_sub] at this
        have h1 := x.isLt
        have h2 := y.isLt
        simp only [show (0 : W).toNat = 0 from rfl] at this
        omega
      · rintro rfl; simp
    rw [this, and_assoc]

/-- **C87.** Comparisons compare the numbers, and change nothing. -/
theorem compare_means {a b : Big} {n x y : Nat} (hn : 0 < n) (ha : Is a n x) (hb : Is b n y) :
    cteq a b = .ok (decide (x = y)) ∧ ctne a b = .ok (decide (x ≠ y)) ∧
    ctlt a b = .ok (a, decide (x < y)) ∧ ctge a b = .ok (a, decide (y ≤ x)) ∧
    ctgt a b = .ok (b, decide (y < x)) ∧ ctle a b = .ok (b, decide (x ≤ y)) := by
  have hl : a.dig.length = b.dig.length := by rw [ha.len, hb.len]
  have heq : cteq a b = .ok (decide (x = y)) := by
    unfold cteq
    rw [checksz_ok ha hb, Res.bind_ok]
    dsimp only
    rw [Ct.eq_means (by decide)]
    have h1 := eqFold a.dig b.dig 0 hl
    have h2 : a.dig = b.dig ↔ x = y := by
      rw [← ha.val, ← hb.val]
      exact ⟨fun h => by rw [h], val_inj hl⟩
    by_cases h : x = y
    · rw [if_pos (h1.2 ⟨rfl, h2.2 h⟩)]; simp [h]
    · rw [if_neg (fun hh => h (h2.1 (h1.1 hh).2))]; simp [h]
  have hgt : ctgt a b = .ok (b, decide (y < x)) := by
    unfold ctgt
    rw [ctsubcc_zero hn hb hb ha, Res.bind_ok]
    dsimp only
    by_cases h : y < x
    · rw [if_pos h]; simp [h]
    · rw [if_neg h]; simp [h]
  refine ⟨heq, ?_, ctlt_ok hn ha hb, ctge_ok hn ha hb, hgt, ?_⟩
  · unfold ctne
    rw [heq, Res.bind_ok, b2b_ne]
    by_cases h : x = y <;> simp [h]
  · unfold ctle
    rw [hgt, Res.bind_ok]
    dsimp only
    rw [b2b_ne]
    by_cases h : y < x
    · rw [decide_eq_true h, decide_eq_false (show ¬ x ≤ y by omega)]; rfl
    · rw [decide_eq_false h, decide_eq_true (show x ≤ y by omega)]; rfl

/-- **C87.** Bytes become the number they stand for, modulo the size; the program is
stopped when there are more bytes than digits hold. -/
theorem from_bytes (v : List Byte) {n : Nat} (hn : 0 < n) :
    ((v.length + 3) / 4 ≤ ndig n → ∃ x y, mkctbigle v n = .ok x ∧ Is x n (leVal v % 2 ^ n) ∧ mkctbigbe v n = .ok y ∧ Is y n (beVal v % 2 ^ n)) ∧
    (ndig n < (v.length + 3) / 4 → mkctbigle v n = .abort ∧ mkctbigbe v n = .abort) := by
  obtain ⟨l1, l2⟩ := mkctbigle_ok v n hn
  obtain ⟨b1, b2⟩ := mkctbigbe_ok v n hn
  refine ⟨fun h => ?_, fun h => ⟨l2 h, b2 h⟩⟩
  obtain ⟨x, e1, i1⟩ := l1 h
  obtain ⟨y, e2, i2⟩ := b1 h
  exact ⟨x, y, e1, i1, e2, i2⟩

/-- Two numbers of 40 bits: the top digit is not full. -/
example : Is ⟨40, [0xffffffff, 0xff]⟩ 40 (2 ^ 40 - 1) ∧ Is ⟨40, [1, 0]⟩ 40 1 ∧
    ctadd ⟨40, [0, 0]⟩ ⟨40, [0xffffffff, 0xff]⟩ ⟨40, [1, 0]⟩ = .ok ⟨40, [0, 0]⟩ := by
  refine ⟨⟨rfl, rfl, rfl, by decide⟩, ⟨rfl, rfl, rfl, by decide⟩, by decide +kernel⟩

/-- The full claim about `ctiszero`. -/
def IszeroClaim : Prop := ∀ (a : Big) (n x : Nat), 0 < n → Is a n x → ctiszero a = decide (x = 0)

/-- **C87 violated.** Two is zero. -/
theorem iszero_violated : ¬ IszeroClaim := by
  intro h
  have := h ⟨8, [2]⟩ 8 2 (by decide) ⟨rfl, rfl, rfl, by decide⟩
  revert this
  decide

theorem zeroDigit (d : W) : Ct.mux d 0 1 = if d.toNat % 2 = 0 then 1 else 0 := by
  have hx : (0 : W) ^^^ 1 = 1 := by decide
  have hand : -d &&& 1 = if d.toNat % 2 = 0 then 0 else (1 : W) := by
    apply BitVec.eq_of_toNat_eq
    rw [BitVec.toNat_and, show (1 : W).toNat = 2 ^ 1 - 1 from rfl, Nat.and_two_pow_sub_one_eq_mod, BitVec.toNat_neg]
    have := d.isLt
    by_cases h : d.toNat % 2 = 0
    · rw [if_pos h]; simp only [show (0 : W).toNat = 0 from rfl]; omega
    · rw [if_neg h]; simp only [show (1 : W).toNat = 1 from rfl]; omega
  unfold Ct.mux
  rw [hx, hand]
  by_cases h : d.toNat % 2 = 0
  · rw [if_pos h, if_pos h]; decide
  · rw [if_neg h, if_neg h]; decide

theorem zeroFold (l : List W) : ∀ (z : W), (z = 0 ∨ z = 1) → (l.foldl (fun (z : W) d => let zz := Ct.mux d 0 1; Ct.mux zz z 0) z != 0) =
    decide (z = 1 ∧ ∀ d ∈ l, d.toNat % 2 = 0) := by
  induction l with
  | nil => intro z h; rcases h with rfl | rfl <;> simp
  | cons d l ih =>
    intro z h
    rw [List.foldl_cons]
    dsimp only
    rw [zeroDigit]
    by_cases hd : d.toNat % 2 = 0
    · rw [if_pos hd, mux1, ih z h]
      simp [hd]
    · rw [if_neg hd, mux0, ih 0 (.inl rfl)]
      simp [hd]

/-- **C87, what holds of `ctiszero`.** It says whether every digit is even; so zero
is zero, and no odd number is. -/
theorem iszero_partial (a : Big) : (ctiszero a = true ↔ ∀ d ∈ a.dig, d.toNat % 2 = 0) ∧ (val a.dig = 0 → ctiszero a = true) ∧
    (val a.dig % 2 = 1 → ctiszero a = false) := by
  have hmain : ctiszero a = decide (∀ d ∈ a.dig, d.toNat % 2 = 0) := by
    unfold ctiszero
    rw [zeroFold a.dig 1 (.inr rfl)]
    simp
  have hval0 : ∀ l : List W, val l = 0 → ∀ d ∈ l, d.toNat % 2 = 0 := by
    intro l
    induction l with
    | nil => intro _ d hd; simp at hd
    | cons e l ih =>
      intro h d hd
      rw [val] at h
      rcases List.mem_cons.1 hd with rfl | hd
      · omega
      · exact ih (by omega) d hd
  refine ⟨by rw [hmain, decide_eq_true_iff], fun h => by rw [hmain, decide_eq_true_iff]; exact hval0 _ h, fun h => ?_⟩
  rw [hmain, decide_eq_false_iff_not]
  intro hall
  match hd : a.dig with
  | [] => rw [hd] at h; simp [val] at h
  | d :: ds =>
    rw [hd] at h hall
    have := hall d (by simp)
    rw [val] at h
    omega

/-- The full claim about writing numbers as bytes: as many bytes as the size takes,
and those of the number, whatever the memory held. -/
def BytesClaim : Prop := ∀ (v : Big) (n x : Nat) (g : List Byte), 0 < n → Is v n x → g.length = (n + 7) / 8 →
  (∃ bs, ctbytesle g v = .ok bs ∧ bs.length = (n + 7) / 8 ∧ leVal bs = x) ∧
  (∃ bs, ctbytesbe g v = .ok bs ∧ bs.length = (n + 7) / 8 ∧ beVal bs = x)

/-- **C87 violated.** A byte's number comes out as whatever was in memory. -/
theorem bytes_violated : ¬ BytesClaim := by
  intro h
  obtain ⟨_, bs, h1, _, h2⟩ := h ⟨8, [5]⟩ 8 5 [7] (by decide) ⟨rfl, rfl, rfl, by decide⟩ rfl
  have e : ctbytesbe [7] ⟨8, [5]⟩ = .ok [7] := by decide
  rw [e] at h1
  injection h1 with h1
  subst h1
  revert h2
  decide

theorem and8 (k : Nat) : k &&& (3 + 1) = k % 8 &&& 4 := by
  have h := @Nat.and_mod_two_pow k 4 3
  have h2 : k &&& 4 ≤ 4 := Nat.and_le_right
  rw [show (2 : Nat) ^ 3 = 8 from rfl, Nat.mod_eq_of_lt (by omega : k &&& 4 < 8)] at h
  exact h

theorem and4 (k : Nat) (h : 4 ≤ k % 8) : k &&& (3 + 1) = 4 := by
  rw [and8]
  have : ∀ j, j < 8 → 4 ≤ j → j &&& 4 = 4 := by decide
  exact this _ (by omega) h

theorem and0 (k : Nat) (h : k % 8 < 4) : k &&& (3 + 1) = 0 := by
  rw [and8]
  have : ∀ j, j < 4 → j &&& 4 = 0 := by decide
  exact this _ h

/-- **C87, what holds of writing numbers as bytes.** The bytes are right when the
size in bytes is a multiple of four. Otherwise `ctbytesle` stops the program; so
does `ctbytesbe` when the size is 5, 6 or 7 modulo 8, and when it is 1, 2 or 3 the
last bytes of its result are never written. -/
theorem bytes_partial {v : Big} {n x : Nat} (g : List Byte) (hn : 0 < n) (hv : Is v n x) (hg : g.length = (n + 7) / 8) :
    ((n + 7) / 8 % 4 = 0 → (∃ bs, ctbytesle g v = .ok bs ∧ bs.length = (n + 7) / 8 ∧ leVal bs = x) ∧
      (∃ bs, ctbytesbe g v = .ok bs ∧ bs.length = (n + 7) / 8 ∧ beVal bs = x)) ∧
    ((n + 7) / 8 % 4 ≠ 0 → ctbytesle g v = .abort) ∧
    (4 < (n + 7) / 8 % 8 → ctbytesbe g v = .abort) ∧
    (0 < (n + 7) / 8 % 8 → (n + 7) / 8 % 8 < 4 → ∃ bs, bs.length = (n + 7) / 8 / 4 * 4 ∧ ctbytesbe g v = .ok (bs ++ g.drop bs.length)) := by
  have hl : v.dig.length = (n - 1) / 32 + 1 := by rw [hv.len, ndig_eq n hn]
  refine ⟨fun h4 => ?_, fun h4 => ?_, fun h8 => ?_, fun h0 h8 => ?_⟩
  · have hnb : (n + 7) / 8 = 4 * v.dig.length := by omega
    constructor
    · obtain ⟨bs, b1, b2, b3⟩ := bytesleLoop_ok v v.dig.length 0 [] g (by omega) (by omega) rfl
      rw [List.nil_append, List.length_nil, List.nil_append] at b3
      refine ⟨bs, ?_, by omega, by rw [b2, List.drop_zero, hv.val]⟩
      unfold ctbytesle
      dsimp only
      rw [hv.nbit, hnb]
      exact b3
    · obtain ⟨bs, b1, b2, b3⟩ := bytesbeLoop_ok v v.dig.length [] g (by omega) (by omega)
      rw [List.nil_append, List.length_nil, List.nil_append, List.drop_eq_nil_of_le (by omega), List.append_nil] at b3
      refine ⟨bs, ?_, by omega, by rw [b2, List.take_length, hv.val]⟩
      unfold ctbytesbe
      dsimp only
      rw [hv.nbit, if_neg (by omega)]
      exact b3
  · have := bytesleLoop_abort v ((n + 7) / 8) h4 (v.dig.length - 1) 0 [] g (by omega) (by omega) (by omega) rfl
    unfold ctbytesle
    dsimp only
    rw [hv.nbit]
    exact this
  · have hj : (n + 7) / 8 &&& (3 + 1) = 4 := and4 _ (by omega)
    unfold ctbytesbe
    dsimp only
    rw [hv.nbit, if_pos (by omega), if_neg (by omega), rdChk_ok (by omega), Res.bind_ok, hj]
    generalize v.dig[v.dig.length - 1]'(by omega) = d
    have hp := puts_ok (((List.range 4).reverse).map fun k => ((d >>> (8 * k)).setWidth 8 : Byte)) [] g (by simp; omega)
    rw [List.nil_append, List.length_nil, List.nil_append] at hp
    rw [hp, Res.bind_ok]
    dsimp only
    have := bytesbeLoop_abort v (v.dig.length - 1) (((List.range 4).reverse).map fun k => ((d >>> (8 * k)).setWidth 8 : Byte)) (g.drop 4)
      (by omega) (by simp; omega)
    simpa using this
  · have hj : (n + 7) / 8 &&& (3 + 1) = 0 := and0 _ (by omega)
    unfold ctbytesbe
    dsimp only
    rw [hv.nbit, if_pos (by omega), if_neg (by omega), rdChk_ok (by omega), Res.bind_ok, hj]
    obtain ⟨bs, b1, _, b3⟩ := bytesbeLoop_ok v (v.dig.length - 1) [] g (by omega) (by omega)
    rw [List.nil_append, List.length_nil, List.nil_append] at b3
    refine ⟨bs, by omega, ?_⟩
    rw [b1, ← b3]
    rfl

/-- A number of 32 bits, both ways. -/
example : ctbytesle [7, 7, 7, 7] ⟨32, [0x01020304]⟩ = .ok [4, 3, 2, 1] ∧ ctbytesbe [7, 7, 7, 7] ⟨32, [0x01020304]⟩ = .ok [1, 2, 3, 4] := by
  constructor
  · unfold ctbytesle bytesleLoop
    simp only
    rw [if_pos (by decide), rdChk_ok (by decide), Res.bind_ok]
    rw [show puts [7, 7, 7, 7] 0 (digLe ([0x01020304] : List W)[0]) = .ok ([4, 3, 2, 1], 4) by decide +kernel, Res.bind_ok]
    unfold bytesleLoop
    rw [if_neg (by decide)]
  · decide +kernel

/-- The full claim about numbers made of a number, whatever the memory held. -/
def MakeClaim : Prop := ∀ (g : List W) (v : BitVec 64) (n : Nat), 0 < n → g.length = ndig n → ∃ x, mkctbign g v n = .ok x ∧ Is x n (v.toNat % 2 ^ n)

/-- **C87 violated.** Digits after the second are not written. -/
theorem make_violated : ¬ MakeClaim := by
  intro h
  obtain ⟨x, h1, h2⟩ := h [1, 1, 1] 0 65 (by decide) (by decide)
  have e : mkctbign [1, 1, 1] 0 65 = .ok ⟨65, [0, 0, 1]⟩ := by decide +kernel
  rw [e] at h1
  injection h1 with h1
  subst h1
  have := h2.val
  revert this
  decide

/-- **C87, what holds of numbers made of a number.** Up to 64 bits they are it,
modulo the size. Missing: more bits. -/
theorem make_partial (g : List W) (v : BitVec 64) {n : Nat} (hn : 0 < n) (h64 : n ≤ 64) (hg : g.length = ndig n) :
    ∃ x, mkctbign g v n = .ok x ∧ Is x n (v.toNat % 2 ^ n) := by
  have hl : g.length = (n - 1) / 32 + 1 := by rw [hg, ndig_eq n hn]
  have hv := v.isLt
  unfold mkctbign
  rw [if_pos hn, wrChk_ok _ (by omega), Res.bind_ok]
  by_cases h : n > 32
  · obtain ⟨d0, d1, rfl⟩ : ∃ d0 d1, g = [d0, d1] := by
      match g, (show g.length = 2 by omega) with
      | [d0, d1], _ => exact ⟨d0, d1, rfl⟩
    dsimp only
    rw [if_pos h, wrChk_ok _ (by simp), Res.bind_ok]
    obtain ⟨y, e, i⟩ := clip_ok (x := ⟨n, [v.setWidth 32, (v >>> 32).setWidth 32]⟩) hn rfl hg
    refine ⟨y, e, ?_⟩
    have : val [v.setWidth 32, (v >>> 32).setWidth 32] = v.toNat := by
      simp only [val, low32, high32]
      omega
    rwa [this] at i
  · obtain ⟨d0, rfl⟩ : ∃ d0, g = [d0] := by
      match g, (show g.length = 1 by omega) with
      | [d0], _ => exact ⟨d0, rfl⟩
    dsimp only
    rw [if_neg h, Res.bind_ok]
    obtain ⟨y, e, i⟩ := clip_ok (x := ⟨n, [v.setWidth 32]⟩) hn rfl hg
    refine ⟨y, e, ?_⟩
    have : val [v.setWidth 32] % 2 ^ n = v.toNat % 2 ^ n := by
      simp only [val, low32, Nat.mul_zero, Nat.add_zero]
      exact Nat.mod_mod_of_dvd _ (Nat.pow_dvd_pow 2 (by omega))
    rwa [this] at i

/-! ## C88 -/

/-- The full claim about one step of conversion to Montgomery form: a number below the
modulus is shifted by a digit, modulo the modulus. -/
def GrowClaim : Prop := ∀ (a m : Big) (k : W) (n x y : Nat), 64 ≤ n → n % 32 = 0 → Is a n x → Is m n y → x < y → 2 ^ (n - 1) ≤ y →
  ∃ r, growmod a k m = .ok r ∧ Is r n ((x * 2 ^ 32 + k.toNat) % y)

/-- The full claim about powers, for moduli that `ctmodpow` does not refuse: odd ones
that fill their digits. -/
def PowClaim : Prop := ∀ (r a e m : Big) (n ne z x E M : Nat), 64 ≤ n → n % 32 = 0 → Is r n z → Is a n x → Is e ne E → Is m n M →
  x < M → 2 ^ (n - 1) ≤ M → M % 2 = 1 → ∃ s, ctmodpow r a e m = .ok s ∧ Is s n (x ^ E % M)

/-- **C88 violated.** The first power of 2⁶³, modulo 2⁶³ + 1, comes out as zero. -/
theorem modpow_violated : ¬ PowClaim := by
  intro h
  obtain ⟨s, h1, h2⟩ := h ⟨64, [0, 0]⟩ ⟨64, [0, 0x80000000]⟩ ⟨1, [1]⟩ ⟨64, [1, 0x80000000]⟩ 64 1 0 (2 ^ 63) 1 (2 ^ 63 + 1)
    (by decide) (by decide) ⟨rfl, rfl, rfl, by decide⟩ ⟨rfl, rfl, rfl, by decide⟩ ⟨rfl, rfl, rfl, by decide⟩ ⟨rfl, rfl, rfl, by decide⟩
    (by decide) (by decide) (by decide)
  have e : ctmodpow ⟨64, [0, 0]⟩ ⟨64, [0, 0x80000000]⟩ ⟨1, [1]⟩ ⟨64, [1, 0x80000000]⟩ = .ok ⟨64, [0, 0]⟩ := by decide +kernel
  rw [e] at h1
  injection h1 with h1
  subst h1
  have := h2.val
  revert this
  decide +kernel

/-- **C88 violated.** Two ways: the top digits are equal, and are shifted apart before
they are compared; or the top digit is 2³¹, whose comparison in the wrong direction
(`lt_violated`) goes wrong. -/
theorem grow_violated : ¬ GrowClaim ∧
    (∃ r, growmod ⟨64, [0, 0xf1234567]⟩ 0 ⟨64, [0x89abcdef, 0xf1234567]⟩ = .ok r ∧
      val r.dig ≠ 0xf123456700000000 * 2 ^ 32 % 0xf123456789abcdef) ∧
    (∃ r, growmod ⟨64, [481208241, 2147483648]⟩ 0 ⟨64, [3914245459, 4101311875]⟩ = .ok r ∧
      val r.dig ≠ 9223372037335984049 * 2 ^ 32 % 17615000377735685459) := by
  have e : growmod ⟨64, [0, 0xf1234567]⟩ 0 ⟨64, [0x89abcdef, 0xf1234567]⟩ = .ok ⟨64, [0x76543211, 0x0edcba98]⟩ := by decide +kernel
  refine ⟨fun h => ?_, ⟨_, e, by decide⟩, ?_⟩
  · obtain ⟨r, h1, h2⟩ := h ⟨64, [0, 0xf1234567]⟩ ⟨64, [0x89abcdef, 0xf1234567]⟩ 0 64 0xf123456700000000 0xf123456789abcdef (by decide) (by decide)
      ⟨rfl, rfl, rfl, by decide⟩ ⟨rfl, rfl, rfl, by decide⟩ (by decide) (by decide)
    rw [e] at h1
    injection h1 with h1
    subst h1
    have := h2.val
    revert this
    decide
  · have e2 : growmod ⟨64, [481208241, 2147483648]⟩ 0 ⟨64, [3914245459, 4101311875]⟩ = .ok ⟨64, [0x33883820, 0x439119a6]⟩ := by decide +kernel
    exact ⟨_, e2, by decide⟩

/-- **C88, what holds of a step.** It is right when the top digit is neither that of the
modulus nor 2³¹. -/
theorem grow_partial {a m : Big} {n x y : Nat} (k : W) (h64 : 64 ≤ n) (h32 : n % 32 = 0) (ha : Is a n x) (hm : Is m n y) (hxy : x < y)
    (htop : 2 ^ (n - 1) ≤ y) (h1 : x / 2 ^ (n - 32) ≠ y / 2 ^ (n - 32)) (h2 : x / 2 ^ (n - 32) ≠ 2 ^ 31) :
    ∃ r, growmod a k m = .ok r ∧ Is r n ((x * 2 ^ 32 + k.toNat) % y) :=
  growmod_ok k h64 h32 ha hm hxy htop h1 h2

/-- **C88, what holds of powers.** They are right when every shift by a digit that the
conversion to Montgomery form goes through is (`grow_partial`). -/
theorem modpow_partial {r a e m : Big} {n ne x E M z : Nat} (h64 : 64 ≤ n) (h32 : n % 32 = 0) (hr : Is r n z) (ha : Is a n x) (he : Is e ne E)
    (hm : Is m n M) (hxM : x < M) (htop : 2 ^ (n - 1) ≤ M) (hodd : M % 2 = 1)
    (hf : ∀ i, 32 * i < n → x * 2 ^ (32 * i) % M / 2 ^ (n - 32) ≠ M / 2 ^ (n - 32) ∧ x * 2 ^ (32 * i) % M / 2 ^ (n - 32) ≠ 2 ^ 31) :
    ∃ s, ctmodpow r a e m = .ok s ∧ Is s n (x ^ E % M) :=
  ctmodpow_ok h64 h32 hr ha he hm hxM htop hodd hf

/-- 3¹⁰⁰ modulo a number of 64 bits. -/
example : ∃ s, ctmodpow ⟨64, [0, 0]⟩ ⟨64, [3, 0]⟩ ⟨8, [100]⟩ ⟨64, [0x89abcdef, 0xf1234567]⟩ = .ok s ∧ Is s 64 (3 ^ 100 % 0xf123456789abcdef) := by
  refine modpow_partial (z := 0) (ne := 8) (by decide) (by decide) ⟨rfl, rfl, rfl, by decide⟩ ⟨rfl, rfl, rfl, by decide⟩ ⟨rfl, rfl, rfl, by decide⟩
    ⟨rfl, rfl, rfl, by decide⟩ (by decide) (by decide) (by decide) ?_
  intro i hi
  have : ∀ i, i < 2 → 3 * 2 ^ (32 * i) % 0xf123456789abcdef / 2 ^ (64 - 32) ≠ 0xf123456789abcdef / 2 ^ (64 - 32) ∧
      3 * 2 ^ (32 * i) % 0xf123456789abcdef / 2 ^ (64 - 32) ≠ 2 ^ 31 := by decide +kernel
  exact this i (by omega)

end Verif.Ctbig
