import Verif.Endian.Model

/-!
# C12: fixed-width integer serialisation
-/

namespace Verif.Endian

/-! ## Specification -/

/-- The number with the given base-256 digits, most significant first. -/
def beVal (bs : List Byte) : Nat := bs.foldl (fun v b => 256 * v + b.toNat) 0

/-- The number with the given base-256 digits, least significant first. -/
def leVal : List Byte → Nat
  | [] => 0
  | b :: bs => b.toNat + 256 * leVal bs

/-- The integer types of the language. -/
def IsWidth (w : Nat) : Prop := w = 8 ∨ w = 16 ∨ w = 32 ∨ w = 64

theorem beVal_append (l : List Byte) (b : Byte) : beVal (l ++ [b]) = 256 * beVal l + b.toNat := by
  simp [beVal]

theorem leVal_reverse (l : List Byte) : leVal l.reverse = beVal l := by
  have : ∀ l : List Byte, beVal l.reverse = leVal l := by
    intro l
    induction l with
    | nil => rfl
    | cons b l ih => rw [List.reverse_cons, beVal_append, ih, leVal]; omega
  rw [← this, List.reverse_reverse]

theorem beVal_lt (l : List Byte) : beVal l < 256 ^ l.length := by
  rw [← leVal_reverse, ← List.length_reverse]
  generalize l.reverse = l
  induction l with
  | nil => simp [leVal]
  | cons b l ih =>
    have := b.isLt
    rw [leVal, List.length_cons, Nat.pow_succ]
    omega

/-! ## Writing -/

theorem putbeLoop_spec (val : BitVec 64) (n : Nat) (hn : n ≤ 8) (k : Nat) : ∀ (pre rest : List Byte), k ≤ n →
    pre.length = n - k → k ≤ rest.length → beVal pre = val.toNat / 256 ^ k % 256 ^ (n - k) →
    ∃ bs, putbeLoop val n k (pre ++ rest) = .ok (bs ++ rest.drop k) ∧ bs.length = n ∧
      beVal bs = val.toNat % 256 ^ n := by
  induction k with
  | zero =>
    intro pre rest _ hp _ hv
    exact ⟨pre, rfl, by omega, by simpa using hv⟩
  | succ k ih =>
    intro pre rest hk hp hr hv
    obtain ⟨r, rest, rfl⟩ : ∃ r t, rest = r :: t := by
      cases rest with
      | nil => simp at hr
      | cons r t => exact ⟨r, t, rfl⟩
    unfold putbeLoop
    simp only
    rw [wrChk_ok _ (by simp; omega), Res.bind_ok]
    obtain ⟨b, hb⟩ : ∃ b, b = (val >>> cnt 64 (8 * (n - (n - (k + 1)) - 1)) &&& 0xff#64).setWidth 8 := ⟨_, rfl⟩
    rw [← hb, ← hp, List.set_append_right (h := Nat.le_refl _), Nat.sub_self, List.set_cons_zero,
      ← List.singleton_append (l := rest), ← List.append_assoc]
    have hbv : b.toNat = val.toNat / 256 ^ k % 256 := by
      rw [hb]
      have e : cnt 64 (8 * (n - (n - (k + 1)) - 1)) = 8 * k := by
        unfold cnt; rw [if_pos rfl]; omega
      rw [e, BitVec.toNat_setWidth, BitVec.toNat_and, BitVec.toNat_ushiftRight, Nat.shiftRight_eq_div_pow,
        Nat.pow_mul]
      rw [show (255#64).toNat = 2 ^ 8 - 1 from rfl, Nat.and_two_pow_sub_one_eq_mod, Nat.mod_mod]
    have := ih (pre ++ [b]) rest (by omega) (by simp; omega) (by simpa using hr) (by
      rw [beVal_append, hv, hbv]
      have hdd : val.toNat / 256 ^ (k + 1) = val.toNat / 256 ^ k / 256 := by
        rw [Nat.pow_succ, Nat.div_div_eq_div_mul]
      rw [hdd, show n - k = (n - (k + 1)) + 1 by omega, Nat.pow_succ, Nat.mul_comm (256 ^ _) 256, Nat.mod_mul]
      omega)
    simpa using this

/-- **C12, `putbe*`.**  The low `n` bytes are written, most significant first; the rest of
the buffer stays. -/
theorem putbe_spec (buf : List Byte) (val : BitVec 64) (n : Nat) (hn : n ≤ 8) (hb : n ≤ buf.length) :
    ∃ bs, putbe buf val n = .ok (bs ++ buf.drop n, n) ∧ bs.length = n ∧ beVal bs = val.toNat % 256 ^ n := by
  obtain ⟨bs, h1, h2⟩ := putbeLoop_spec val n hn n [] buf (Nat.le_refl _) (by simp) hb (by simp [beVal, Nat.mod_one])
  refine ⟨bs, ?_, h2⟩
  rw [List.nil_append] at h1
  rw [putbe, h1, Res.bind_ok]
  rfl

theorem putleLoop_spec (n : Nat) (k : Nat) : ∀ (val : BitVec 64) (pre rest : List Byte), k ≤ n →
    pre.length = n - k → k ≤ rest.length →
    ∃ bs, putleLoop n k val (pre ++ rest) = .ok (pre ++ bs ++ rest.drop k) ∧ bs.length = k ∧
      leVal bs = val.toNat % 256 ^ k := by
  induction k with
  | zero => intro val pre rest _ _ _; exact ⟨[], by simp [putleLoop], rfl, by simp [leVal, Nat.mod_one]⟩
  | succ k ih =>
    intro val pre rest hk hp hr
    obtain ⟨r, rest, rfl⟩ : ∃ r t, rest = r :: t := by
      cases rest with
      | nil => simp at hr
      | cons r t => exact ⟨r, t, rfl⟩
    unfold putleLoop
    rw [wrChk_ok _ (by simp; omega), Res.bind_ok]
    obtain ⟨b, hb⟩ : ∃ b, b = (val &&& 0xff#64).setWidth 8 := ⟨_, rfl⟩
    rw [← hb, ← hp, List.set_append_right (h := Nat.le_refl _), Nat.sub_self, List.set_cons_zero,
      ← List.singleton_append (l := rest), ← List.append_assoc]
    have hbv : b.toNat = val.toNat % 256 := by
      rw [hb, BitVec.toNat_setWidth, BitVec.toNat_and, show (255#64).toNat = 2 ^ 8 - 1 from rfl,
        Nat.and_two_pow_sub_one_eq_mod, Nat.mod_mod]
    obtain ⟨bs, h1, h2, h3⟩ := ih (val >>> 8) (pre ++ [b]) rest (by omega) (by simp; omega) (by simpa using hr)
    refine ⟨b :: bs, ?_, by simp [h2], ?_⟩
    · rw [h1]; simp
    · rw [leVal, h3, hbv, BitVec.toNat_ushiftRight, Nat.shiftRight_eq_div_pow, Nat.pow_succ 256,
        Nat.mul_comm (256 ^ _) 256, Nat.mod_mul]

/-- **C12, `putle*`.**  Least significant byte first. -/
theorem putle_spec (buf : List Byte) (val : BitVec 64) (n : Nat) (hb : n ≤ buf.length) :
    ∃ bs, putle buf val n = .ok (bs ++ buf.drop n, n) ∧ bs.length = n ∧ leVal bs = val.toNat % 256 ^ n := by
  obtain ⟨bs, h1, h2⟩ := putleLoop_spec n n val [] buf (Nat.le_refl _) (by simp) hb
  refine ⟨bs, ?_, h2⟩
  rw [List.nil_append, List.nil_append] at h1
  rw [putle, h1, Res.bind_ok]
  rfl

theorem hostBytes_spec (n : Nat) : ∀ v, (hostBytes n v).length = n ∧ leVal (hostBytes n v) = v % 256 ^ n := by
  induction n with
  | zero => intro v; exact ⟨rfl, by simp [hostBytes, leVal, Nat.mod_one]⟩
  | succ n ih =>
    intro v
    refine ⟨by simp [hostBytes, (ih _).1], ?_⟩
    rw [hostBytes, leVal, (ih _).2, BitVec.toNat_ofNat, Nat.pow_succ 256, Nat.mul_comm (256 ^ _) 256, Nat.mod_mul]

/-- **C12, `puthost*`.** -/
theorem puthost_spec (buf : List Byte) (n : Nat) (val : BitVec (8 * n)) (hb : n ≤ buf.length) :
    ∃ bs, puthost buf n val = .ok (bs ++ buf.drop n, n) ∧ bs.length = n ∧ leVal bs = val.toNat := by
  unfold puthost
  rw [if_neg (by omega)]
  refine ⟨_, rfl, (hostBytes_spec n _).1, ?_⟩
  rw [(hostBytes_spec n _).2, Nat.mod_eq_of_lt]
  have := val.isLt
  rwa [Nat.pow_mul] at this

/-! ## Reading -/

theorem push_byte {w : Nat} (n : Nat) (b : Byte) :
    (BitVec.ofNat w n) <<< 8 ||| b.setWidth w = BitVec.ofNat w (256 * n + b.toNat) := by
  apply BitVec.eq_of_getLsbD_eq
  intro i hi
  rw [BitVec.getLsbD_or, BitVec.getLsbD_shiftLeft, BitVec.getLsbD_setWidth, BitVec.getLsbD_ofNat, BitVec.getLsbD_ofNat,
    show 256 * n + b.toNat = 2 ^ 8 * n + b.toNat from rfl, Nat.testBit_two_pow_mul_add n b.isLt]
  by_cases h8 : i < 8
  · simp [h8, hi, BitVec.testBit_toNat]
  · have : b.getLsbD i = false := BitVec.getLsbD_of_ge _ _ (by omega)
    simp [h8, hi, this]
    omega

theorem fst_byte {w : Nat} (b : Byte) : b.setWidth w = BitVec.ofNat w (256 * 0 + b.toNat) := by
  apply BitVec.eq_of_toNat_eq
  simp

theorem zero_byte {w : Nat} (x : BitVec w) : 0#w <<< 8 ||| x = x := by
  apply BitVec.eq_of_getLsbD_eq
  intro i hi
  simp

theorem part_ok {w i n : Nat} {buf : List Byte} (h : i < buf.length) :
    part w buf i n = .ok (buf[i].setWidth w <<< cnt w n) := by
  unfold part
  rw [rdChk_ok h, Res.bind_ok]
  rfl

theorem cnt_lt {w n : Nat} (h1 : IsWidth w) (h2 : n < w) : cnt w n = n := by
  unfold cnt
  rcases h1 with rfl | rfl | rfl | rfl <;> simp <;> omega

theorem list8 {buf : List Byte} (h : 8 ≤ buf.length) : ∃ a b c d e f g i t, buf = a :: b :: c :: d :: e :: f :: g :: i :: t := by
  match buf, h with
  | a :: b :: c :: d :: e :: f :: g :: i :: t, _ => exact ⟨a, b, c, d, e, f, g, i, t, rfl⟩

theorem list4 {buf : List Byte} (h : 4 ≤ buf.length) : ∃ a b c d t, buf = a :: b :: c :: d :: t := by
  match buf, h with
  | a :: b :: c :: d :: t, _ => exact ⟨a, b, c, d, t, rfl⟩

theorem list2 {buf : List Byte} (h : 2 ≤ buf.length) : ∃ a b t, buf = a :: b :: t := by
  match buf, h with
  | a :: b :: t, _ => exact ⟨a, b, t, rfl⟩

/-- Combining bytes by shifting and or-ing. -/
theorem combine8 {w : Nat} (a b c d e f g h : Byte) :
    (a.setWidth w <<< 56 ||| b.setWidth w <<< 48 ||| c.setWidth w <<< 40 ||| d.setWidth w <<< 32 |||
      e.setWidth w <<< 24 ||| f.setWidth w <<< 16 ||| g.setWidth w <<< 8 ||| h.setWidth w <<< 0) =
    BitVec.ofNat w (beVal [a, b, c, d, e, f, g, h]) := by
  simp only [beVal, List.foldl_cons, List.foldl_nil, ← push_byte]
  rw [zero_byte]
  simp only [BitVec.shiftLeft_or_distrib, ← BitVec.shiftLeft_add, Nat.reduceAdd, BitVec.shiftLeft_zero]

theorem combine4 {w : Nat} (a b c d : Byte) :
    (a.setWidth w <<< 24 ||| b.setWidth w <<< 16 ||| c.setWidth w <<< 8 ||| d.setWidth w <<< 0) =
    BitVec.ofNat w (beVal [a, b, c, d]) := by
  simp only [beVal, List.foldl_cons, List.foldl_nil, ← push_byte]
  rw [zero_byte]
  simp only [BitVec.shiftLeft_or_distrib, ← BitVec.shiftLeft_add, Nat.reduceAdd, BitVec.shiftLeft_zero]

theorem combine2 {w : Nat} (a b : Byte) :
    (a.setWidth w <<< 8 ||| b.setWidth w <<< 0) = BitVec.ofNat w (beVal [a, b]) := by
  simp only [beVal, List.foldl_cons, List.foldl_nil, ← push_byte]
  rw [zero_byte, BitVec.shiftLeft_zero]

theorem or_rev8 {w : Nat} (a b c d e f g h : BitVec w) :
    a ||| b ||| c ||| d ||| e ||| f ||| g ||| h = h ||| g ||| f ||| e ||| d ||| c ||| b ||| a := by
  ac_rfl

theorem or_rev4 {w : Nat} (a b c d : BitVec w) :
    a ||| b ||| c ||| d = d ||| c ||| b ||| a := by
  ac_rfl

/-- **C12, `getbe64`** at the 64-bit types. -/
theorem getbe64_spec (buf : List Byte) (h : 8 ≤ buf.length) :
    getbe64 64 buf = .ok (BitVec.ofNat 64 (beVal (buf.take 8))) := by
  obtain ⟨a, b, c, d, e, f, g, i, t, rfl⟩ := list8 h
  show Res.ok (shl (a.setWidth 64) 56 ||| shl (b.setWidth 64) 48 ||| shl (c.setWidth 64) 40 ||| shl (d.setWidth 64) 32 ||| shl (e.setWidth 64) 24 ||| shl (f.setWidth 64) 16 ||| shl (g.setWidth 64) 8 ||| shl (i.setWidth 64) 0) = _
  simp only [shl, cnt, ↓reduceIte, Nat.reduceMod]
  exact congrArg Res.ok (combine8 a b c d e f g i)

/-- **C12, `getle64`** at the 64-bit types. -/
theorem getle64_spec (buf : List Byte) (h : 8 ≤ buf.length) :
    getle64 64 buf = .ok (BitVec.ofNat 64 (leVal (buf.take 8))) := by
  obtain ⟨a, b, c, d, e, f, g, i, t, rfl⟩ := list8 h
  show Res.ok (shl (a.setWidth 64) 0 ||| shl (b.setWidth 64) 8 ||| shl (c.setWidth 64) 16 ||| shl (d.setWidth 64) 24 ||| shl (e.setWidth 64) 32 ||| shl (f.setWidth 64) 40 ||| shl (g.setWidth 64) 48 ||| shl (i.setWidth 64) 56) = _
  simp only [shl, cnt, ↓reduceIte, Nat.reduceMod]
  have e1 := combine8 (w := 64) i g f e d c b a
  have e2 : leVal [a, b, c, d, e, f, g, i] = beVal [i, g, f, e, d, c, b, a] := by
    simp only [leVal, beVal, List.foldl_cons, List.foldl_nil]; omega
  rw [show (a :: b :: c :: d :: e :: f :: g :: i :: t).take 8 = [a, b, c, d, e, f, g, i] from rfl, e2, ← e1]
  exact congrArg Res.ok (or_rev8 _ _ _ _ _ _ _ _)

/-- **C12, `getbe32`** at types of 32 bits or more. -/
theorem getbe32_spec (w : Nat) (hw : w = 32 ∨ w = 64) (buf : List Byte) (h : 4 ≤ buf.length) :
    getbe32 w buf = .ok (BitVec.ofNat w (beVal (buf.take 4))) := by
  obtain ⟨a, b, c, d, t, rfl⟩ := list4 h
  show Res.ok (shl (a.setWidth w) 24 ||| shl (b.setWidth w) 16 ||| shl (c.setWidth w) 8 ||| shl (d.setWidth w) 0) = _
  have hi : IsWidth w := by unfold IsWidth; omega
  simp only [shl, cnt_lt hi (show 24 < w by omega), cnt_lt hi (show 16 < w by omega), cnt_lt hi (show 8 < w by omega), cnt_lt hi (show 0 < w by omega)]
  exact congrArg Res.ok (combine4 a b c d)

/-- **C12, `getle32`** at types of 32 bits or more. -/
theorem getle32_spec (w : Nat) (hw : w = 32 ∨ w = 64) (buf : List Byte) (h : 4 ≤ buf.length) :
    getle32 w buf = .ok (BitVec.ofNat w (leVal (buf.take 4))) := by
  obtain ⟨a, b, c, d, t, rfl⟩ := list4 h
  show Res.ok (shl (a.setWidth w) 0 ||| shl (b.setWidth w) 8 ||| shl (c.setWidth w) 16 ||| shl (d.setWidth w) 24) = _
  have hi : IsWidth w := by unfold IsWidth; omega
  simp only [shl, cnt_lt hi (show 24 < w by omega), cnt_lt hi (show 16 < w by omega), cnt_lt hi (show 8 < w by omega), cnt_lt hi (show 0 < w by omega)]
  have e1 := combine4 (w := w) d c b a
  have e2 : leVal [a, b, c, d] = beVal [d, c, b, a] := by
    simp only [leVal, beVal, List.foldl_cons, List.foldl_nil]; omega
  rw [show (a :: b :: c :: d :: t).take 4 = [a, b, c, d] from rfl, e2, ← e1]
  exact congrArg Res.ok (or_rev4 _ _ _ _)

/-- **C12, `getbe16`** at types of 16 bits or more. -/
theorem getbe16_spec (w : Nat) (hw : w = 16 ∨ w = 32 ∨ w = 64) (buf : List Byte) (h : 2 ≤ buf.length) :
    getbe16 w buf = .ok (BitVec.ofNat w (beVal (buf.take 2))) := by
  obtain ⟨a, b, t, rfl⟩ := list2 h
  show Res.ok (shl (a.setWidth w) 8 ||| shl (b.setWidth w) 0) = _
  have hi : IsWidth w := by unfold IsWidth; omega
  simp only [shl, cnt_lt hi (show 8 < w by omega), cnt_lt hi (show 0 < w by omega)]
  exact congrArg Res.ok (combine2 a b)

/-- **C12, `getle16`** at types of 16 bits or more. -/
theorem getle16_spec (w : Nat) (hw : w = 16 ∨ w = 32 ∨ w = 64) (buf : List Byte) (h : 2 ≤ buf.length) :
    getle16 w buf = .ok (BitVec.ofNat w (leVal (buf.take 2))) := by
  obtain ⟨a, b, t, rfl⟩ := list2 h
  show Res.ok (shl (a.setWidth w) 0 ||| shl (b.setWidth w) 8) = _
  have hi : IsWidth w := by unfold IsWidth; omega
  simp only [shl, cnt_lt hi (show 8 < w by omega), cnt_lt hi (show 0 < w by omega)]
  have e1 := combine2 (w := w) b a
  have e2 : leVal [a, b] = beVal [b, a] := by
    simp only [leVal, beVal, List.foldl_cons, List.foldl_nil]; omega
  rw [show (a :: b :: t).take 2 = [a, b] from rfl, e2, ← e1]
  congr 1
  ac_rfl

/-- **C12, `get*8`.** -/
theorem get8_spec (w : Nat) (hw : IsWidth w) (b : Byte) (t : List Byte) :
    get8 w (b :: t) = .ok (BitVec.ofNat w b.toNat) := by
  unfold get8
  rw [part_ok (by simp), cnt_lt hw (by rcases hw with rfl | rfl | rfl | rfl <;> omega)]
  simp only [List.getElem_cons_zero, BitVec.shiftLeft_zero]
  rw [fst_byte]; simp

theorem hostVal_eq (l : List Byte) : hostVal l = leVal l := by
  induction l with
  | nil => rfl
  | cons b l ih => rw [hostVal, leVal, ih]

/-- **C12, `gethost64`/`gethost32`.** -/
theorem gethost_spec (n : Nat) (w : Nat) (buf : List Byte) (h : n ≤ buf.length) :
    gethost w n n buf = .ok ((BitVec.ofNat (8 * n) (leVal (buf.take n))).signExtend w) := by
  unfold gethost
  rw [if_neg (by omega), if_neg (by omega), hostVal_eq]

/-- The claim of C12 for `gethost16`. -/
def GetHost16Claim : Prop := ∀ (buf : List Byte), 2 ≤ buf.length →
  gethost16 16 buf = .ok (BitVec.ofNat 16 (leVal (buf.take 2)))

/-- `gethost16` never works: it copies four bytes into a two byte variable. -/
theorem gethost16_violated : ¬ GetHost16Claim := by
  intro h
  have := h [1, 2] (by decide)
  revert this
  decide +kernel

/-! ## Round trips -/

theorem pow256 (n : Nat) : 256 ^ n = 2 ^ (8 * n) := by rw [Nat.pow_mul]

theorem ofNat_mod {w v : Nat} : BitVec.ofNat w (v % 2 ^ w) = BitVec.ofNat w v := by
  apply BitVec.eq_of_toNat_eq; simp

/-- The low bytes of the 64-bit conversion are the value, whatever the signedness. -/
theorem toU64_low (signed : Bool) {w : Nat} (hw : w ≤ 64) (v : BitVec w) :
    (toU64 signed v).toNat % 2 ^ w = v.toNat := by
  unfold toU64
  split
  · have : ((v.signExtend 64).setWidth w) = v := by
      apply BitVec.eq_of_getLsbD_eq
      intro i hi
      rw [BitVec.getLsbD_setWidth, BitVec.getLsbD_signExtend, if_pos hi]
      simp [hi]; omega
    have e := congrArg BitVec.toNat this
    rwa [BitVec.toNat_setWidth] at e
  · have hv := v.isLt
    have : 2 ^ w ≤ 2 ^ 64 := Nat.pow_le_pow_right (by omega) hw
    rw [BitVec.toNat_setWidth, Nat.mod_eq_of_lt (a := v.toNat) (by omega), Nat.mod_eq_of_lt hv]

/-- **C12, round trip, 64 bits**, big and little endian, every value and buffer. -/
theorem roundtrip64 (signed : Bool) (buf : List Byte) (v : BitVec 64) (h : 8 ≤ buf.length) :
    (∃ b n, putbe buf (toU64 signed v) 8 = .ok (b, n) ∧ getbe64 64 b = .ok v) ∧
    (∃ b n, putle buf (toU64 signed v) 8 = .ok (b, n) ∧ getle64 64 b = .ok v) := by
  constructor
  · obtain ⟨bs, h1, h2, h3⟩ := putbe_spec buf (toU64 signed v) 8 (by omega) h
    refine ⟨_, _, h1, ?_⟩
    rw [getbe64_spec _ (by simp; omega), List.take_left' h2, h3, show 256 ^ 8 = 2 ^ 64 from rfl,
      toU64_low signed (Nat.le_refl _), BitVec.ofNat_toNat, BitVec.setWidth_eq]
  · obtain ⟨bs, h1, h2, h3⟩ := putle_spec buf (toU64 signed v) 8 h
    refine ⟨_, _, h1, ?_⟩
    rw [getle64_spec _ (by simp; omega), List.take_left' h2, h3, show 256 ^ 8 = 2 ^ 64 from rfl,
      toU64_low signed (Nat.le_refl _), BitVec.ofNat_toNat, BitVec.setWidth_eq]

/-- **C12, round trip, 32 bits.** -/
theorem roundtrip32 (signed : Bool) (buf : List Byte) (v : BitVec 32) (h : 4 ≤ buf.length) :
    (∃ b n, putbe buf (toU64 signed v) 4 = .ok (b, n) ∧ getbe32 32 b = .ok v) ∧
    (∃ b n, putle buf (toU64 signed v) 4 = .ok (b, n) ∧ getle32 32 b = .ok v) := by
  constructor
  · obtain ⟨bs, h1, h2, h3⟩ := putbe_spec buf (toU64 signed v) 4 (by omega) h
    refine ⟨_, _, h1, ?_⟩
    rw [getbe32_spec _ (by omega) _ (by simp; omega), List.take_left' h2, h3, show 256 ^ 4 = 2 ^ 32 from rfl,
      toU64_low signed (by omega), BitVec.ofNat_toNat, BitVec.setWidth_eq]
  · obtain ⟨bs, h1, h2, h3⟩ := putle_spec buf (toU64 signed v) 4 h
    refine ⟨_, _, h1, ?_⟩
    rw [getle32_spec _ (by omega) _ (by simp; omega), List.take_left' h2, h3, show 256 ^ 4 = 2 ^ 32 from rfl,
      toU64_low signed (by omega), BitVec.ofNat_toNat, BitVec.setWidth_eq]

/-- **C12, round trip, 16 bits.** -/
theorem roundtrip16 (signed : Bool) (buf : List Byte) (v : BitVec 16) (h : 2 ≤ buf.length) :
    (∃ b n, putbe buf (toU64 signed v) 2 = .ok (b, n) ∧ getbe16 16 b = .ok v) ∧
    (∃ b n, putle buf (toU64 signed v) 2 = .ok (b, n) ∧ getle16 16 b = .ok v) := by
  constructor
  · obtain ⟨bs, h1, h2, h3⟩ := putbe_spec buf (toU64 signed v) 2 (by omega) h
    refine ⟨_, _, h1, ?_⟩
    rw [getbe16_spec _ (by omega) _ (by simp; omega), List.take_left' h2, h3, show 256 ^ 2 = 2 ^ 16 from rfl,
      toU64_low signed (by omega), BitVec.ofNat_toNat, BitVec.setWidth_eq]
  · obtain ⟨bs, h1, h2, h3⟩ := putle_spec buf (toU64 signed v) 2 h
    refine ⟨_, _, h1, ?_⟩
    rw [getle16_spec _ (by omega) _ (by simp; omega), List.take_left' h2, h3, show 256 ^ 2 = 2 ^ 16 from rfl,
      toU64_low signed (by omega), BitVec.ofNat_toNat, BitVec.setWidth_eq]

/-- **C12, round trip in host order**, 32 and 64 bits. -/
theorem roundtripHost (n : Nat) (buf : List Byte) (v : BitVec (8 * n)) (h : n ≤ buf.length) :
    ∃ b k, puthost buf n v = .ok (b, k) ∧ gethost (8 * n) n n b = .ok v := by
  obtain ⟨bs, h1, h2, h3⟩ := puthost_spec buf n v h
  refine ⟨_, _, h1, ?_⟩
  rw [gethost_spec n _ _ (by simp; omega), List.take_left' h2, h3, BitVec.ofNat_toNat, BitVec.setWidth_eq,
    BitVec.signExtend_eq]

/-! ## Byte swapping -/

/-- Bit `i` of the loop's result: byte order reversed below `8 n`. -/
theorem swapLoop_bit (signed : Bool) {w : Nat} (hw : 8 ≤ w) (hc : cnt w 8 = 8) (n : Nat) : ∀ (ret v : BitVec w),
    8 * n ≤ w → ∀ i, i < w → (swapLoop signed n ret v).getLsbD i =
      if i < 8 * n then v.getLsbD (8 * (n - 1 - i / 8) + i % 8) else ret.getLsbD (i - 8 * n) := by
  induction n with
  | zero => intro ret v _ i hi; simp [swapLoop]
  | succ n ih =>
    intro ret v hn i hi
    unfold swapLoop
    simp only
    rw [ih _ _ (by omega) i hi]
    by_cases h1 : i < 8 * n
    · rw [if_pos h1, if_pos (show i < 8 * (n + 1) by omega)]
      have hlt : 8 * (n - 1 - i / 8) + i % 8 + 8 < w := by omega
      have e : 8 * (n + 1 - 1 - i / 8) + i % 8 = 8 + (8 * (n - 1 - i / 8) + i % 8) := by omega
      rw [e, hc]
      cases signed
      rotate_left
      · rw [if_pos rfl, BitVec.getLsbD_sshiftRight]
        simp [show ¬ w ≤ 8 * (n - 1 - i / 8) + i % 8 by omega,
          show 8 + (8 * (n - 1 - i / 8) + i % 8) < w by omega]
      · rw [if_neg (by simp), BitVec.getLsbD_ushiftRight]
    · rw [if_neg h1]
      rw [BitVec.getLsbD_or, shl, hc, BitVec.getLsbD_shiftLeft, BitVec.getLsbD_and, BitVec.getLsbD_ofNat]
      by_cases h2 : i < 8 * (n + 1)
      · rw [if_pos h2]
        have e : 8 * (n + 1 - 1 - i / 8) + i % 8 = i - 8 * n := by omega
        rw [e]
        have hj : i - 8 * n < 8 := by omega
        have : Nat.testBit 255 (i - 8 * n) = true := by
          rw [show 255 = 2 ^ 8 - 1 from rfl, Nat.testBit_two_pow_sub_one]; simp [hj]
        simp [hj, this, show i - 8 * n < w by omega]
      · rw [if_neg h2]
        have : Nat.testBit 255 (i - 8 * n) = false := by
          rw [show 255 = 2 ^ 8 - 1 from rfl, Nat.testBit_two_pow_sub_one]; simp; omega
        rw [this]
        simp [show ¬ i - 8 * n < 8 by omega, show i - 8 * n < w by omega, Nat.sub_sub, Nat.mul_add]

theorem cnt8 {w : Nat} : cnt w 8 = 8 := by unfold cnt; split <;> rfl

/-- **C12, byte order.**  `hosttonet` reverses the bytes. -/
theorem hosttonet_bit (signed : Bool) {w : Nat} (hw : IsWidth w) (v : BitVec w) (i : Nat) (hi : i < w) :
    (hosttonet signed v).getLsbD i = v.getLsbD (8 * (w / 8 - 1 - i / 8) + i % 8) := by
  have h8 : 8 * (w / 8) = w := by rcases hw with rfl | rfl | rfl | rfl <;> rfl
  have hw8 : 8 ≤ w := by rcases hw with rfl | rfl | rfl | rfl <;> omega
  unfold hosttonet
  rw [swapLoop_bit signed hw8 cnt8 (w / 8) 0#w v (by omega) i hi, if_pos (by omega)]

/-- **C12, byte order.**  The conversions are inverse to each other, for signed and unsigned
types of every width. -/
theorem net_host (signed : Bool) {w : Nat} (hw : IsWidth w) (v : BitVec w) :
    nettohost signed (hosttonet signed v) = v ∧ hosttonet signed (nettohost signed v) = v := by
  have h8 : 8 * (w / 8) = w := by rcases hw with rfl | rfl | rfl | rfl <;> rfl
  have h : hosttonet signed (hosttonet signed v) = v := by
    apply BitVec.eq_of_getLsbD_eq
    intro i hi
    rw [hosttonet_bit signed hw _ i hi, hosttonet_bit signed hw _ _ (by omega)]
    congr 1
    omega
  exact ⟨h, h⟩

/-! ## Examples -/

example : putbe [0, 0, 0, 0, 9] (toU64 true (-2#32)) 4 = .ok ([0xff, 0xff, 0xff, 0xfe, 9], 4) := by decide +kernel
example : getbe32 32 [0xff, 0xff, 0xff, 0xfe, 9] = .ok (-2#32) := by decide +kernel
/-- A negative 32-bit number read into a 64-bit type is not sign extended. -/
example : getbe32 64 [0xff, 0xff, 0xff, 0xfe] = .ok 0xfffffffe#64 := by decide +kernel
/-- Reading 64 bits into a narrower type mixes high and low halves. -/
example : getbe64 32 [1, 0, 0, 0, 0, 0, 0, 2] = .ok 0x01000002#32 := by decide +kernel
example : hosttonet true 0x12345680#32 = 0x80563412#32 := by decide +kernel
example : gethost32 64 [0xfe, 0xff, 0xff, 0xff] = .ok (-2#64) := by decide +kernel

end Verif.Endian
