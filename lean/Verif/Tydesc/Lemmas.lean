import Verif.Tydesc.Model

/-! # Lemmas about packed integers and blobs -/

namespace Verif.Tydesc

open Verif.Layout

/-! ## Packed integers -/

theorem minlen_spec (v : Nat) (hv : v < 2 ^ 56) (i : Nat) (h1 : 1 ≤ i) (hi : i ≤ 8) (hlo : 2 ^ (7 * (i - 1)) ≤ v ∨ i = 1) :
    let k := minlen v i
    i ≤ k ∧ k ≤ 8 ∧ v < 2 ^ (7 * k) ∧ (2 ^ (7 * (k - 1)) ≤ v ∨ k = 1) := by
  fun_induction minlen v i with
  | case1 i h hlt =>
    rw [Nat.one_shiftLeft] at hlt
    exact ⟨Nat.le_refl _, hi, hlt, hlo⟩
  | case2 i h hge ih =>
    rw [Nat.one_shiftLeft] at hge
    have := ih (by omega) (by omega) (Or.inl (by simpa using Nat.le_of_not_lt hge))
    exact ⟨by omega, this.2⟩
  | case3 i h =>
    have : i = 8 := by omega
    subst this
    exact ⟨Nat.le_refl _, hi, by simpa using hv, hlo⟩

theorem szloop_eq (v i : Nat) (h1 : 1 ≤ i) (hi : i < 8) (hv : v < 2 ^ 49) : szloop v i = .ok (minlen v i) := by
  fun_induction szloop v i with
  | case1 i h hlt => rw [minlen, if_pos h, if_pos hlt]
  | case2 i h hge ih =>
    rw [minlen, if_pos h, if_neg hge]
    by_cases h8 : i + 1 < 8
    · exact ih (by omega) h8
    · have : i = 7 := by omega
      subst this
      exact absurd hv (by simpa [Nat.one_shiftLeft] using hge)
  | case3 i h => omega

theorem szloop_ok (v i n : Nat) (h : szloop v i = .ok n) : v < 2 ^ 49 := by
  fun_induction szloop v i with
  | case1 i hi hlt =>
    rw [Nat.one_shiftLeft] at hlt
    exact Nat.lt_of_lt_of_le hlt (Nat.pow_le_pow_right (by omega) (by omega))
  | case2 i hi hge ih => exact ih h
  | case3 i hi => cases h

/-- The lowest `n` bytes, least significant first. -/
def le : Nat → Nat → List Byte
  | 0, _ => []
  | n + 1, q => BitVec.ofNat 8 q :: le n (q / 256)

theorem le_length (n q : Nat) : (le n q).length = n := by
  induction n generalizing q with
  | zero => rfl
  | succ n ih => simp [le, ih]

theorem le_get (n q k : Nat) (h : k < n) : (le n q)[k]? = some (BitVec.ofNat 8 (q / 256 ^ k)) := by
  induction n generalizing q k with
  | zero => omega
  | succ n ih =>
    cases k with
    | zero => simp [le]
    | succ k =>
      rw [le, List.getElem?_cons_succ, ih _ _ (by omega), Nat.div_div_eq_div_mul, ← Nat.pow_succ']

theorem tailbytes_eq (n q : Nat) (h1 : q < 256 ^ n) (h2 : n = 0 ∨ 256 ^ (n - 1) ≤ q) : tailbytes q = le n q := by
  induction n generalizing q with
  | zero =>
    have : q = 0 := by simpa using h1
    subst this
    rw [tailbytes]; simp [le]
  | succ n ih =>
    have hq : 256 ^ n ≤ q := by simpa using h2
    have hp : 0 < 256 ^ n := Nat.pow_pos (by omega)
    rw [tailbytes, dif_pos (by omega), le, Nat.shiftRight_eq_div_pow]
    rw [ih]
    · rw [Nat.pow_succ] at h1
      exact Nat.div_lt_of_lt_mul (by rw [Nat.mul_comm]; exact h1)
    · cases n with
      | zero => left; rfl
      | succ n =>
        right
        rw [Nat.pow_succ 256 n] at hq
        rw [Nat.add_sub_cancel]
        omega

/-- A packed integer: the form of its encoding. -/
theorem encodemin_form (v : Nat) (hv : v < 2 ^ 56) (h : 128 ≤ v) :
    ∃ k, 2 ≤ k ∧ k ≤ 8 ∧ k = minlen v 1 ∧ encodemin v = firstbyte v (8 - k) :: le (k - 1) (v / 2 ^ (8 - k)) ∧
      v < 2 ^ (7 * k) := by
  obtain ⟨h1, h8, hlt, hge⟩ := minlen_spec v hv 1 (by omega) (by omega) (Or.inr rfl)
  have h2 : 2 ≤ minlen v 1 := by
    apply Nat.lt_of_le_of_ne h1
    intro e
    rw [← e] at hlt
    simp at hlt
    omega
  refine ⟨_, h2, h8, rfl, ?_, hlt⟩
  rw [encodemin, if_neg (by omega)]
  dsimp only
  rw [Nat.shiftRight_eq_div_pow, tailbytes_eq (minlen v 1 - 1)]
  · generalize minlen v 1 = k at *
    apply Nat.div_lt_of_lt_mul
    rw [show 256 = 2 ^ 8 from rfl, ← Nat.pow_mul, ← Nat.pow_add]
    rw [show 8 - k + 8 * (k - 1) = 7 * k by omega]
    exact hlt
  · right
    generalize minlen v 1 = k at *
    rcases hge with hge | hge
    · rw [Nat.le_div_iff_mul_le (Nat.two_pow_pos _), show 256 = 2 ^ 8 from rfl, ← Nat.pow_mul, ← Nat.pow_add]
      exact Nat.le_trans (Nat.pow_le_pow_right (by omega) (by omega)) hge
    · omega

theorem encodemin_length (v : Nat) (hv : v < 2 ^ 56) : (encodemin v).length = minlen v 1 := by
  by_cases h : 128 ≤ v
  · obtain ⟨k, h2, h8, hk, he, _⟩ := encodemin_form v hv h
    rw [he, List.length_cons, le_length, ← hk]
    omega
  · rw [encodemin, if_pos (by omega), minlen, if_pos (by omega), if_pos (by rw [Nat.one_shiftLeft]; simp; omega)]
    rfl

theorem encodemin_pos (v : Nat) : 0 < (encodemin v).length := by
  rw [encodemin]
  split <;> simp

/-- All first bytes, for every length. -/
theorem firstbyte_table : ∀ k : Fin 9, 2 ≤ k.val → ∀ b : Fin (2 ^ 8),
    lenloop (firstbyte b.val (8 - k.val)) 9 0x80 1 = .ok k.val ∧
    (firstbyte b.val (8 - k.val)).toNat &&& (1 <<< (8 - k.val) - 1) = b.val % 2 ^ (8 - k.val) := by
  decide +kernel

theorem smallbyte_table : ∀ b : Fin (2 ^ 8), b.val < 128 → lenloop (BitVec.ofFin b) 9 0x80 1 = .ok 1 := by
  decide +kernel

theorem firstbyte_mod (v s : Nat) : firstbyte v s = firstbyte (v % 2 ^ 8) s := by
  unfold firstbyte
  rw [show BitVec.ofNat 8 v = BitVec.ofNat 8 (v % 2 ^ 8) from by
    apply BitVec.eq_of_toNat_eq; simp]

theorem firstbyte_len (v k : Nat) (h2 : 2 ≤ k) (h8 : k ≤ 8) :
    lenloop (firstbyte v (8 - k)) 9 0x80 1 = .ok k ∧
    (firstbyte v (8 - k)).toNat &&& (1 <<< (8 - k) - 1) = v % 2 ^ (8 - k) := by
  have := firstbyte_table ⟨k, by omega⟩ h2 ⟨v % 2 ^ 8, Nat.mod_lt _ (by decide)⟩
  rw [firstbyte_mod]
  refine ⟨this.1, this.2.trans ?_⟩
  exact Nat.mod_mod_of_dvd _ (Nat.pow_dvd_pow 2 (by omega))

theorem or_shift (a b s : Nat) (h : a < 2 ^ s) : a ||| (b <<< s) = a + 2 ^ s * b := by
  rw [Nat.or_comm, ← Nat.shiftLeft_add_eq_or_of_lt h, Nat.shiftLeft_eq]
  rw [Nat.mul_comm, Nat.add_comm]

theorem valloop_spec (p : List Byte) (k s low q : Nat) (hs : s = 8 - k) (h8 : k ≤ 8) (hlow : low < 2 ^ s)
    (hp : ∀ j, 1 ≤ j → j < k → p[j]? = some (BitVec.ofNat 8 (q / 256 ^ (j - 1)))) :
    ∀ i val, 1 ≤ i → i ≤ k → val = low + 2 ^ s * (q % 256 ^ (i - 1)) →
      valloop p k i val = .ok (low + 2 ^ s * (q % 256 ^ (k - 1))) := by
  intro i val
  fun_induction valloop p k i val with
  | case1 i val hi ih =>
    intro h1 hik hv
    have e : rdChk p i = .ok (BitVec.ofNat 8 (q / 256 ^ (i - 1))) := by rw [rdChk, hp i h1 hi]
    rw [e, Res.bind_ok]
    apply ih _ (by omega) (by omega)
    have hval : val < 2 ^ (i * 8 - k) := by
      have : q % 256 ^ (i - 1) < 256 ^ (i - 1) := Nat.mod_lt _ (Nat.pow_pos (by omega))
      rw [hv, show i * 8 - k = s + 8 * (i - 1) by omega, Nat.pow_add, Nat.pow_mul]
      have : 2 ^ s * (q % 256 ^ (i - 1) + 1) ≤ 2 ^ s * 256 ^ (i - 1) := Nat.mul_le_mul_left _ this
      rw [Nat.mul_add] at this
      change low + _ < 2 ^ s * 256 ^ (i - 1)
      omega
    rw [or_shift _ _ _ hval, hv, BitVec.toNat_ofNat]
    rw [show i + 1 - 1 = (i - 1) + 1 by omega, Nat.pow_succ 256, Nat.mod_mul, Nat.mul_add]
    rw [show i * 8 - k = s + 8 * (i - 1) by omega, Nat.pow_add, Nat.pow_mul]
    rw [Nat.mul_assoc, Nat.add_assoc]
  | case2 i val hi =>
    intro h1 hik hv
    rw [hv, show i = k by omega]

/-- Decoding an encoded number, whatever follows. -/
theorem getipacked_encodemin (v : Nat) (hv : v < 2 ^ 56) (rest : List Byte) :
    getipacked (encodemin v ++ rest) = .ok (v, (encodemin v).length) := by
  by_cases h : 128 ≤ v
  · obtain ⟨k, h2, h8, hk, he, hlt⟩ := encodemin_form v hv h
    obtain ⟨hlen, hlow⟩ := firstbyte_len v k h2 h8
    rw [encodemin_length v hv, ← hk, he, getipacked]
    rw [show rdChk (firstbyte v (8 - k) :: le (k - 1) (v / 2 ^ (8 - k)) ++ rest) 0 = .ok (firstbyte v (8 - k)) from rfl]
    rw [Res.bind_ok, hlen, Res.bind_ok]
    dsimp only
    rw [hlow, valloop_spec _ k (8 - k) (v % 2 ^ (8 - k)) (v / 2 ^ (8 - k)) rfl h8 (Nat.mod_lt _ (Nat.two_pow_pos _)) _ 1
      _ (Nat.le_refl _) (by omega) (by simp [Nat.mod_one])]
    · have : v / 2 ^ (8 - k) < 256 ^ (k - 1) := by
        apply Nat.div_lt_of_lt_mul
        rw [show 256 = 2 ^ 8 from rfl, ← Nat.pow_mul, ← Nat.pow_add, show 8 - k + 8 * (k - 1) = 7 * k by omega]
        exact hlt
      rw [Nat.mod_eq_of_lt this, Nat.mod_add_div]
      rfl
    · intro j h1 hj
      rw [List.cons_append, show j = (j - 1) + 1 by omega, List.getElem?_cons_succ, List.getElem?_append_left
        (by rw [le_length]; omega), le_get _ _ _ (by omega)]
      rfl
  · have e : encodemin v = [BitVec.ofNat 8 v] := by rw [encodemin, if_pos (by omega)]
    rw [e, getipacked]
    rw [show rdChk ([BitVec.ofNat 8 v] ++ rest) 0 = .ok (BitVec.ofNat 8 v) from rfl, Res.bind_ok]
    have := smallbyte_table ⟨v, by omega⟩ (by show v < 128; omega)
    rw [show BitVec.ofFin ⟨v, by omega⟩ = BitVec.ofNat 8 v from by
      apply BitVec.eq_of_toNat_eq; simp; omega] at this
    rw [this, Res.bind_ok]
    dsimp only
    rw [valloop, if_neg (by omega), Res.bind_ok]
    have hb : (BitVec.ofNat 8 v).toNat = v := by rw [BitVec.toNat_ofNat]; omega
    rw [hb, show 1 <<< (8 - 1) - 1 = 2 ^ 7 - 1 from rfl, Nat.and_two_pow_sub_one_eq_mod, Nat.mod_eq_of_lt (by omega)]
    rfl

theorem minsz_ok {v n : Nat} (h : minsz v = .ok n) : v < 2 ^ 49 ∧ (encodemin v).length = n := by
  unfold minsz at h
  split at h
  · cases h
  · have hv := szloop_ok _ _ _ h
    refine ⟨hv, ?_⟩
    rw [szloop_eq v 1 (by omega) (by omega) hv] at h
    rw [encodemin_length v (by omega)]
    exact Res.ok.inj h

/-! ## Slicing off packed parts -/

theorem slice_mid {α : Type u} (a x rest : List α) (n : Nat) (hn : x.length = n) :
    Verif.slice (a ++ (x ++ rest)) a.length (a.length + n) = .ok x := by
  subst hn
  rw [slice_ok (by omega) (by simp)]
  congr 1
  rw [← List.append_assoc, List.take_left' (by simp), List.drop_left' rfl]

theorem slice_mid' {α : Type u} (a x rest : List α) (n : Nat) (hn : x.length = n) :
    Verif.slice (a ++ (x ++ rest)) a.length (n + a.length) = .ok x := by
  rw [Nat.add_comm]; exact slice_mid a x rest n hn

theorem suffix_mid (a rest : List Byte) : suffix (a ++ rest) a.length = .ok rest := by
  rw [suffix, slice_suffix (by simp), List.drop_left' rfl]

theorem suffix_mid2 (a x rest : List Byte) (n : Nat) (hn : x.length = n) :
    suffix (a ++ (x ++ rest)) (a.length + n) = .ok rest := by
  subst hn
  rw [← List.append_assoc, ← List.length_append]
  exact suffix_mid _ _

theorem suffix_one (b : Byte) (rest : List Byte) : suffix (b :: rest) 1 = .ok rest := by
  rw [suffix, slice_suffix (by simp)]
  rfl

theorem rdChk_cons {α : Type u} (b : α) (l : List α) : rdChk (b :: l) 0 = .ok b := rfl

theorem getsub_ok (x rest : List Byte) (h : x.length < 2 ^ 56) : getsub (encodemin x.length ++ (x ++ rest)) = .ok x := by
  rw [getsub, getipacked_encodemin _ h, Res.bind_ok]
  exact slice_mid _ _ _ _ rfl

theorem skiptypeinfo_ok (s a : Nat) (hs : s < 2 ^ 56) (ha : a < 2 ^ 56) (rest : List Byte) :
    skiptypeinfo (encodemin s ++ (encodemin a ++ rest)) = .ok rest := by
  rw [skiptypeinfo, getipacked_encodemin _ hs, Res.bind_ok]
  dsimp only
  rw [suffix_mid, Res.bind_ok, getipacked_encodemin _ ha, Res.bind_ok]
  exact suffix_mid _ _

theorem gettypeinfo_ok (s a : Nat) (hs : s < 2 ^ 56) (ha : a < 2 ^ 56) (rest : List Byte) :
    gettypeinfo (encodemin s ++ (encodemin a ++ rest)) = .ok (s, a) := by
  rw [gettypeinfo, getipacked_encodemin _ hs, Res.bind_ok]
  dsimp only
  rw [suffix_mid, Res.bind_ok, getipacked_encodemin _ ha, Res.bind_ok]
  rfl

theorem lentypecursor_ok (n : Nat) (hn : n < 2 ^ 56) (rest : List Byte) :
    lentypecursor (encodemin n ++ rest) = .ok ⟨n, rest, false, true⟩ := by
  rw [lentypecursor, getipacked_encodemin _ hn, Res.bind_ok]
  dsimp only
  rw [suffix_mid]
  rfl

theorem lennamecursor_ok (n : Nat) (hn : n < 2 ^ 56) (rest : List Byte) :
    lennamecursor (encodemin n ++ rest) = .ok ⟨n, rest, true, true⟩ := by
  rw [lennamecursor, getipacked_encodemin _ hn, Res.bind_ok]
  dsimp only
  rw [suffix_mid]
  rfl

theorem namedesc_ok (nm x rest : List Byte) (h1 : nm.length < 2 ^ 56) (h2 : x.length < 2 ^ 56) :
    namedesc (encodemin nm.length ++ (nm ++ (encodemin x.length ++ (x ++ rest)))) = .ok (nm, x) := by
  rw [namedesc, getipacked_encodemin _ h1, Res.bind_ok]
  dsimp only
  rw [slice_mid' _ _ _ _ rfl, Res.bind_ok, Nat.add_comm, suffix_mid2 _ _ _ _ rfl, Res.bind_ok,
    getipacked_encodemin _ h2, Res.bind_ok]
  dsimp only
  rw [slice_mid' _ _ _ _ rfl]
  rfl

theorem getenc_ok (env : Env) (addr x rest : List Byte) (h : x.length < 2 ^ 56)
    (he : env addr = some (encodemin x.length ++ (x ++ rest))) : getenc env addr = .ok x := by
  rw [getenc, he]
  dsimp only
  have hl : (encodemin x.length).length ≤ 8 := by
    rw [encodemin_length _ h]
    exact (minlen_spec _ h 1 (by omega) (by omega) (Or.inr rfl)).2.1
  rw [show (encodemin x.length ++ (x ++ rest)).take 8 =
    encodemin x.length ++ (x ++ rest).take (8 - (encodemin x.length).length) from by
      rw [List.take_append, List.take_of_length_le hl]]
  rw [getipacked_encodemin _ h, Res.bind_ok]
  dsimp only
  rw [if_pos (by simp)]
  rw [← List.append_assoc, List.take_left' (by simp), List.drop_left' rfl]
  rfl

/-! ## Blobs -/

theorem emits_app (a b : Blobs) : emits (a.app b) = emits a ++ emits b := by
  cases a with
  | nil => rfl
  | cons x xs => rw [Blobs.app, emits, emits, emits_app xs b, List.append_assoc]

mutual
theorem blobsz_ok : ∀ (b : Blob) (n : Nat), blobsz b = .ok n → (emit b).length = n
  | .i8 _, n, h => by cases h; rfl
  | .min v, n, h => (minsz_ok h).2
  | .bytes bs, n, h => by cases h; rfl
  | .ref a, n, h => by cases h; exact List.length_ofFn
  | .seq bs, n, h => blobsszs_ok bs n h
theorem blobsszs_ok : ∀ (b : Blobs) (n : Nat), blobsszs b = .ok n → (emits b).length = n
  | .nil, n, h => by cases h; rfl
  | .cons b bs, n, h => by
    rw [blobsszs] at h
    obtain ⟨x, hx, h⟩ := Res.bind_eq_ok.1 h
    obtain ⟨y, hy, h⟩ := Res.bind_eq_ok.1 h
    cases h
    rw [emits, List.length_append, blobsz_ok b x hx, blobsszs_ok bs y hy]
end

theorem blobsszs_cons {b : Blob} {bs : Blobs} {n : Nat} (h : blobsszs (.cons b bs) = .ok n) :
    ∃ x y, blobsz b = .ok x ∧ blobsszs bs = .ok y ∧ n = x + y := by
  rw [blobsszs] at h
  obtain ⟨x, hx, h⟩ := Res.bind_eq_ok.1 h
  obtain ⟨y, hy, h⟩ := Res.bind_eq_ok.1 h
  cases h
  exact ⟨x, y, hx, hy, rfl⟩

theorem blobsszs_app {a b : Blobs} {n : Nat} (h : blobsszs (a.app b) = .ok n) :
    ∃ x y, blobsszs a = .ok x ∧ blobsszs b = .ok y ∧ n = x + y := by
  cases a with
  | nil => exact ⟨0, n, rfl, h, by omega⟩
  | cons c cs =>
    rw [Blobs.app] at h
    obtain ⟨x, y, hx, hy, rfl⟩ := blobsszs_cons h
    obtain ⟨p, q, hp, hq, rfl⟩ := blobsszs_app hy
    refine ⟨x + p, q, ?_, hq, by omega⟩
    rw [blobsszs, hx, Res.bind_ok, hp]
    rfl

theorem address_ok (a : Addr) (rest : List Byte) : address (List.ofFn a ++ rest) = .ok (List.ofFn a) := by
  rw [address, if_pos (by simp), List.take_left' (by simp)]

/-- Cutting off the next element of a cursor. -/
theorem ncnext_plain (n : Nat) (x rest : List Byte) (hx : x.length < 2 ^ 56) :
    ncnext ⟨n + 1, encodemin x.length ++ (x ++ rest), false, true⟩ = .ok (([], x), ⟨n, rest, false, true⟩) := by
  have := encodemin_pos x.length
  rw [ncnext, if_neg (by simp; intro h; rw [h] at this; simp at this)]
  rw [if_neg (by simp), ncstep, namepart]
  simp only [Bool.false_eq_true, ↓reduceIte, Res.pure_eq, Res.bind_ok]
  rw [getipacked_encodemin _ hx, Res.bind_ok]
  dsimp only
  rw [slice_mid _ _ _ _ rfl, Res.bind_ok, suffix_mid2 _ _ _ _ rfl, Res.bind_ok]
  rfl

/-- The same for a cursor with names. -/
theorem ncnext_named (n : Nat) (nm x rest : List Byte) (hn : nm.length < 2 ^ 56) (hx : x.length < 2 ^ 56) :
    ncnext ⟨n + 1, encodemin nm.length ++ (nm ++ (encodemin x.length ++ (x ++ rest))), true, true⟩ =
      .ok ((nm, x), ⟨n, rest, true, true⟩) := by
  have := encodemin_pos nm.length
  rw [ncnext, if_neg (by simp; intro h; rw [h] at this; simp at this)]
  rw [if_neg (by simp), ncstep, namepart]
  simp only [↓reduceIte]
  rw [getipacked_encodemin _ hn, Res.bind_ok]
  dsimp only
  rw [slice_mid _ _ _ _ rfl, Res.bind_ok, suffix_mid2 _ _ _ _ rfl, Res.bind_ok]
  simp only [Res.pure_eq, Res.bind_ok]
  rw [getipacked_encodemin _ hx, Res.bind_ok]
  dsimp only
  rw [slice_mid _ _ _ _ rfl, Res.bind_ok, suffix_mid2 _ _ _ _ rfl, Res.bind_ok]
  rfl

/-- Looking without moving on shows what comes next. -/
theorem ncpeek_eq (tc : Cursor) (r : (List Byte × List Byte) × Cursor) (h : ncnext tc = .ok r) : ncpeek tc = .ok r.1 := by
  unfold ncnext at h
  unfold ncpeek
  split at h
  · rw [if_pos ‹_›]; cases h; rfl
  · rw [if_neg ‹_›]
    split at h
    · rw [if_pos ‹_›]; cases h; rfl
    · rw [if_neg ‹_›]
      unfold ncstep at h
      obtain ⟨x, hx, h⟩ := Res.bind_eq_ok.1 h
      rw [hx, Res.bind_ok]
      obtain ⟨y, hy, h⟩ := Res.bind_eq_ok.1 h
      obtain ⟨z, hz, h⟩ := Res.bind_eq_ok.1 h
      obtain ⟨w, hw, h⟩ := Res.bind_eq_ok.1 h
      dsimp only at hy ⊢
      rw [hy, Res.bind_ok]
      rw [hz]
      cases h
      rfl

end Verif.Tydesc
