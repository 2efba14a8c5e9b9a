import Verif.Chacha.Lemmas

/-! Lemmas: one block, the counter, and the loop. -/

namespace Verif.Chacha

open Crypto (get upd rot slcpAt ab get_upd)
open Crypto.Spec (le leNum part)

theorem le_len (n v : Nat) : (le n v).length = n := by simp [le]

/-! ## One block -/

theorem zip_parts {f : Byte → Byte → Byte} {m : List Byte} (v : Fin 16 → Nat) : ∀ (is : List (Fin 16)) (c : Nat),
    is.map (·.val) = List.range' c is.length → 4 * (c + is.length) = m.length →
    is.flatMap (fun j => List.zipWith f (part 4 m j.val) (le 4 (v j))) = List.zipWith f (m.drop (4 * c)) (is.flatMap fun j => le 4 (v j))
  | [], c, _, _ => by simp
  | j :: is, c, h1, h2 => by
    rw [List.length_cons, List.map_cons, List.range'_succ, List.cons.injEq] at h1
    rw [List.length_cons] at h2
    have ih := zip_parts (f := f) (m := m) v is (c + 1) h1.2 (by omega)
    rw [List.flatMap_cons, List.flatMap_cons, ih]
    have e : m.drop (4 * c) = part 4 m c ++ m.drop (4 * (c + 1)) := by
      unfold part
      rw [Nat.mul_succ, ← List.drop_drop, List.take_append_drop]
    rw [e, List.zipWith_append (by rw [Crypto.part_length (by omega), le_len]), h1.1]

theorem all16_range : all16.map (·.val) = List.range' 0 all16.length := by decide

theorem mem_all16 (j : Fin 16) : j ∈ all16 := by revert j; decide

theorem ofFn16 {α : Type} (f : Fin 16 → α) : List.ofFn f = all16.map f := rfl

theorem flatMap_map' {α β γ : Type} (l : List α) (f : α → β) (g : β → List γ) : (l.map f).flatMap g = l.flatMap (fun a => g (f a)) := by
  rw [List.flatMap_map]

/-- The bytes xored in and stored. -/
theorem block_ok {j : Words} {m cb : List Byte} (hm : m.length = 64) (hc : cb.length = 64) :
    ∃ x', xorWords m (Vector.zipWith (· + ·) (rounds j) j) all16 = .ok x' ∧
      putWords x' cb all16 = .ok (List.zipWith (· ^^^ ·) m (Spec.block (ab j))) := by
  obtain ⟨x', h1, h2⟩ := xorWords_ok hm all16 (Vector.zipWith (· + ·) (rounds j) j) (by decide)
  refine ⟨x', h1, ?_⟩
  have h3 := putWords_ok x' all16 0 [] cb all16_range rfl (by rw [hc]; decide)
  rw [List.nil_append, List.nil_append, List.drop_eq_nil_of_le (by rw [hc]; decide), List.append_nil] at h3
  rw [h3]
  congr 1
  unfold Spec.block
  rw [← rounds_ok]
  dsimp only
  rw [ofFn16, flatMap_map']
  have h4 := zip_parts (f := (· ^^^ ·)) (m := m) (fun i => (ab j i + ab (rounds j) i).toNat) all16 0 all16_range (by rw [hm]; decide)
  rw [Nat.mul_zero, List.drop_zero] at h4
  rw [← h4, List.flatMap_def, List.flatMap_def]
  congr 1
  apply List.map_congr_left
  intro i _
  have hp : (part 4 m i.val).length = 4 := Crypto.part_length (by omega)
  rw [h2 i, if_pos (mem_all16 i), Crypto.get_zipWith, ← le_xor 4 _ _ hp, BitVec.toNat_xor, BitVec.toNat_ofNat,
    Nat.mod_eq_of_lt (show leNum (part 4 m i.val) < 2 ^ 32 by have := leNum_lt (part 4 m i.val); rw [hp] at this; exact this), BitVec.add_comm]
  rfl

theorem block_length (s : Spec.State) : (Spec.block s).length = 64 := by
  unfold Spec.block
  dsimp only
  rw [ofFn16, flatMap_map']
  simp only [all16, List.flatMap_cons, List.flatMap_nil, List.length_append, le_len, List.length_nil]

/-! ## The state -/

theorem le_split (a b v : Nat) : le (a + b) v = le a v ++ le b (v / 256 ^ a) := by
  unfold le
  rw [List.range_add, List.map_append, List.map_map]
  congr 1
  apply List.map_congr_left
  intro i _
  show BitVec.ofNat 8 (v / 256 ^ (a + i)) = _
  rw [Nat.pow_add, Nat.div_div_eq_div_mul]

theorem leNum_le : ∀ (n v : Nat), leNum (le n v) = v % 256 ^ n
  | 0, v => by simp [le, leNum, Nat.mod_one]
  | n + 1, v => by
    rw [Nat.add_comm, le_split 1 n]
    show (BitVec.ofNat 8 (v / 256 ^ 0)).toNat + 256 * leNum (le n (v / 256 ^ 1)) = _
    rw [leNum_le n, BitVec.toNat_ofNat, Nat.pow_zero, Nat.div_one, Nat.pow_one, Nat.pow_add, Nat.pow_one, Nat.mod_mul]

theorem part_app_left {a b : List Byte} {i : Nat} (h : 4 * i + 4 ≤ a.length) : part 4 (a ++ b) i = part 4 a i := by
  unfold part
  rw [List.drop_append_of_le_length (by omega), List.take_append_of_le_length (by rw [List.length_drop]; omega)]

theorem part_app_right {a b : List Byte} {i k : Nat} (h : a.length = 4 * k) : part 4 (a ++ b) (k + i) = part 4 b i := by
  unfold part
  rw [Nat.mul_add, ← List.drop_drop, List.drop_left' h]

/-- A key of one of the two sizes. -/
def KeyOk (key : List Byte) : Prop := key.length = 16 ∨ key.length = 32

theorem fixed_length {key : List Byte} (h : KeyOk key) : (Spec.constant key ++ (key ++ key).take 32).length = 48 := by
  have e : (Spec.constant key).length = 16 := by
    unfold Spec.constant
    split <;> decide +kernel
  rw [List.length_append, e, List.length_take, List.length_append]
  rcases h with h | h <;> omega

theorem state_words {key nonce : List Byte} (h : KeyOk key) (ctr : Nat) (i : Fin 16) :
    Spec.state key nonce ctr i =
      if i = 12 then BitVec.ofNat 32 ctr
      else if i = 13 then BitVec.ofNat 32 (ctr / 2 ^ 32)
      else if i.val < 12 then BitVec.ofNat 32 (leNum (part 4 (Spec.constant key ++ (key ++ key).take 32) i.val))
      else BitVec.ofNat 32 (leNum (part 4 nonce (i.val - 14))) := by
  have h48 := fixed_length h
  unfold Spec.state
  rw [show le 8 ctr = le 4 ctr ++ le 4 (ctr / 256 ^ 4) from le_split 4 4 ctr]
  by_cases h1 : i = 12
  · subst h1
    rw [if_pos rfl]
    show BitVec.ofNat 32 (leNum (part 4 _ (12 + 0))) = _
    rw [List.append_assoc (Spec.constant key ++ _), part_app_right (k := 12) h48, List.append_assoc, part_app_left (by rw [le_len])]
    have : part 4 (le 4 ctr) 0 = le 4 ctr := by
      unfold part; rw [Nat.mul_zero, List.drop_zero, List.take_of_length_le (by rw [le_len])]
    rw [this, leNum_le]
    apply BitVec.eq_of_toNat_eq
    rw [BitVec.toNat_ofNat, BitVec.toNat_ofNat]
    exact Nat.mod_mod _ _
  · rw [if_neg h1]
    by_cases h2 : i = 13
    · subst h2
      rw [if_pos rfl]
      show BitVec.ofNat 32 (leNum (part 4 _ (12 + 1))) = _
      rw [List.append_assoc (Spec.constant key ++ _), part_app_right (k := 12) h48, List.append_assoc]
      show BitVec.ofNat 32 (leNum (part 4 _ (1 + 0))) = _
      rw [part_app_right (k := 1) (le_len 4 _), part_app_left (by rw [le_len])]
      have : part 4 (le 4 (ctr / 256 ^ 4)) 0 = le 4 (ctr / 256 ^ 4) := by
        unfold part; rw [Nat.mul_zero, List.drop_zero, List.take_of_length_le (by rw [le_len])]
      rw [this, leNum_le]
      apply BitVec.eq_of_toNat_eq
      rw [BitVec.toNat_ofNat, BitVec.toNat_ofNat]
      exact Nat.mod_mod _ _
    · rw [if_neg h2]
      by_cases h3 : i.val < 12
      · rw [if_pos h3, List.append_assoc (Spec.constant key ++ _), part_app_left (by omega)]
      · rw [if_neg h3]
        obtain ⟨k, hk⟩ : ∃ k, i.val = 14 + k := ⟨i.val - 14, by
          have : i.val ≠ 12 := fun hh => h1 (Fin.ext hh)
          have : i.val ≠ 13 := fun hh => h2 (Fin.ext hh)
          omega⟩
        rw [hk, part_app_right (k := 14) (by rw [List.length_append, h48, List.length_append, le_len, le_len]),
          Nat.add_sub_cancel_left]

theorem ofNat32_zero (n : Nat) : BitVec.ofNat 32 n = 0 ↔ n % 2 ^ 32 = 0 := by
  constructor
  · intro h
    have := congrArg BitVec.toNat h
    rwa [BitVec.toNat_ofNat] at this
  · intro h
    apply BitVec.eq_of_toNat_eq
    rw [BitVec.toNat_ofNat, h]; rfl

theorem bump_ok {key nonce : List Byte} (h : KeyOk key) {ctr : Nat} {j : Words} (hj : ab j = Spec.state key nonce ctr) :
    ab (bump j) = Spec.state key nonce (ctr + 1) := by
  have g : ∀ i, get j i = Spec.state key nonce ctr i := fun i => congrFun hj i
  have e12 : get j 12 + 1 = BitVec.ofNat 32 (ctr + 1) := by
    rw [g, state_words h, if_pos rfl, BitVec.ofNat_add]; rfl
  have e13 : get j 13 = BitVec.ofNat 32 (ctr / 2 ^ 32) := by
    rw [g, state_words h, if_neg (by decide), if_pos rfl]
  funext i
  show get (bump j) i = _
  unfold bump
  dsimp only
  rw [show get (upd j 12 (get j 12 + 1)) 12 = get j 12 + 1 from by rw [get_upd, if_pos rfl], e12]
  rw [state_words h]
  split
  · rename_i h0
    rw [ofNat32_zero] at h0
    have e : (ctr + 1) / 2 ^ 32 = ctr / 2 ^ 32 + 1 := by omega
    rw [get_upd, get_upd, get_upd, if_neg (show (12 : Fin 16) ≠ 13 by decide), e13, e, BitVec.ofNat_add]
    by_cases h1 : i = 12
    · subst h1; simp
    · by_cases h2 : i = 13
      · subst h2; rw [if_pos rfl, if_neg (by decide), if_pos rfl, BitVec.ofNat_add]; rfl
      · rw [if_neg (fun hh => h2 hh.symm), if_neg (fun hh => h1 hh.symm), if_neg h1, if_neg h2, g, state_words h, if_neg h1, if_neg h2]
  · rename_i h0
    rw [ofNat32_zero] at h0
    have e : (ctr + 1) / 2 ^ 32 = ctr / 2 ^ 32 := by omega
    rw [get_upd, e]
    by_cases h1 : i = 12
    · subst h1; simp
    · rw [if_neg (fun hh => h1 hh.symm), if_neg h1, g, state_words h, if_neg h1]

/-- Outside words 12 and 13 nothing changes, so the words the function stores
back make up the whole state. -/
theorem bump_same (j : Words) (i : Fin 16) (h1 : i ≠ 12) (h2 : i ≠ 13) : get (bump j) i = get j i := by
  unfold bump
  dsimp only
  split
  · rw [get_upd, if_neg (fun hh => h2 hh.symm), get_upd, if_neg (fun hh => h1 hh.symm)]
  · rw [get_upd, if_neg (fun hh => h1 hh.symm)]

/-! ## The loop -/

attribute [local irreducible] Spec.block Spec.state

theorem crypt_block {key nonce : List Byte} {ctr : Nat} {b r : List Byte} (hb : b.length = 64) :
    Spec.crypt key nonce ctr (b ++ r) = List.zipWith (· ^^^ ·) b (Spec.block (Spec.state key nonce ctr)) ++ Spec.crypt key nonce (ctr + 1) r := by
  unfold Spec.crypt
  rw [List.mapIdx_append, hb]
  congr 1
  · have hbl := block_length (Spec.state key nonce ctr)
    apply List.ext_getElem
    · simp [hb, hbl]
    · intro i h1 h2
      rw [List.length_mapIdx, hb] at h1
      rw [List.getElem_mapIdx, List.getElem_zipWith]
      unfold Spec.keystream
      rw [Nat.div_eq_of_lt h1, Nat.mod_eq_of_lt h1, Nat.add_zero, List.getD_eq_getElem?_getD, List.getElem?_eq_getElem (by omega)]
      rfl
  · congr 1
    funext i c
    congr 1
    unfold Spec.keystream
    rw [show (i + 64) / 64 = i / 64 + 1 by omega, show (i + 64) % 64 = i % 64 by omega, Nat.add_assoc ctr 1, Nat.add_comm 1]

theorem crypt_length {key nonce : List Byte} {ctr : Nat} {m : List Byte} : (Spec.crypt key nonce ctr m).length = m.length := by
  unfold Spec.crypt; rw [List.length_mapIdx]

theorem view_split {mem : List Byte} {o n : Nat} (h : 64 ≤ n) :
    (mem.drop o).take n = (mem.drop o).take 64 ++ (mem.drop (o + 64)).take (n - 64) := by
  rw [← List.drop_drop]
  conv => lhs; rw [show n = 64 + (n - 64) by omega, List.take_add]

/-- How many blocks of keystream a message uses up. -/
def used (n : Nat) : Nat := if n = 0 then 1 else (n + 63) / 64

theorem seen_mem {o n : Nat} (h : n < 2 ^ 31) : (Ref.mem o n).seen = n := Crypto.lenSeen_ok (.inr h)

theorem encLoop_ok {key nonce : List Byte} (hk : KeyOk key) : ∀ (fuel n ctr : Nat) (j : Words) (mem tmp : List Byte) (mo co : Nat) (ct : Ref),
    n / 64 < fuel → n < 2 ^ 31 → ab j = Spec.state key nonce ctr → tmp.length = 64 → mo + n ≤ mem.length → co + n ≤ mem.length →
    (mo = co ∨ mo + n ≤ co ∨ co + n ≤ mo) →
    ∃ j', encLoop fuel j mem tmp (.mem mo n) (.mem co n) ct =
        .ok (put mem co (Spec.crypt key nonce ctr ((mem.drop mo).take (64 * (n / 64)))), j') ∧
      ab j' = Spec.state key nonce (ctr + used n)
  | 0, n, _, _, _, _, _, _, _, h, _, _, _, _, _, _ => by omega
  | fuel + 1, n, ctr, j, mem, tmp, mo, co, ct, hf, hn, hj, ht, hm, hc, ha => by
    unfold encLoop
    by_cases h1 : n < 64
    · have e : prep mem tmp (.mem mo n) (.mem co n) ct = .ok ((mem.drop mo).take n ++ tmp.drop n, .tmp, .tmp, .mem co n) := by
        unfold prep
        rw [seen_mem hn, if_pos (by omega), if_neg (by omega), Int.toNat_natCast,
          show bytes mem tmp (.mem mo n) = (mem.drop mo).take n from rfl,
          Crypto.slcpAt_ok (by omega) (by omega) (by simp; omega), Res.bind_ok]
        rfl
      rw [e, Res.bind_ok]
      dsimp only
      obtain ⟨x', h2, h3⟩ := block_ok (j := j) (m := (mem.drop mo).take n ++ tmp.drop n) (cb := (mem.drop mo).take n ++ tmp.drop n)
        (by simp; omega) (by simp; omega)
      rw [show bytes mem ((mem.drop mo).take n ++ tmp.drop n) .tmp = (mem.drop mo).take n ++ tmp.drop n from rfl, h2, Res.bind_ok, h3, Res.bind_ok,
        if_pos (show Ref.tmp.seen ≤ 64 by decide)]
      refine ⟨bump j, ?_, ?_⟩
      · rw [Nat.div_eq_of_lt h1, Nat.mul_zero, List.take_zero]
        show ((copyOut mem _ .tmp .tmp _) >>= _) = _
        rw [show ∀ t, copyOut mem t .tmp .tmp (.mem co n) = .ok mem from fun t => if_neg (by decide), Res.bind_ok]
        congr 2
        exact put_nil.symm
      · rw [bump_ok hk hj]
        congr 1
        unfold used
        split <;> omega
    · have e : prep mem tmp (.mem mo n) (.mem co n) ct = .ok (tmp, .mem mo n, .mem co n, ct) := by
        unfold prep
        rw [seen_mem hn, if_neg (by omega)]
      rw [e, Res.bind_ok]
      dsimp only
      -- a block is read and written at the head of longer slices
      have hx : ∀ (m : List Byte) (is : List (Fin 16)) (x : Words), 64 ≤ m.length → xorWords m x is = xorWords (m.take 64) x is := by
        intro m is
        induction is with
        | nil => intro x _; rfl
        | cons i is ih =>
          intro x hl
          unfold xorWords
          rw [getle_ok (by omega), getle_ok (by rw [List.length_take]; omega), Res.bind_ok, Res.bind_ok, ih _ hl]
          congr 5
          unfold part
          rw [List.drop_take, List.take_take, Nat.min_eq_left (by omega)]
      have hv : ((mem.drop mo).take n).length = n := by simp; omega
      have hw : ((mem.drop co).take n).length = n := by simp; omega
      have hb : ((mem.drop mo).take 64).length = 64 := by simp; omega
      have ht64 : ((mem.drop mo).take n).take 64 = (mem.drop mo).take 64 := by rw [List.take_take, Nat.min_eq_left (by omega)]
      obtain ⟨x', h2, h3⟩ := block_ok (j := j) (m := (mem.drop mo).take 64) (cb := (mem.drop mo).take 64) hb hb
      rw [show bytes mem tmp (.mem mo n) = (mem.drop mo).take n from rfl, hx _ _ _ (by omega), ht64, h2, Res.bind_ok]
      have h4 := putWords_ok x' all16 0 [] ((mem.drop co).take n) all16_range rfl (by rw [hw]; show 64 ≤ n; omega)
      have h5 := putWords_ok x' all16 0 [] ((mem.drop mo).take 64) all16_range rfl (by rw [hb]; decide)
      rw [List.nil_append, List.nil_append] at h4 h5
      have hnil : List.drop (4 * all16.length) ((mem.drop mo).take 64) = [] := List.drop_eq_nil_of_le (by rw [hb]; decide)
      rw [h3, Res.ok.injEq, hnil, List.append_nil] at h5
      obtain ⟨B, hB⟩ : ∃ B, B = List.zipWith (· ^^^ ·) ((mem.drop mo).take 64) (Spec.block (ab j)) := ⟨_, rfl⟩
      have hBl : B.length = 64 := by rw [hB, List.length_zipWith, hb, block_length]; rfl
      rw [← h5, ← hB, show 4 * all16.length = 64 from rfl, List.drop_take, List.drop_drop] at h4
      rw [show bytes mem tmp (.mem co n) = (mem.drop co).take n from rfl, h4, Res.bind_ok]
      have hst : store mem tmp (.mem co n) (B ++ (mem.drop (co + 64)).take (n - 64)) = (put mem co B, tmp) := by
        show (put mem co (B ++ (mem.drop (co + 64)).take (n - 64)), tmp) = _
        congr 1
        apply List.ext_getElem?
        intro i
        have hlen : (B ++ (mem.drop (co + 64)).take (n - 64)).length = n := by simp [hBl]; omega
        rw [put_get (by rw [hlen]; omega), put_get (by omega), hlen, hBl]
        by_cases h6 : co ≤ i ∧ i < co + n
        · rw [if_pos h6]
          by_cases h7 : i < co + 64
          · rw [if_pos ⟨h6.1, h7⟩, List.getElem?_append_left (by omega)]
          · rw [if_neg (by omega), List.getElem?_append_right (by omega), hBl, view_get, if_pos (by omega)]
            congr 1; omega
        · rw [if_neg h6, if_neg (by omega)]
      rw [hst]
      dsimp only
      have hspec : Spec.block (ab j) = Spec.block (Spec.state key nonce ctr) := by rw [hj]
      by_cases h8 : n = 64
      · subst h8
        rw [seen_mem hn, if_pos (by omega)]
        refine ⟨bump j, ?_, bump_ok hk hj⟩
        rw [show copyOut (put mem co B) tmp (.mem mo 64) (.mem co 64) ct = .ok (put mem co B) from if_neg (by rw [seen_mem hn]; omega), Res.bind_ok]
        congr 2
        have := crypt_block (key := key) (nonce := nonce) (ctr := ctr) (r := []) hb
        rw [List.append_nil, show Spec.crypt key nonce (ctr + 1) [] = [] from rfl, List.append_nil] at this
        rw [show 64 * (64 / 64) = 64 from rfl, this, hB, hspec]
      · rw [seen_mem hn, if_neg (by omega)]
        rw [show (Ref.mem co n).from 64 = .ok (.mem (co + 64) (n - 64)) from if_pos (by omega), Res.bind_ok,
          show (Ref.mem mo n).from 64 = .ok (.mem (mo + 64) (n - 64)) from if_pos (by omega), Res.bind_ok]
        have hpl : (put mem co B).length = mem.length := put_length (by omega)
        obtain ⟨j', h9, h10⟩ := encLoop_ok hk fuel (n - 64) (ctr + 1) (bump j) (put mem co B) tmp (mo + 64) (co + 64) ct (by omega) (by omega)
          (bump_ok hk hj) ht (by omega) (by omega) (by omega)
        refine ⟨j', ?_, ?_⟩
        · rw [h9, view_put (by omega) (by omega)]
          congr 2
          have e1 : (mem.drop mo).take (64 * (n / 64)) = (mem.drop mo).take 64 ++ (mem.drop (mo + 64)).take (64 * ((n - 64) / 64)) := by
            rw [view_split (by omega)]
            congr 2
            omega
          rw [e1, crypt_block hb, ← hspec, ← hB, ← put_put (by
            rw [hBl, crypt_length, List.length_take, List.length_drop]; omega), hBl]
        · rw [h10]
          congr 1
          unfold used
          rw [if_neg (by omega), if_neg (by omega)]
          omega

end Verif.Chacha
