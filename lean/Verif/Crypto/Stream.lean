import Verif.Crypto.Model
import Verif.Crypto.Spec

/-! Lemmas: streaming and padding. -/

namespace Verif.Crypto

open Spec (part chain zeros pad)

variable {X Y : Type}

theorem foldl_ext {α β : Type} {f g : α → β → α} : ∀ (l : List β) (a : α), (∀ a, ∀ b ∈ l, f a b = g a b) →
    l.foldl f a = l.foldl g a
  | [], _, _ => rfl
  | b :: l, a, h => by
    rw [List.foldl_cons, List.foldl_cons, h a b (List.mem_cons_self ..)]
    exact foldl_ext l _ (fun a b hb => h a b (List.mem_cons_of_mem _ hb))

theorem part_length {B i : Nat} {m : List Byte} (h : B * i + B ≤ m.length) : (part B m i).length = B := by
  unfold part; rw [List.length_take, List.length_drop]; omega

theorem chain_append {B : Nat} (hB : 0 < B) (f : Y → List Byte → Y) (iv : Y) {p q : List Byte} {a : Nat}
    (h : p.length = B * a) : chain B f iv (p ++ q) = chain B f (chain B f iv p) q := by
  unfold chain
  have e1 : (p ++ q).length / B = a + q.length / B := by
    rw [List.length_append, h, Nat.mul_add_div hB]
  have e2 : p.length / B = a := by rw [h, Nat.mul_div_cancel_left _ hB]
  rw [e1, e2, List.range_add, List.foldl_append, List.foldl_map]
  have e3 : (List.range a).foldl (fun x i => f x (part B (p ++ q) i)) iv =
      (List.range a).foldl (fun x i => f x (part B p i)) iv := by
    apply foldl_ext
    intro x i hi
    have hi : i < a := List.mem_range.1 hi
    have : B * i + B ≤ p.length := by
      rw [h]
      calc B * i + B = B * (i + 1) := by rw [Nat.mul_succ]
        _ ≤ B * a := Nat.mul_le_mul_left _ hi
    unfold part
    rw [List.drop_append_of_le_length (by omega), List.take_append_of_le_length (by rw [List.length_drop]; omega)]
  rw [e3]
  apply foldl_ext
  intro x i _
  unfold part
  rw [Nat.mul_add, ← h, ← List.drop_drop, List.drop_left]

theorem chain_short {B : Nat} (f : Y → List Byte → Y) (iv : Y) {q : List Byte} (h : q.length < B) :
    chain B f iv q = iv := by
  unfold chain; rw [Nat.div_eq_of_lt h]; rfl

theorem chain_block {B : Nat} (hB : 0 < B) (f : Y → List Byte → Y) (iv : Y) {b : List Byte} (h : b.length = B) :
    chain B f iv b = f iv b := by
  unfold chain
  rw [h, Nat.div_self hB]
  show f iv (part B b 0) = _
  unfold part
  rw [Nat.mul_zero, List.drop_zero, ← h, List.take_length]

/-- The hypothesis on the compression function: on whole blocks it succeeds
and computes `f` of what the chaining value stands for. -/
def Steps (B : Nat) (step : X → List Byte → Res X) (ab : X → Y) (f : Y → List Byte → Y) : Prop :=
  ∀ x b, b.length = B → ∃ x', step x b = .ok x' ∧ ab x' = f (ab x) b

/-- The state holds what the message `m` leads to. -/
def Inv (B : Nat) (ab : X → Y) (f : Y → List Byte → Y) (iv : Y) (st : St X) (m : List Byte) : Prop :=
  st.tail.length = B ∧ st.msglen = BitVec.ofNat 64 m.length ∧ ab st.x = chain B f iv m ∧
  st.tail.take (m.length % B) = m.drop (B * (m.length / B))

/-- Lengths the loop sees as they are. -/
def Piece (wide : Bool) (n : Nat) : Prop := wide = true ∨ n < 2 ^ 31

theorem piece_mono {wide : Bool} {a b : Nat} (h : a ≤ b) : Piece wide b → Piece wide a := by
  rintro (h1 | h1)
  · exact .inl h1
  · exact .inr (by omega)

theorem lenSeen_ok {wide : Bool} {n : Nat} (h : Piece wide n) : lenSeen wide n = n := by
  unfold lenSeen
  split
  · rfl
  · rcases h with h | h
    · contradiction
    · rw [BitVec.toInt_eq_toNat_of_lt, BitVec.toNat_ofNat, Nat.mod_eq_of_lt (by omega)]
      rw [BitVec.toNat_ofNat, Nat.mod_eq_of_lt (by omega)]; omega

theorem blocks_ok {B : Nat} (hB : 0 < B) {wide : Bool} {step : X → List Byte → Res X} {ab : X → Y} {f : Y → List Byte → Y}
    (hs : Steps B step ab f) : ∀ (fuel : Nat) (x : X) (data : List Byte), data.length < fuel → Piece wide data.length →
    ∃ x', blocks B wide step fuel x data = .ok (x', data.drop (B * (data.length / B))) ∧ ab x' = chain B f (ab x) data := by
  intro fuel
  induction fuel with
  | zero => intro x data h; omega
  | succ fuel ih =>
    intro x data h hp
    unfold blocks
    rw [lenSeen_ok hp]
    simp only [Int.ofNat_le]
    by_cases hl : B ≤ data.length
    · rw [if_pos hl, slice_prefix hl, Res.bind_ok]
      obtain ⟨x1, h1, h2⟩ := hs x (data.take B) (by rw [List.length_take]; omega)
      rw [h1, Res.bind_ok, slice_suffix hl, Res.bind_ok]
      obtain ⟨x2, h3, h4⟩ := ih x1 (data.drop B) (by rw [List.length_drop]; omega)
        (piece_mono (by rw [List.length_drop]; omega) hp)
      refine ⟨x2, ?_, ?_⟩
      · rw [h3, List.drop_drop, List.length_drop]
        have : data.length / B = (data.length - B) / B + 1 := by
          rw [← Nat.add_div_right _ hB, Nat.sub_add_cancel hl]
        rw [this, Nat.mul_succ, Nat.add_comm B]
      · rw [h4, h2]
        have := chain_append hB f (ab x) (p := data.take B) (q := data.drop B) (a := 1) (by rw [List.length_take]; omega)
        rw [List.take_append_drop] at this
        rw [this, chain_block hB f (ab x) (b := data.take B) (by rw [List.length_take]; omega)]
    · rw [if_neg hl]
      refine ⟨x, ?_, ?_⟩
      · rw [Nat.div_eq_of_lt (by omega), Nat.mul_zero, List.drop_zero]
      · rw [chain_short f _ (by omega)]

theorem slcpAt_ok {dst src : List Byte} {lo hi : Nat} (h1 : lo ≤ hi) (h2 : hi ≤ dst.length) (h3 : src.length = hi - lo) :
    slcpAt dst lo hi src = .ok (dst.take lo ++ src ++ dst.drop hi) := by
  unfold slcpAt
  have e : ((dst.take hi).drop lo).length = src.length := by rw [List.length_drop, List.length_take]; omega
  rw [slice_ok h1 h2, Res.bind_ok, e, if_pos rfl, if_pos (Nat.le_refl _), List.take_length]

theorem slfillFrom_ok {dst : List Byte} {lo : Nat} (v : Byte) (h : lo ≤ dst.length) :
    slfillFrom dst lo v = .ok (dst.take lo ++ List.replicate (dst.length - lo) v) := by
  unfold slfillFrom
  rw [slice_suffix h, Res.bind_ok, List.length_drop]

/-- The counter tells the number of buffered bytes. -/
def Counts (B n : Nat) : Prop := n % 2 ^ 64 % B = n % B

theorem counts_dvd {B : Nat} (h : B ∣ 2 ^ 64) (n : Nat) : Counts B n := Nat.mod_mod_of_dvd _ h

theorem counts_lt {B n : Nat} (h : n < 2 ^ 64) : Counts B n := by
  unfold Counts; rw [Nat.mod_eq_of_lt h]

theorem msglen_mod {B n : Nat} (h : Counts B n) : (BitVec.ofNat 64 n).toNat % B = n % B := by
  rw [BitVec.toNat_ofNat]; exact h

theorem msglen_add (a b : Nat) : BitVec.ofNat 64 a + BitVec.ofNat 64 b = BitVec.ofNat 64 (a + b) :=
  (BitVec.ofNat_add a b).symm

/-- From a state at a block boundary, the end of `hadd`. `m` is the message so
far without `data`. -/
theorem haddRest_ok {B : Nat} (hB : 0 < B) (hB2 : B ≤ 2 ^ 31) {wide bm : Bool} {step : X → List Byte → Res X} {ab : X → Y}
    {f : Y → List Byte → Y} (hs : Steps B step ab f) (iv : Y) {x : X} {tail m data : List Byte} {a : Nat}
    (ht : tail.length = B) (hm : m.length = B * a) (hx : ab x = chain B f iv m)
    (hc : Counts B (m ++ data).length) (hp : Piece wide data.length) :
    ∃ st, haddRest B wide bm step x tail (BitVec.ofNat 64 (m ++ data).length) data = .ok st ∧ Inv B ab f iv st (m ++ data) := by
  obtain ⟨x', h1, h2⟩ := blocks_ok hB hs (data.length + 1) x data (by omega) hp
  unfold haddRest
  rw [h1, Res.bind_ok]
  dsimp only
  have hl : (data.drop (B * (data.length / B))).length = data.length % B := by
    rw [List.length_drop]
    have := Nat.div_add_mod data.length B
    omega
  have hmod : (m ++ data).length % B = data.length % B := by
    rw [List.length_append, hm, Nat.mul_add_mod]
  have hdiv : (m ++ data).length / B = a + data.length / B := by
    rw [List.length_append, hm, Nat.mul_add_div hB]
  have hlt : data.length % B < B := Nat.mod_lt _ hB
  have hhi : (if bm = true then (((BitVec.ofNat 64 (m ++ data).length).toNat % B : Nat) : Int)
      else lenSeen false (data.drop (B * (data.length / B))).length) = (data.length % B : Nat) := by
    split
    · rw [msglen_mod hc, hmod]
    · rw [hl, lenSeen_ok (.inr (by omega))]
  rw [hhi, if_neg (by omega), Int.toNat_natCast, slcpAt_ok (Nat.zero_le _) (by omega) (by rw [hl]; omega), Res.bind_ok]
  refine ⟨_, rfl, ?_, rfl, ?_, ?_⟩
  · dsimp only
    rw [List.length_append, List.length_append, hl, List.length_take, List.length_drop]
    omega
  · dsimp only
    rw [h2, chain_append hB f iv hm, hx]
  · dsimp only
    rw [hmod, hdiv, List.take_zero, List.nil_append, List.take_left' hl, Nat.mul_add, ← hm, ← List.drop_drop, List.drop_left]

theorem hadd_ok {B : Nat} (hB : 0 < B) (hB2 : B ≤ 2 ^ 31) {wide bm : Bool} {step : X → List Byte → Res X} {ab : X → Y}
    {f : Y → List Byte → Y} (hs : Steps B step ab f) (iv : Y) {st : St X} {m data : List Byte}
    (hi : Inv B ab f iv st m) (hc0 : Counts B m.length) (hc : Counts B (m ++ data).length)
    (hp : Piece wide data.length) : ∃ st', hadd B wide bm step st data = .ok st' ∧ Inv B ab f iv st' (m ++ data) := by
  obtain ⟨ht, hml, hx, htail⟩ := hi
  have hlt : m.length % B < B := Nat.mod_lt _ hB
  have hdm := Nat.div_add_mod m.length B
  unfold hadd
  rw [hml, msglen_mod hc0, msglen_add, ← List.length_append]
  by_cases h0 : 0 < m.length % B
  · simp only [if_pos h0]
    have hn : min (B - m.length % B) data.length ≤ data.length := Nat.min_le_right _ _
    obtain ⟨n, hnd⟩ : ∃ n, min (B - m.length % B) data.length = n := ⟨_, rfl⟩
    simp only [hnd]
    rw [slice_prefix (by omega), Res.bind_ok,
      slcpAt_ok (by omega) (by omega) (by rw [List.length_take]; omega), Res.bind_ok,
      slice_suffix (by omega), Res.bind_ok]
    have hrest : (m.drop (B * (m.length / B))).length = m.length % B := by rw [List.length_drop]; omega
    by_cases h1 : n + m.length % B < B
    · rw [if_pos h1]
      have hnl : n = data.length := by omega
      subst hnl
      have hdiv : (m ++ data).length / B = m.length / B := by
        rw [List.length_append]
        apply Nat.div_eq_of_lt_le
        · rw [Nat.mul_comm]; omega
        · rw [Nat.add_mul, Nat.one_mul, Nat.mul_comm]; omega
      have hmod : (m ++ data).length % B = m.length % B + data.length := by
        have := Nat.div_add_mod (m ++ data).length B
        rw [hdiv] at this
        rw [List.length_append] at this ⊢
        omega
      refine ⟨_, rfl, ?_, rfl, ?_, ?_⟩
      · dsimp only
        rw [List.length_append, List.length_append, List.length_take, List.length_drop, List.length_take]
        omega
      · dsimp only
        rw [hx]
        have e := chain_append hB f iv (p := m.take (B * (m.length / B))) (q := m.drop (B * (m.length / B))) (a := m.length / B)
          (by rw [List.length_take]; omega)
        rw [List.take_append_drop, chain_short f _ (q := m.drop (B * (m.length / B))) (by rw [hrest]; omega)] at e
        have e2 := chain_append hB f iv (p := m.take (B * (m.length / B))) (q := m.drop (B * (m.length / B)) ++ data) (a := m.length / B)
          (by rw [List.length_take]; omega)
        rw [← List.append_assoc, List.take_append_drop, chain_short f _ (q := m.drop (B * (m.length / B)) ++ data) (by rw [List.length_append, hrest]; omega)] at e2
        rw [e, e2]
      · dsimp only
        rw [hmod, hdiv, List.take_length, htail]
        rw [List.take_left' (by rw [List.length_append, hrest]), List.drop_append_of_le_length (by omega)]
    · rw [if_neg h1]
      have hnv : n = B - m.length % B := by omega
      have hdrop : st.tail.drop (m.length % B + n) = [] := by
        apply List.drop_eq_nil_of_le; omega
      rw [hdrop, List.append_nil, htail]
      obtain ⟨blk, hblk⟩ : ∃ blk, m.drop (B * (m.length / B)) ++ data.take n = blk := ⟨_, rfl⟩
      rw [hblk]
      have hbl : blk.length = B := by
        rw [← hblk, List.length_append, hrest, List.length_take]; omega
      obtain ⟨x', h2, h3⟩ := hs st.x blk hbl
      rw [h2, Res.bind_ok]
      have hmd : m ++ data = (m ++ data.take n) ++ data.drop n := by
        rw [List.append_assoc, List.take_append_drop]
      rw [hmd] at hc ⊢
      apply haddRest_ok hB hB2 hs iv (a := m.length / B + 1) hbl
      · rw [List.length_append, List.length_take, Nat.mul_succ]; omega
      · rw [h3, hx]
        have e := chain_append hB f iv (p := m.take (B * (m.length / B))) (q := m.drop (B * (m.length / B))) (a := m.length / B)
          (by rw [List.length_take]; omega)
        rw [List.take_append_drop, chain_short f _ (q := m.drop (B * (m.length / B))) (by rw [hrest]; omega)] at e
        have e2 := chain_append hB f iv (p := m.take (B * (m.length / B))) (q := blk) (a := m.length / B)
          (by rw [List.length_take]; omega)
        rw [chain_block hB f _ hbl, ← hblk, ← List.append_assoc, List.take_append_drop, hblk] at e2
        rw [e, e2]
      · exact hc
      · exact piece_mono (by rw [List.length_drop]; omega) hp
  · simp only [if_neg h0]
    have hm : m.length = B * (m.length / B) := by omega
    exact haddRest_ok hB hB2 hs iv ht hm hx hc hp

/-- A piece of 2^31 bytes at a block boundary is taken to be shorter than a
block, and does not fit the buffer. -/
theorem hadd_abort {B : Nat} (hB : B ∣ 2 ^ 31) (hB2 : B < 2 ^ 31) {bm : Bool} {step : X → List Byte → Res X} {st : St X}
    (hm : st.msglen = 0#64) (ht : st.tail.length = B) {data : List Byte} (hd : data.length = 2 ^ 31) :
    hadd B false bm step st data = .abort := by
  have hB0 : 0 < B := Nat.pos_of_dvd_of_pos hB (by decide)
  unfold hadd
  rw [hm, hd]
  dsimp only
  rw [show (0#64).toNat % B = 0 from Nat.zero_mod _, if_neg (by omega)]
  unfold haddRest blocks
  have hs : lenSeen false data.length = -2147483648 := by rw [hd]; decide
  rw [hs, if_neg (by omega), Res.bind_ok]
  dsimp only
  rw [hs]
  cases bm
  · rfl
  · have h0 : (0#64 + BitVec.ofNat 64 (2 ^ 31)).toNat % B = 0 := by
      rw [show (0#64 + BitVec.ofNat 64 (2 ^ 31)).toNat = 2 ^ 31 by decide]; exact Nat.mod_eq_zero_of_dvd hB
    rw [if_pos rfl, h0, if_neg (by omega)]
    unfold slcpAt
    rw [Int.toNat_natCast, slice_ok (Nat.le_refl 0) (Nat.zero_le _), Res.bind_ok, List.take_zero, List.drop_nil, hd]
    rfl

/-- A piece of 2^32 bytes at a block boundary is taken to be empty: only the
counter moves. -/
theorem hadd_skip {B : Nat} (hB : B ∣ 2 ^ 32) {bm : Bool} {step : X → List Byte → Res X} {st : St X}
    (hm : st.msglen = 0#64) {data : List Byte} (hd : data.length = 2 ^ 32) :
    hadd B false bm step st data = .ok { st with msglen := BitVec.ofNat 64 (2 ^ 32) } := by
  have hB0 : 0 < B := Nat.pos_of_dvd_of_pos hB (by decide)
  unfold hadd
  rw [hm, hd]
  dsimp only
  rw [show (0#64).toNat % B = 0 from Nat.zero_mod _, if_neg (by omega)]
  unfold haddRest blocks
  have hs : lenSeen false data.length = 0 := by rw [hd]; decide
  rw [hs, if_neg (by omega), Res.bind_ok]
  dsimp only
  rw [hs]
  have h0 : (0#64 + BitVec.ofNat 64 (2 ^ 32)).toNat % B = 0 := by
    rw [show (0#64 + BitVec.ofNat 64 (2 ^ 32)).toNat = 2 ^ 32 by decide]; exact Nat.mod_eq_zero_of_dvd hB
  rw [h0]
  have h1 : (if bm = true then ((0 : Nat) : Int) else 0) = 0 := by cases bm <;> rfl
  rw [h1, if_neg (by omega)]
  unfold slcpAt
  rw [Int.toNat_zero, slice_ok (Nat.le_refl 0) (Nat.zero_le _), Res.bind_ok, List.take_zero, List.drop_nil, hd]
  simp

/-! ## Padding -/

/-- Assignments to consecutive places. -/
def idx (base : Nat) : List Nat → List (Nat × Nat)
  | [] => []
  | k :: t => (base, k) :: idx (base + 1) t

theorem wrChk_mid {α : Type} (pre post : List α) (o v : α) :
    wrChk (pre ++ o :: post) pre.length v = .ok (pre ++ v :: post) := by
  rw [wrChk_ok v (by simp)]
  simp

theorem putLen_ok (ml : BitVec 64) : ∀ (ks : List Nat) (pre old post : List Byte), old.length = ks.length →
    putLen ml (pre ++ old ++ post) (idx pre.length ks) =
      .ok (pre ++ ks.map (fun k => ((ml * 8#64) >>> k).setWidth 8) ++ post)
  | [], pre, old, post, h => by
    have : old = [] := List.length_eq_zero_iff.1 h
    subst this; rfl
  | k :: t, pre, [], post, h => by cases h
  | k :: t, pre, o :: old, post, h => by
    simp only [idx, putLen]
    rw [show pre ++ o :: old ++ post = pre ++ o :: (old ++ post) by simp, wrChk_mid, Res.bind_ok]
    have := putLen_ok ml t (pre ++ [((ml * 8#64) >>> k).setWidth 8]) old post (by simpa using h)
    rw [List.length_append, List.length_singleton] at this
    simpa using this

theorem len_byte (n k : Nat) (hk : k ≤ 56) :
    (((BitVec.ofNat 64 n * 8#64) >>> k).setWidth 8 : Byte) = BitVec.ofNat 8 (8 * n / 2 ^ k) := by
  apply BitVec.eq_of_toNat_eq
  rw [BitVec.toNat_setWidth, BitVec.toNat_ushiftRight, Nat.shiftRight_eq_div_pow, BitVec.toNat_ofNat,
    show (8#64 : BitVec 64) = BitVec.ofNat 64 8 from rfl, ← BitVec.ofNat_mul, BitVec.toNat_ofNat, Nat.mul_comm n 8]
  have e : (2 : Nat) ^ 64 = 2 ^ k * 2 ^ (64 - k) := by rw [← Nat.pow_add]; congr 1; omega
  rw [e, Nat.mod_mul_right_div_self]
  exact Nat.mod_mod_of_dvd _ (Nat.pow_dvd_pow 2 (by omega))

/-- The least number of zero bytes that fills the last block. -/
theorem zeros_least {B L n : Nat} (hB : 0 < B) : (n + 1 + zeros B L n + L) % B = 0 ∧
    ∀ k, (n + 1 + k + L) % B = 0 → zeros B L n ≤ k := by
  unfold zeros
  have hlt : (n + 1 + L) % B < B := Nat.mod_lt _ hB
  have hdm := Nat.div_add_mod (n + 1 + L) B
  obtain ⟨r, hr⟩ : ∃ r, (n + 1 + L) % B = r := ⟨_, rfl⟩
  obtain ⟨q, hq⟩ : ∃ q, (n + 1 + L) / B = q := ⟨_, rfl⟩
  rw [hr] at hlt hdm ⊢
  rw [hq] at hdm
  constructor
  · by_cases h0 : r = 0
    · subst h0
      rw [Nat.sub_zero, Nat.mod_self, show n + 1 + 0 + L = B * q by omega, Nat.mul_mod_right]
    · rw [Nat.mod_eq_of_lt (a := B - r) (by omega), show n + 1 + (B - r) + L = B * q + B by omega, ← Nat.mul_succ, Nat.mul_mod_right]
  · intro k hk
    by_cases h0 : r = 0
    · subst h0; rw [Nat.sub_zero, Nat.mod_self]; exact Nat.zero_le _
    · rw [Nat.mod_eq_of_lt (a := B - r) (by omega)]
      rw [show n + 1 + k + L = r + k + B * q by omega, Nat.add_mul_mod_self_left] at hk
      by_contra hlt2
      rw [Nat.mod_eq_of_lt (by omega)] at hk
      omega

theorem zeros_eq {B L n z q : Nat} (hB : 0 < B) (hz : z < B) (h : n + 1 + z + L = B * q) : zeros B L n = z := by
  obtain ⟨h1, h2⟩ := zeros_least (B := B) (L := L) (n := n) hB
  have h3 := h2 z (by rw [h, Nat.mul_mod_right])
  have hd1 : B ∣ n + 1 + zeros B L n + L := Nat.dvd_of_mod_eq_zero h1
  have hd2 : B ∣ n + 1 + z + L := ⟨q, h⟩
  have hd := Nat.dvd_sub hd2 hd1
  rw [show n + 1 + z + L - (n + 1 + zeros B L n + L) = z - zeros B L n by omega] at hd
  have := Nat.eq_zero_of_dvd_of_lt hd (by omega)
  omega

/-- The padding, given the room asked for and the assignments that store the
length. -/
theorem finish_ok {B L : Nat} (hB : 0 < B) (hL : 8 ≤ L) (hLB : L < B) {step : X → List Byte → Res X} {ab : X → Y} {f : Y → List Byte → Y}
    (hs : Steps B step ab f) (iv : Y) {st : St X} {m : List Byte} (hi : Inv B ab f iv st m) (hc : Counts B m.length)
    {ks : List Nat} (hk : ks.length = 8) {enc : Nat → Nat → List Byte}
    (he : enc L (8 * m.length) = List.replicate (L - 8) 0#8 ++
      ks.map (fun k => ((BitVec.ofNat 64 m.length * 8#64) >>> k).setWidth 8)) :
    ∃ st', finish B L (idx (B - 8) ks) step st = .ok st' ∧ st'.tail.length = B ∧ ab st'.x = chain B f iv (pad B L enc m) := by
  obtain ⟨ht, hml, hx, htail⟩ := hi
  have hlt : m.length % B < B := Nat.mod_lt _ hB
  have hdm := Nat.div_add_mod m.length B
  obtain ⟨r, hr⟩ : ∃ r, m.length % B = r := ⟨_, rfl⟩
  obtain ⟨q, hq⟩ : ∃ q, m.length / B = q := ⟨_, rfl⟩
  rw [hr] at hlt hdm htail
  rw [hq] at hdm htail
  have hrest : (m.drop (B * q)).length = r := by rw [List.length_drop]; omega
  obtain ⟨rest, hrs⟩ : ∃ rest, m.drop (B * q) = rest := ⟨_, rfl⟩
  obtain ⟨full, hfu⟩ : ∃ full, m.take (B * q) = full := ⟨_, rfl⟩
  have hfl : full.length = B * q := by rw [← hfu, List.length_take]; omega
  have hmf : m = full ++ rest := by rw [← hfu, ← hrs, List.take_append_drop]
  rw [hrs] at hrest htail
  have hx1 : ab st.x = chain B f iv full := by
    rw [hx, hmf, chain_append hB f iv hfl, chain_short f _ (q := rest) (by omega)]
  unfold finish
  rw [hml, msglen_mod hc, hr]
  have hsplit : ∃ o post, st.tail = rest ++ o :: post ∧ post.length = B - (r + 1) := by
    refine ⟨st.tail[r]'(by omega), st.tail.drop (r + 1), ?_, by rw [List.length_drop, ht]⟩
    have hcons := List.drop_eq_getElem_cons (l := st.tail) (i := r) (by omega)
    calc st.tail = st.tail.take r ++ st.tail.drop r := (List.take_append_drop r st.tail).symm
      _ = _ := by rw [htail, hcons]
  obtain ⟨o, post, hst, hpost⟩ := hsplit
  dsimp only
  rw [hst]
  have hw := wrChk_mid rest post o 0x80#8
  rw [hrest] at hw
  rw [hw, Res.bind_ok, slfillFrom_ok _ (by simp; omega), Res.bind_ok]
  have hblk : (rest ++ 0x80#8 :: post).take (r + 1) ++ List.replicate ((rest ++ 0x80#8 :: post).length - (r + 1)) 0#8 =
      rest ++ 0x80#8 :: List.replicate (B - (r + 1)) 0#8 := by
    rw [show rest ++ 0x80#8 :: post = (rest ++ [0x80#8]) ++ post by simp, List.take_left' (by simp; omega)]
    rw [show ((rest ++ [0x80#8]) ++ post).length - (r + 1) = B - (r + 1) by simp; omega]
    simp
  rw [hblk]
  have henc : (enc L (8 * m.length)).length = L := by rw [he]; simp; omega
  by_cases h1 : B - (r + 1) < L
  · rw [if_pos h1]
    have hl1 : (rest ++ 0x80#8 :: List.replicate (B - (r + 1)) 0#8).length = B := by simp; omega
    obtain ⟨x1, h2, h3⟩ := hs st.x _ hl1
    rw [h2, Res.bind_ok, slfillFrom_ok _ (Nat.zero_le _), Res.bind_ok, Res.bind_ok]
    rw [hl1, Nat.sub_zero, List.take_zero, List.nil_append]
    dsimp only
    have e3 : List.replicate B (0#8) = List.replicate (B - 8) 0#8 ++ List.replicate 8 0#8 ++ [] := by
      rw [List.append_nil, List.replicate_append_replicate]; congr 1; omega
    have e4 := putLen_ok (BitVec.ofNat 64 m.length) ks (List.replicate (B - 8) 0#8) (List.replicate 8 0#8) [] (by simp [hk])
    rw [List.length_replicate, ← e3] at e4
    rw [e4, Res.bind_ok, List.append_nil]
    have hl2 : (List.replicate (B - 8) 0#8 ++ ks.map (fun k => ((BitVec.ofNat 64 m.length * 8#64) >>> k).setWidth 8)).length = B := by
      simp [hk]; omega
    obtain ⟨x2, h5, h6⟩ := hs x1 _ hl2
    rw [h5, Res.bind_ok]
    refine ⟨_, rfl, hl2, ?_⟩
    dsimp only
    rw [h6, h3, hx1]
    have hz : zeros B L m.length = (B - (r + 1)) + (B - L) :=
      zeros_eq (q := q + 2) hB (by omega) (by
        have : B * (q + 2) = B * q + 2 * B := by rw [Nat.mul_add, Nat.mul_comm B 2]
        omega)
    have hp : pad B L enc m = full ++ ((rest ++ 0x80#8 :: List.replicate (B - (r + 1)) 0#8) ++
        (List.replicate (B - 8) 0#8 ++ ks.map (fun k => ((BitVec.ofNat 64 m.length * 8#64) >>> k).setWidth 8))) := by
      unfold pad
      rw [hz, he]
      generalize ks.map (fun k => ((BitVec.ofNat 64 m.length * 8#64) >>> k).setWidth 8) = e8
      rw [hmf]
      have : B - 8 = (B - L) + (L - 8) := by omega
      rw [this, ← List.replicate_append_replicate (n := B - L), ← List.replicate_append_replicate (n := B - (r + 1))]
      simp only [List.append_assoc, List.cons_append]
    rw [hp, chain_append hB f iv hfl, chain_append hB f _ (a := 1) (by rw [hl1, Nat.mul_one]), chain_block hB f _ hl1,
      chain_block hB f _ hl2]
  · rw [if_neg h1, Res.bind_ok]
    dsimp only
    have e3 : rest ++ 0x80#8 :: List.replicate (B - (r + 1)) 0#8 =
        (rest ++ 0x80#8 :: List.replicate (B - (r + 1) - 8) 0#8) ++ List.replicate 8 0#8 ++ [] := by
      have : B - (r + 1) = (B - (r + 1) - 8) + 8 := by omega
      conv_lhs => rw [this, ← List.replicate_append_replicate]
      simp
    have hl0 : (rest ++ 0x80#8 :: List.replicate (B - (r + 1) - 8) 0#8).length = B - 8 := by simp; omega
    have e4 := putLen_ok (BitVec.ofNat 64 m.length) ks (rest ++ 0x80#8 :: List.replicate (B - (r + 1) - 8) 0#8) (List.replicate 8 0#8) [] (by simp [hk])
    rw [hl0, ← e3] at e4
    rw [e4, Res.bind_ok, List.append_nil]
    have hl2 : (rest ++ 0x80#8 :: List.replicate (B - (r + 1) - 8) 0#8 ++ ks.map (fun k => ((BitVec.ofNat 64 m.length * 8#64) >>> k).setWidth 8)).length = B := by
      rw [List.length_append, hl0, List.length_map, hk]; omega
    obtain ⟨x2, h5, h6⟩ := hs st.x _ hl2
    rw [h5, Res.bind_ok]
    refine ⟨_, rfl, hl2, ?_⟩
    dsimp only
    rw [h6, hx1]
    have hz : zeros B L m.length = B - (r + 1) - L :=
      zeros_eq (q := q + 1) hB (by omega) (by rw [Nat.mul_succ]; omega)
    have hp : pad B L enc m = full ++
        (rest ++ 0x80#8 :: List.replicate (B - (r + 1) - 8) 0#8 ++ ks.map (fun k => ((BitVec.ofNat 64 m.length * 8#64) >>> k).setWidth 8)) := by
      unfold pad
      rw [hz, he]
      generalize ks.map (fun k => ((BitVec.ofNat 64 m.length * 8#64) >>> k).setWidth 8) = e8
      rw [hmf]
      have : B - (r + 1) - 8 = (B - (r + 1) - L) + (L - 8) := by omega
      rw [this, ← List.replicate_append_replicate (n := B - (r + 1) - L)]
      simp only [List.append_assoc, List.cons_append]
    rw [hp, chain_append hB f iv hfl, chain_block hB f _ hl2]

end Verif.Crypto
