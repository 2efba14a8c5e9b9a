import Verif.Chacha.Block

/-!
# C85: ChaCha20

* `setup_means`: `chacha20keysetup` and `chacha20ivsetup` build the state ChaCha20
  prescribes for the key and the nonce, and keys of other sizes are refused.
* `encrypt_violated`: a message whose length is not a multiple of 64 is not
  encrypted: the bytes after the last whole block never reach the destination.
* `counter_violated`: encrypting an empty message skips a block of keystream.
* `big_aborts`: messages of 2 GiB abort the program.
* `encrypt_partial`: for every length below that, every memory and every buffer in place or
  apart, exactly the whole blocks are encrypted and nothing else changes.
* `encrypt_pieces`: encrypting whole blocks piece by piece is encrypting at once.
* `decrypt_encrypt`: on whole blocks, encrypting twice gives the message back.
-/

namespace Verif.Chacha

open Crypto (get upd ab get_upd)
open Crypto.Spec (le leNum part)

theorem load4_ok {b : List Byte} (h : 16 ≤ b.length) (x : Words) (i0 i1 i2 i3 : Fin 16) :
    load4 b x i0 i1 i2 i3 = .ok (upd (upd (upd (upd x i0 (BitVec.ofNat 32 (leNum (part 4 b 0)))) i1 (BitVec.ofNat 32 (leNum (part 4 b 1))))
      i2 (BitVec.ofNat 32 (leNum (part 4 b 2)))) i3 (BitVec.ofNat 32 (leNum (part 4 b 3)))) := by
  unfold load4
  have h0 := getle_ok (b := b) (i := 0) (by omega)
  have h1 := getle_ok (b := b) (i := 1) (by omega)
  have h2 := getle_ok (b := b) (i := 2) (by omega)
  have h3 := getle_ok (b := b) (i := 3) (by omega)
  rw [show 4 * 0 + 4 = 4 from rfl, show 4 * 0 = 0 from rfl] at h0
  rw [show 4 * 1 + 4 = 8 from rfl, show 4 * 1 = 4 from rfl] at h1
  rw [show 4 * 2 + 4 = 12 from rfl, show 4 * 2 = 8 from rfl] at h2
  rw [show 4 * 3 + 4 = 16 from rfl, show 4 * 3 = 12 from rfl] at h3
  rw [h0, Res.bind_ok, h1, Res.bind_ok, h2, Res.bind_ok, h3, Res.bind_ok]

theorem load4_short {b : List Byte} (h : b.length < 16) (x : Words) (i0 i1 i2 i3 : Fin 16) :
    load4 b x i0 i1 i2 i3 = .abort := by
  unfold load4
  by_cases h0 : b.length < 4
  · rw [show slice b 0 4 = .abort from if_pos h0]; rfl
  have g0 := getle_ok (b := b) (i := 0) (by omega)
  rw [show 4 * 0 + 4 = 4 from rfl, show 4 * 0 = 0 from rfl] at g0
  rw [g0, Res.bind_ok]
  by_cases h1 : b.length < 8
  · rw [show slice b 4 8 = .abort from if_pos h1]; rfl
  have g1 := getle_ok (b := b) (i := 1) (by omega)
  rw [show 4 * 1 + 4 = 8 from rfl, show 4 * 1 = 4 from rfl] at g1
  rw [g1, Res.bind_ok]
  by_cases h2 : b.length < 12
  · rw [show slice b 8 12 = .abort from if_pos h2]; rfl
  have g2 := getle_ok (b := b) (i := 2) (by omega)
  rw [show 4 * 2 + 4 = 12 from rfl, show 4 * 2 = 8 from rfl] at g2
  rw [g2, Res.bind_ok, show slice b 12 16 = .abort from if_pos h]
  rfl

theorem forall16 {p : Fin 16 → Prop} (h0 : p 0) (h1 : p 1) (h2 : p 2) (h3 : p 3) (h4 : p 4) (h5 : p 5) (h6 : p 6) (h7 : p 7)
    (h8 : p 8) (h9 : p 9) (ha : p 10) (hb : p 11) (hc : p 12) (hd : p 13) (he : p 14) (hf : p 15) : ∀ j, p j := by
  intro j
  have h : j = 0 ∨ j = 1 ∨ j = 2 ∨ j = 3 ∨ j = 4 ∨ j = 5 ∨ j = 6 ∨ j = 7 ∨ j = 8 ∨ j = 9 ∨ j = 10 ∨ j = 11 ∨ j = 12 ∨ j = 13 ∨
      j = 14 ∨ j = 15 := by revert j; decide
  rcases h with rfl | rfl | rfl | rfl | rfl | rfl | rfl | rfl | rfl | rfl | rfl | rfl | rfl | rfl | rfl | rfl <;> assumption

/-- The three groups of four words a key setup leaves. -/
theorem setup_words (x : Words) (C K1 K2 : List Byte) (h1 : C.length = 16) (h2 : K1.length = 16) (_h3 : K2.length = 16)
    {L1 L2 : List Byte} (e1 : ∀ i, i < 4 → part 4 L1 i = part 4 K1 i) (e2 : ∀ i, i < 4 → part 4 L2 i = part 4 K2 i)
    (hl1 : 16 ≤ L1.length) (hl2 : 16 ≤ L2.length) :
    ∃ x', (do let x ← load4 L1 x 4 5 6 7; let x ← load4 L2 x 8 9 10 11; load4 C x 0 1 2 3) = .ok x' ∧
      ∀ i : Fin 16, i.val < 12 → get x' i = BitVec.ofNat 32 (leNum (part 4 (C ++ (K1 ++ K2)) i.val)) := by
  rw [load4_ok hl1, Res.bind_ok, load4_ok hl2, Res.bind_ok, load4_ok (show 16 ≤ C.length by omega)]
  refine ⟨_, rfl, ?_⟩
  · have p0 : ∀ i, i < 4 → part 4 (C ++ (K1 ++ K2)) i = part 4 C i := fun i hi => part_app_left (by omega)
    have p1 : ∀ i, i < 4 → part 4 (C ++ (K1 ++ K2)) (4 + i) = part 4 L1 i := fun i hi => by
      rw [part_app_right (k := 4) (by omega), part_app_left (by omega), e1 i hi]
    have p2 : ∀ i, i < 4 → part 4 (C ++ (K1 ++ K2)) (8 + i) = part 4 L2 i := fun i hi => by
      rw [show 8 + i = 4 + (4 + i) by omega, part_app_right (k := 4) (by omega), part_app_right (k := 4) (by omega), e2 i hi]
    apply forall16
    all_goals intro hi
    all_goals first | (exfalso; revert hi; decide) | skip
    all_goals simp only [get_upd]
    · rw [← p0 0 (by decide)]; rfl
    · rw [← p0 1 (by decide)]; rfl
    · rw [← p0 2 (by decide)]; rfl
    · rw [← p0 3 (by decide)]; rfl
    · rw [← p1 0 (by decide)]; rfl
    · rw [← p1 1 (by decide)]; rfl
    · rw [← p1 2 (by decide)]; rfl
    · rw [← p1 3 (by decide)]; rfl
    · rw [← p2 0 (by decide)]; rfl
    · rw [← p2 1 (by decide)]; rfl
    · rw [← p2 2 (by decide)]; rfl
    · rw [← p2 3 (by decide)]; rfl

theorem keysetup_ok {key : List Byte} (h : KeyOk key) (x : Words) : ∃ x', keysetup x key = .ok x' ∧
    ∀ i : Fin 16, i.val < 12 → get x' i = BitVec.ofNat 32 (leNum (part 4 (Spec.constant key ++ (key ++ key).take 32) i.val)) := by
  unfold keysetup
  rcases h with h | h
  · obtain ⟨x', h1, h2⟩ := setup_words x tau key key rfl h h (L1 := key) (L2 := key) (fun _ _ => rfl) (fun _ _ => rfl) (by omega) (by omega)
    simp only [h, if_neg (show ¬ 16 * 8 = 256 by decide)]
    refine ⟨x', h1, ?_⟩
    rw [show Spec.constant key = tau by unfold Spec.constant; rw [if_neg (by omega)]; decide +kernel,
      List.take_of_length_le (by rw [List.length_append]; omega)]
    exact h2
  · obtain ⟨x', h1, h2⟩ := setup_words x sigma (key.take 16) (key.drop 16) rfl (by rw [List.length_take]; omega)
      (by rw [List.length_drop]; omega) (L1 := key) (L2 := key.drop 16)
      (fun i hi => by unfold part; rw [List.drop_take, List.take_take, Nat.min_eq_left (by omega)]) (fun _ _ => rfl) (by omega)
      (by rw [List.length_drop]; omega)
    simp only [h]
    rw [List.take_append_drop] at h2
    refine ⟨x', ?_, ?_⟩
    · rw [← h1]
      congr 1
      funext y
      rw [← h, slice_suffix (by omega), Res.bind_ok, if_pos trivial]
    · rw [show Spec.constant key = sigma by unfold Spec.constant; rw [if_pos h]; decide +kernel, List.take_left' h]
      exact h2

/-- **C85.** With a key of 32 or 16 bytes and a nonce of 8 (more are ignored) the
two setup functions build the state ChaCha20 starts with, whatever the context
held before. A key of any other size is refused. -/
theorem setup_means (x : Words) (key nonce : List Byte) :
    (key.length = 16 ∨ key.length = 32 → 8 ≤ nonce.length →
      ∃ x', (keysetup x key >>= fun x => ivsetup x nonce) = .ok x' ∧ ∀ i, get x' i = Spec.state key (nonce.take 8) 0 i) ∧
    (key.length ≠ 16 → key.length ≠ 32 → keysetup x key = .abort) := by
  constructor
  · intro h hn
    obtain ⟨x1, h1, h2⟩ := keysetup_ok h x
    rw [h1, Res.bind_ok]
    unfold ivsetup
    have g0 := getle_ok (b := nonce) (i := 0) (by omega)
    have g1 := getle_ok (b := nonce) (i := 1) (by omega)
    rw [show 4 * 0 + 4 = 4 from rfl, show 4 * 0 = 0 from rfl] at g0
    rw [show 4 * 1 + 4 = 8 from rfl, show 4 * 1 = 4 from rfl] at g1
    rw [g0, Res.bind_ok, g1, Res.bind_ok]
    refine ⟨_, rfl, fun i => ?_⟩
    have hp : ∀ k, k < 2 → part 4 (nonce.take 8) k = part 4 nonce k := by
      intro k hk; unfold part; rw [List.drop_take, List.take_take, Nat.min_eq_left (by omega)]
    rw [state_words (show KeyOk key from h)]
    by_cases hi : i.val < 12
    · have n12 : (12 : Fin 16) ≠ i := fun hh => by subst hh; revert hi; decide
      have n13 : (13 : Fin 16) ≠ i := fun hh => by subst hh; revert hi; decide
      have n14 : (14 : Fin 16) ≠ i := fun hh => by subst hh; revert hi; decide
      have n15 : (15 : Fin 16) ≠ i := fun hh => by subst hh; revert hi; decide
      rw [if_neg n12.symm, if_neg n13.symm, if_pos hi]
      simp only [get_upd]
      rw [if_neg n15, if_neg n14, if_neg n13, if_neg n12, h2 i hi]
    · have : i = 12 ∨ i = 13 ∨ i = 14 ∨ i = 15 := by revert i; decide
      simp only [get_upd]
      rcases this with rfl | rfl | rfl | rfl
      · rfl
      · rfl
      · show BitVec.ofNat 32 (leNum (part 4 nonce 0)) = BitVec.ofNat 32 (leNum (part 4 (nonce.take 8) 0))
        rw [hp 0 (by decide)]
      · show BitVec.ofNat 32 (leNum (part 4 nonce 1)) = BitVec.ofNat 32 (leNum (part 4 (nonce.take 8) 1))
        rw [hp 1 (by decide)]
  · intro h1 h2
    unfold keysetup
    by_cases h : key.length < 16
    · rw [load4_short h]; rfl
    · rw [load4_ok (by omega), Res.bind_ok, if_neg (by omega), if_neg (by omega)]

/-- The context stands for block `ctr` of the stream of the key and nonce. -/
def At (x : Words) (key nonce : List Byte) (ctr : Nat) : Prop :=
  (key.length = 16 ∨ key.length = 32) ∧ nonce.length = 8 ∧ ∀ i, get x i = Spec.state key nonce ctr i

/-- The buffers lie in the memory and are the same or do not meet. -/
def Buffers (mem : List Byte) (mo co n : Nat) : Prop :=
  mo + n ≤ mem.length ∧ co + n ≤ mem.length ∧ (mo = co ∨ mo + n ≤ co ∨ co + n ≤ mo)

/-- The full claim: the destination receives the message xored with the
keystream, and nothing else changes. -/
def EncryptClaim : Prop := ∀ x key nonce ctr mem tmp mo co n, At x key nonce ctr → Buffers mem mo co n → tmp.length = 64 →
  ∃ x', encrypt x mem tmp mo n co n =
    .ok (mem.take co ++ Spec.crypt key nonce ctr ((mem.drop mo).take n) ++ mem.drop (co + n), x')

/-- The full claim about the position: a message uses up as many blocks as it
touches. -/
def CounterClaim : Prop := ∀ x key nonce ctr mem tmp mo co n, At x key nonce ctr → Buffers mem mo co n → tmp.length = 64 →
  ∃ mem' x', encrypt x mem tmp mo n co n = .ok (mem', x') ∧ At x' key nonce (ctr + (n + 63) / 64)

/-- **C85, what holds.** For every message of fewer than 2^31 bytes, every content of memory and
stack, and buffers that are the same or apart, the call returns; exactly the
whole blocks at the start of the message are encrypted, every other byte of
memory keeps its value, and the context moves on by the blocks touched (one for
an empty message). What is missing from `EncryptClaim` is the last `n % 64` bytes, and messages of
2 GiB and more (`big_aborts`). -/
theorem encrypt_partial {x : Words} {key nonce : List Byte} {ctr : Nat} {mem tmp : List Byte} {mo co n : Nat}
    (hx : At x key nonce ctr) (hb : Buffers mem mo co n) (ht : tmp.length = 64) (h31 : n < 2 ^ 31) :
    ∃ x', encrypt x mem tmp mo n co n =
        .ok (mem.take co ++ Spec.crypt key nonce ctr ((mem.drop mo).take (64 * (n / 64))) ++ mem.drop (co + 64 * (n / 64)), x') ∧
      At x' key nonce (ctr + if n = 0 then 1 else (n + 63) / 64) := by
  obtain ⟨hk, hn, hs⟩ := hx
  obtain ⟨b1, b2, b3⟩ := hb
  obtain ⟨j', h1, h2⟩ := encLoop_ok (nonce := nonce) (show KeyOk key from hk) (n / 64 + 1) n ctr x mem tmp mo co (.mem 0 0) (by omega)
    h31 (funext hs) ht b1 b2 b3
  unfold encrypt
  rw [if_pos rfl, h1, Res.bind_ok]
  refine ⟨upd (upd x 12 (get j' 12)) 13 (get j' 13), ?_, ⟨hk, hn, ?_⟩⟩
  · congr 2
    unfold put
    rw [crypt_length, List.length_take, List.length_drop, Nat.min_eq_left (by omega)]
  · intro i
    have g : ∀ i, get j' i = Spec.state key nonce (ctr + used n) i := fun i => congrFun h2 i
    show get (upd (upd x 12 (get j' 12)) 13 (get j' 13)) i = Spec.state key nonce (ctr + used n) i
    rw [get_upd, get_upd]
    by_cases h13 : (13 : Fin 16) = i
    · subst h13; rw [if_pos rfl]; exact g 13
    · rw [if_neg h13]
      by_cases h12 : (12 : Fin 16) = i
      · subst h12; rw [if_pos rfl]; exact g 12
      · have n12 : i ≠ 12 := fun hh => h12 hh.symm
        have n13 : i ≠ 13 := fun hh => h13 hh.symm
        rw [if_neg h12, hs i, state_words hk, state_words hk]
        simp only [if_neg n12, if_neg n13]

/-- A context at the start of a stream. -/
def fresh : Words := Vector.ofFn (Spec.state (List.replicate 32 0) (List.replicate 8 0) 0)

theorem fresh_at : At fresh (List.replicate 32 0) (List.replicate 8 0) 0 := by
  refine ⟨.inr rfl, rfl, fun i => ?_⟩
  unfold fresh Crypto.get
  rw [Vector.getElem_ofFn]

/-- **C85 violated.** Whatever the destination held before is still there after
encrypting one byte, so it cannot be the ciphertext. -/
theorem encrypt_violated : ¬ EncryptClaim := by
  intro h
  have hb : ∀ v : Byte, Buffers [7, v] 0 1 1 := fun v => ⟨by simp, by simp, by omega⟩
  have ht : (List.replicate 64 (0 : Byte)).length = 64 := List.length_replicate
  have key : ∀ v : Byte, [7, v] = 7 :: Spec.crypt (List.replicate 32 0) (List.replicate 8 0) 0 [7] := by
    intro v
    obtain ⟨x1, h1⟩ := h _ _ _ _ [7, v] _ 0 1 1 fresh_at (hb v) ht
    obtain ⟨x2, h2, _⟩ := encrypt_partial fresh_at (hb v) ht (by decide)
    rw [h2] at h1
    have h3 := (Prod.mk.injEq .. ▸ Res.ok.injEq .. ▸ h1).1
    exact h3
  have h0 := key 0
  rw [← key 1] at h0
  revert h0
  decide

/-- **C85 violated.** Encrypting nothing skips 64 bytes of the stream. -/
theorem counter_violated : ¬ CounterClaim := by
  intro h
  have hb : Buffers [] 0 0 0 := ⟨by simp, by simp, by omega⟩
  have ht : (List.replicate 64 (0 : Byte)).length = 64 := List.length_replicate
  obtain ⟨m1, x1, h1, h2⟩ := h _ _ _ _ [] _ 0 0 0 fresh_at hb ht
  obtain ⟨x2, h3, h4⟩ := encrypt_partial fresh_at hb ht (by decide)
  rw [h3] at h1
  have h5 : x2 = x1 := (Prod.mk.injEq .. ▸ Res.ok.injEq .. ▸ h1).2
  subst h5
  have h6 := h2.2.2 12
  rw [h4.2.2 12, state_words (.inr rfl), state_words (.inr rfl), if_pos rfl, if_pos rfl] at h6
  revert h6
  decide

/-- **C85 violated** for messages of 2^31 bytes: the length is taken to be
negative, and the program aborts. -/
theorem big_aborts (x : Words) (mem tmp : List Byte) (mo co : Nat) :
    encrypt x mem tmp mo (2 ^ 31) co (2 ^ 31) = .abort := by
  have h : (Ref.mem mo (2 ^ 31)).seen = -2147483648 := (by decide : Crypto.lenSeen false (2 ^ 31) = -2147483648)
  unfold encrypt
  rw [if_pos rfl]
  unfold encLoop prep
  rw [h]
  rfl

/-- On whole blocks, what is missing in `encrypt_partial` is nothing. -/
theorem encrypt_whole {x : Words} {key nonce : List Byte} {ctr : Nat} {mem tmp : List Byte} {mo co k : Nat}
    (hx : At x key nonce ctr) (hb : Buffers mem mo co (64 * k)) (ht : tmp.length = 64) (hk : 0 < k)
    (h31 : 64 * k < 2 ^ 31) :
    ∃ x', encrypt x mem tmp mo (64 * k) co (64 * k) =
        .ok (mem.take co ++ Spec.crypt key nonce ctr ((mem.drop mo).take (64 * k)) ++ mem.drop (co + 64 * k), x') ∧
      At x' key nonce (ctr + k) := by
  obtain ⟨x', h1, h2⟩ := encrypt_partial hx hb ht h31
  rw [Nat.mul_div_cancel_left _ (by decide)] at h1
  rw [if_neg (by omega), show (64 * k + 63) / 64 = k by omega] at h2
  exact ⟨x', h1, h2⟩

theorem crypt_append {key nonce : List Byte} : ∀ (k ctr : Nat) (a b : List Byte), a.length = 64 * k →
    Spec.crypt key nonce ctr (a ++ b) = Spec.crypt key nonce ctr a ++ Spec.crypt key nonce (ctr + k) b := by
  intro k ctr a b h
  unfold Spec.crypt
  rw [List.mapIdx_append, h]
  congr 2
  funext i c
  unfold Spec.keystream
  rw [show (i + 64 * k) / 64 = i / 64 + k by omega, show (i + 64 * k) % 64 = i % 64 by omega, Nat.add_assoc ctr k, Nat.add_comm k]

/-- **C85.** A message encrypted in place in two calls, each of whole blocks, is
the message encrypted in one. -/
theorem encrypt_pieces {x : Words} {key nonce : List Byte} {ctr : Nat} {a b tmp : List Byte} {i j : Nat}
    (hx : At x key nonce ctr) (ht : tmp.length = 64) (ha : a.length = 64 * i) (hb : b.length = 64 * j) (hi : 0 < i) (hj : 0 < j)
    (h31 : 64 * (i + j) < 2 ^ 31) :
    ∃ x1 x2 x3 m1, encrypt x (a ++ b) tmp 0 (64 * i) 0 (64 * i) = .ok (m1, x1) ∧
      encrypt x1 m1 tmp (64 * i) (64 * j) (64 * i) (64 * j) = .ok (Spec.crypt key nonce ctr (a ++ b), x2) ∧
      encrypt x (a ++ b) tmp 0 (64 * (i + j)) 0 (64 * (i + j)) = .ok (Spec.crypt key nonce ctr (a ++ b), x3) ∧
      At x2 key nonce (ctr + (i + j)) ∧ At x3 key nonce (ctr + (i + j)) := by
  have hl : (a ++ b).length = 64 * (i + j) := by rw [List.length_append]; omega
  obtain ⟨x1, h1, h2⟩ := encrypt_whole (mem := a ++ b) (mo := 0) (co := 0) (k := i) hx ⟨by omega, by omega, .inl rfl⟩ ht hi (by omega)
  obtain ⟨x3, h5, h6⟩ := encrypt_whole (mem := a ++ b) (mo := 0) (co := 0) (k := i + j) hx ⟨by omega, by omega, .inl rfl⟩ ht (by omega) h31
  rw [List.take_zero, List.nil_append, List.drop_zero, List.take_left' ha, Nat.zero_add, List.drop_left' ha] at h1
  rw [List.take_zero, List.nil_append, List.drop_zero, List.take_of_length_le (by omega), Nat.zero_add, List.drop_eq_nil_of_le (by omega),
    List.append_nil] at h5
  have hc : (Spec.crypt key nonce ctr a).length = 64 * i := by rw [crypt_length]; exact ha
  obtain ⟨x2, h3, h4⟩ := encrypt_whole (mem := Spec.crypt key nonce ctr a ++ b) (mo := 64 * i) (co := 64 * i) (k := j) h2
    ⟨by rw [List.length_append]; omega, by rw [List.length_append]; omega, .inl rfl⟩ ht hj (by omega)
  rw [List.take_left' hc, List.drop_left' hc, List.take_of_length_le (by omega), List.drop_eq_nil_of_le (by rw [List.length_append]; omega),
    List.append_nil, ← crypt_append i ctr a b ha] at h3
  rw [Nat.add_assoc] at h4
  exact ⟨x1, x2, x3, _, h1, h3, h5, h4, h6⟩

theorem crypt_crypt {key nonce : List Byte} {ctr : Nat} {m : List Byte} :
    Spec.crypt key nonce ctr (Spec.crypt key nonce ctr m) = m := by
  unfold Spec.crypt
  apply List.ext_getElem
  · simp
  · intro i h1 h2
    rw [List.getElem_mapIdx, List.getElem_mapIdx, BitVec.xor_assoc, BitVec.xor_self, BitVec.xor_zero]

/-- **C85.** Encrypting whole blocks in place and once more with the context put
back gives the message back. -/
theorem decrypt_encrypt {x y : Words} {key nonce : List Byte} {ctr : Nat} {m tmp tmp' : List Byte} {k : Nat}
    (hx : At x key nonce ctr) (hy : At y key nonce ctr) (ht : tmp.length = 64) (ht' : tmp'.length = 64) (hm : m.length = 64 * k) (hk : 0 < k)
    (h31 : 64 * k < 2 ^ 31) :
    ∃ c x' y', encrypt x m tmp 0 (64 * k) 0 (64 * k) = .ok (c, x') ∧ encrypt y c tmp' 0 (64 * k) 0 (64 * k) = .ok (m, y') := by
  obtain ⟨x', h1, _⟩ := encrypt_whole (mem := m) (mo := 0) (co := 0) (k := k) hx ⟨by omega, by omega, .inl rfl⟩ ht hk h31
  rw [List.take_zero, List.nil_append, List.drop_zero, List.take_of_length_le (by omega), Nat.zero_add, List.drop_eq_nil_of_le (by omega),
    List.append_nil] at h1
  have hc : (Spec.crypt key nonce ctr m).length = 64 * k := by rw [crypt_length]; exact hm
  obtain ⟨y', h2, _⟩ := encrypt_whole (mem := Spec.crypt key nonce ctr m) (mo := 0) (co := 0) (k := k) hy ⟨by omega, by omega, .inl rfl⟩ ht' hk h31
  rw [List.take_zero, List.nil_append, List.drop_zero, List.take_of_length_le (by omega), Nat.zero_add, List.drop_eq_nil_of_le (by omega),
    List.append_nil, crypt_crypt] at h2
  exact ⟨_, x', y', h1, h2⟩

/-- The hypotheses are met: a context, and 64 bytes within a memory of 130. -/
example : At fresh (List.replicate 32 0) (List.replicate 8 0) 0 ∧ Buffers (List.replicate 130 0) 0 65 64 :=
  ⟨fresh_at, by simp [Buffers]⟩

/-- The first bytes of keystream for the key and nonce of zeros, with a key of 16
bytes, as in the test vectors of the ChaCha20 draft; the destination's last byte
is not written. -/
example : (do
    let x ← keysetup (Vector.replicate 16 0) (List.replicate 16 0#8)
    let x ← ivsetup x (List.replicate 8 0#8)
    let r ← encrypt x (List.replicate 65 0#8) (List.replicate 64 0#8) 0 65 0 65
    .ok (r.1.take 8, r.1.getLast?)) =
    .ok ([0x89, 0x67, 0x09, 0x52, 0x60, 0x83, 0x64, 0xfd], some 0#8) := by decide +kernel

end Verif.Chacha
