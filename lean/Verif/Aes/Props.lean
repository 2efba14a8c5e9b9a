import Verif.Aes.Cipher
import Verif.Aes.Inverse

/-!
# C93: AES

* `keysched_sizes`: a key of 16, 24 or 32 bytes is taken, any other below 4 GiB stops the program.
* `encrypt_partial`, `decrypt_partial`: with the context of a key, every block of a message of whole blocks of
  less than 4 GiB is put through the cipher (or the inverse cipher) of FIPS 197, for buffers that are the same
  or apart, and nothing else in the memory changes.
* `encrypt_low`, `decrypt_low`: of longer messages, only the first so many bytes as the low 32 bits of the length
  say are.
* `encrypt_violated`: so a message of 4 GiB is left as it is.
* `lengths_refused`: other lengths stop the program before anything is written.
* `decrypt_encrypt`: what was encrypted decrypts to the message.
-/

namespace Verif.Aes

open Spec (State Word)
open Chacha (put put_length put_nil put_put view_put view_get)

/-! ## The context -/

/-- The context holds the key schedule of the key. -/
def Ready (x : Ctx) (key : List Byte) : Prop :=
  x.nrounds = Spec.rounds key ∧ x.skey.length = 30 ∧ Spec.rounds key ≤ 14 ∧ 0 < Spec.rounds key ∧
    ∃ ws : List (BitVec 32), ws.map wd = Spec.schedule key ∧ 4 * (Spec.rounds key + 1) ≤ ws.length ∧ ∀ r < Spec.rounds key + 1, Holds x.skey ws r

theorem keywords_eq (key : List Byte) : (List.range (key.length / 4)).map (fun i => wd (wordAt key i)) = Spec.keyWords key := by
  unfold Spec.keyWords
  exact List.map_congr_left fun i _ => wd_wordAt key i

theorem expandKey_length (nk : Nat) : ∀ (n : Nat) (ws : List Word), (Spec.expandKey nk n ws).length = ws.length + n
  | 0, _ => rfl
  | n + 1, ws => by
    unfold Spec.expandKey
    rw [expandKey_length nk n, List.length_append]
    simp; omega

theorem keysched_ok {x : Ctx} {junk : List (BitVec 32)} {key : List Byte} (hk : key.length = 16 ∨ key.length = 24 ∨ key.length = 32)
    (hx : x.skey.length = 30) (hj : junk.length = 60) : ∃ x', keysched x junk key = .ok x' ∧ Ready x' key := by
  have hlow : low key.length = key.length := Nat.mod_eq_of_lt (by omega)
  have hnr : nrounds key.length = .ok (Spec.rounds key) := by
    unfold nrounds Spec.rounds
    rcases hk with h | h | h <;> rw [h] <;> rfl
  have hsh : key.length >>> 2 = key.length / 4 := Nat.shiftRight_eq_div_pow _ 2
  have hsl : (Spec.rounds key + 1) <<< 2 = 4 * (Spec.rounds key + 1) := by rw [Nat.shiftLeft_eq]; omega
  unfold keysched
  rw [hlow, hnr, Res.bind_ok]
  dsimp only
  rw [hsh, hsl]
  have hr : Spec.rounds key = key.length / 4 + 6 := rfl
  obtain ⟨s1, a1, a2, a3⟩ := loadkey_ok key (key.length / 4) 0 junk hj (by omega) (by omega) rfl
  rw [Nat.zero_add, keywords_eq] at a3
  rw [a1, Res.bind_ok, rdChk_ok (by omega), Res.bind_ok]
  have hlast : (Spec.keyWords key).getLastD 0 = wd (s1[key.length / 4 - 1]'(by omega)) := by
    have hlen : (Spec.keyWords key).length = key.length / 4 := by simp [Spec.keyWords]
    rw [List.getLastD_eq_getLast?, List.getLast?_eq_getElem?, hlen, ← a3, List.getElem?_map, List.getElem?_take_of_lt (by omega),
      List.getElem?_eq_getElem (by omega)]
    rfl
  obtain ⟨s2, b1, b2, b3⟩ := keyloop_ok (key.length / 4) (by omega) (by omega) (4 * (Spec.rounds key + 1) - key.length / 4) s1
    (s1[key.length / 4 - 1]'(by omega)) (key.length / 4) 0 0 (Spec.keyWords key) a2 a3 (Nat.le_refl _) (by omega) hlast
    (Nat.mod_self _).symm (by rw [Nat.div_self (by omega)]) (by omega)
  rw [b1, Res.bind_ok]
  obtain ⟨o, c1, c2, c3⟩ := comploop_ok s2 (Spec.rounds key + 1) 0 x.skey hx (by omega) (by omega) (fun r hr => absurd hr (by omega))
  rw [c1, Res.bind_ok]
  refine ⟨_, rfl, rfl, c2, by omega, by omega, s2.take (4 * (Spec.rounds key + 1)), ?_, by rw [List.length_take]; omega, fun r hr => ?_⟩
  · rw [show 4 * (Spec.rounds key + 1) = key.length / 4 + (4 * (Spec.rounds key + 1) - key.length / 4) by omega]
    exact b3
  · have := c3 r (by omega)
    unfold Holds at this ⊢
    have g : ∀ j, j < 4 → (s2.take (4 * (Spec.rounds key + 1))).getD (4 * r + j) 0 = s2.getD (4 * r + j) 0 := by
      intro j hj
      rw [List.getD_eq_getElem?_getD, List.getD_eq_getElem?_getD, List.getElem?_take_of_lt (by omega)]
    have g0 : (s2.take (4 * (Spec.rounds key + 1))).getD (4 * r) 0 = s2.getD (4 * r) 0 := g 0 (by decide)
    rw [g0, g 1 (by decide), g 2 (by decide), g 3 (by decide)]
    exact this

/-- The expanded keys of a context are the round keys. -/
theorem expanded {x : Ctx} {key : List Byte} (hx : Ready x key) {junk : List (BitVec 64)} (hj : junk.length = 240) :
    ∃ ek, expand junk x.skey 0 ((x.nrounds + 1) * 2) = .ok ek ∧ ∀ r ≤ x.nrounds, RoundAt ek (Spec.schedule key) r := by
  obtain ⟨h1, h2, h3, _, ws, h4, h5, h6⟩ := hx
  obtain ⟨ek, e1, e2, e3⟩ := expand_ok x.skey ((x.nrounds + 1) * 2) 0 junk hj (by omega) (by omega) (fun v hv => absurd hv (by omega))
  refine ⟨ek, e1, fun r hr => ?_⟩
  rw [← h4]
  exact round_at (by omega) (h6 r (by omega)) (e3 _ (by omega)) (e3 _ (by omega)) (by omega)

/-! ## Messages -/

/-- The buffers lie in the memory and are the same or do not meet. -/
def Buffers (mem : List Byte) (mo co n : Nat) : Prop :=
  mo + n ≤ mem.length ∧ co + n ≤ mem.length ∧ (mo = co ∨ mo + n ≤ co ∨ co + n ≤ mo)

theorem toState_take (m : List Byte) : Spec.toState (m.take 16) = Spec.toState m := by
  apply Vector.ext
  intro i hi
  unfold Spec.toState
  rw [Vector.getElem_ofFn, Vector.getElem_ofFn, List.getD_eq_getElem?_getD, List.getD_eq_getElem?_getD, List.getElem?_take_of_lt hi]

/-- A message of `16 n` bytes of which the low bits are `16 k`. -/
theorem blocks_ok {work : Q → Res Q} {F : State → State} (hw : Does work F) (hi : Nat) (hhi : low hi = 0) :
    ∀ (n fuel : Nat) (q : Q) (mem : List Byte) (mo co : Nat),
    n < fuel → 16 * n < 2 ^ 32 → Buffers mem mo co (16 * n + hi) →
    blocks work fuel q mem mo (16 * n + hi) co (16 * n + hi) =
      .ok (put mem co (Spec.eachBlock (fun b => (F (Spec.toState b)).toList) n ((mem.drop mo).take (16 * n))))
  | 0, fuel + 1, q, mem, mo, co, _, _, _ => by
    unfold blocks
    rw [if_neg (by rw [Nat.mul_zero, Nat.zero_add, hhi]; decide), show Spec.eachBlock (fun b => (F (Spec.toState b)).toList) 0 _ = [] from rfl, put_nil]
  | n + 1, fuel + 1, q, mem, mo, co, hf, hn, ⟨b1, b2, b3⟩ => by
    have hlen : 16 ≤ ((mem.drop mo).take (16 * (n + 1) + hi)).length := by rw [List.length_take, List.length_drop]; omega
    have hlen' : 16 ≤ ((mem.drop co).take (16 * (n + 1) + hi)).length := by rw [List.length_take, List.length_drop]; omega
    unfold blocks
    rw [if_pos (by unfold low at hhi ⊢; omega), getwords_ok hlen, Res.bind_ok]
    obtain ⟨q', w', h1, h2⟩ := through_ok hw (getwords_cols ((mem.drop mo).take (16 * (n + 1) + hi))) q
    rw [h1, Res.bind_ok]
    dsimp only
    rw [putwords_ok hlen', Res.bind_ok, cols_bytes h2, if_neg (by omega)]
    generalize hbs : (F (Spec.toState ((mem.drop mo).take (16 * (n + 1) + hi)))).toList = bs
    have hbl : bs.length = 16 := by rw [← hbs, Vector.length_toList]
    have hmem : mem.take co ++ (bs ++ ((mem.drop co).take (16 * (n + 1) + hi)).drop 16) ++ mem.drop (co + (16 * (n + 1) + hi)) = put mem co bs := by
      unfold put
      rw [hbl, List.append_assoc, List.append_assoc, List.append_assoc]
      congr 2
      rw [List.drop_take, List.drop_drop, show 16 * (n + 1) + hi - 16 = 16 * n + hi by omega,
        show mem.drop (co + (16 * (n + 1) + hi)) = (mem.drop (co + 16)).drop (16 * n + hi) by rw [List.drop_drop]; congr 1; omega, List.take_append_drop]
    have hpl : (put mem co bs).length = mem.length := put_length (by omega)
    rw [hmem, show 16 * (n + 1) + hi - 16 = 16 * n + hi by omega,
      blocks_ok hw hi hhi n fuel q' (put mem co bs) (mo + 16) (co + 16) (by omega) (by omega) ⟨by rw [hpl]; omega, by rw [hpl]; omega, by omega⟩,
      view_put (by omega) (by omega), Spec.eachBlock]
    have hfst : (F (Spec.toState (((mem.drop mo).take (16 * (n + 1))).take 16))).toList = bs := by
      rw [← hbs, toState_take, ← toState_take ((mem.drop mo).take (16 * (n + 1) + hi)), ← toState_take ((mem.drop mo).take (16 * (n + 1))),
        List.take_take, List.take_take, Nat.min_eq_left (by omega), Nat.min_eq_left (by omega)]
    rw [hfst, List.drop_take, List.drop_drop, show 16 * (n + 1) - 16 = 16 * n by omega]
    congr 1
    rw [show co + 16 = co + bs.length by omega, put_put]
    rw [eachBlock_length (fun b => Vector.length_toList)]
    omega

theorem crypt_ok {work : Nat → List (BitVec 64) → Q → Res Q} {F : List Word → Nat → State → State}
    (hwork : ∀ ek w nr, 0 < nr → (∀ r ≤ nr, RoundAt ek w r) → Does (work nr ek) (F w nr))
    {x : Ctx} {key : List Byte} (hx : Ready x key) (q : Q) {junk : List (BitVec 64)} (hj : junk.length = 240) {mem : List Byte} {mo co n : Nat}
    (hb : Buffers mem mo co (16 * n)) :
    crypt work x q junk mem mo (16 * n) co (16 * n) =
      .ok (put mem co (Spec.eachBlock (fun b => (F (Spec.schedule key) (Spec.rounds key) (Spec.toState b)).toList) (n % 2 ^ 28)
        ((mem.drop mo).take (16 * (n % 2 ^ 28))))) := by
  obtain ⟨ek, e1, e2⟩ := expanded hx hj
  have hd := hwork ek (Spec.schedule key) x.nrounds (by rw [hx.1]; exact hx.2.2.2.1) e2
  rw [hx.1] at hd e1
  have hsplit : 16 * n = 16 * (n % 2 ^ 28) + 2 ^ 32 * (n / 2 ^ 28) := by omega
  unfold crypt
  rw [if_pos ⟨by unfold low; omega, rfl⟩, hx.1, e1, Res.bind_ok]
  have := blocks_ok hd (2 ^ 32 * (n / 2 ^ 28)) (Nat.mul_mod_right _ _) (n % 2 ^ 28) (16 * n / 16 + 1) q mem mo co (by omega) (by omega)
    (by rw [← hsplit]; exact hb)
  rw [← hsplit] at this
  exact this

/-! ## Property theorems -/

/-- **C93, keys.** `aeskeysched` takes exactly the keys of 16, 24 and 32 bytes, whatever the context and the
stack hold; any other key of less than 4 GiB stops the program. -/
theorem keysched_sizes (x : Ctx) (junk : List (BitVec 32)) (key : List Byte) (hx : x.skey.length = 30) (hj : junk.length = 60)
    (hl : key.length < 2 ^ 32) : (key.length = 16 ∨ key.length = 24 ∨ key.length = 32 → ∃ x', keysched x junk key = .ok x') ∧
    (¬ (key.length = 16 ∨ key.length = 24 ∨ key.length = 32) → keysched x junk key = .abort) := by
  constructor
  · intro h
    obtain ⟨x', h1, _⟩ := keysched_ok h hx hj
    exact ⟨x', h1⟩
  · intro h
    unfold keysched nrounds
    rw [show low key.length = key.length from Nat.mod_eq_of_lt hl, if_neg (by omega), if_neg (by omega), if_neg (by omega)]
    rfl

/-- The full claim: the destination receives every block of the message encrypted, and nothing else changes. -/
def EncryptClaim : Prop := ∀ (x x' : Ctx) (jk : List (BitVec 32)) (key : List Byte) (q : Q) (junk : List (BitVec 64)) (mem : List Byte) (mo co n : Nat),
  x.skey.length = 30 → jk.length = 60 → (key.length = 16 ∨ key.length = 24 ∨ key.length = 32) → keysched x jk key = .ok x' → junk.length = 240 →
  Buffers mem mo co (16 * n) →
  encrypt x' q junk mem mo (16 * n) co (16 * n) =
    .ok (mem.take co ++ Spec.eachBlock (Spec.encryptBlock key) n ((mem.drop mo).take (16 * n)) ++ mem.drop (co + 16 * n))

/-- **C93, encryption.** After `aeskeysched` with a key of a right size, for every message of `n` blocks and
a destination of the same length that is the message or does not meet it, `aesencrypt` returns; as many bytes of the
destination as the low 32 bits of the length say hold the blocks of the message encrypted as FIPS 197 has it, and
every other byte of the memory is as it was.  What the context, the arrays on the stack and the destination held
before does not matter. -/
theorem encrypt_low {x x' : Ctx} {jk : List (BitVec 32)} {key : List Byte} (hx : x.skey.length = 30) (hjk : jk.length = 60)
    (hk : key.length = 16 ∨ key.length = 24 ∨ key.length = 32) (hs : keysched x jk key = .ok x')
    (q : Q) {junk : List (BitVec 64)} (hj : junk.length = 240) {mem : List Byte} {mo co n : Nat} (hb : Buffers mem mo co (16 * n)) :
    encrypt x' q junk mem mo (16 * n) co (16 * n) =
      .ok (mem.take co ++ Spec.eachBlock (Spec.encryptBlock key) (n % 2 ^ 28) ((mem.drop mo).take (16 * (n % 2 ^ 28))) ++ mem.drop (co + 16 * (n % 2 ^ 28))) := by
  obtain ⟨y, h1, h2⟩ := keysched_ok hk hx hjk
  rw [hs] at h1
  cases h1
  unfold encrypt
  rw [crypt_ok (F := Spec.cipher) (fun ek w nr h0 hr => encrypt64_ok h0 hr) h2 q hj hb]
  unfold put
  rw [eachBlock_length (fun b => Vector.length_toList)]
  rfl

/-- **C93, encryption, what holds.** For messages of less than 4 GiB this is the whole message.  What is missing from
`EncryptClaim` is the rest of longer ones. -/
theorem encrypt_partial {x x' : Ctx} {jk : List (BitVec 32)} {key : List Byte} (hx : x.skey.length = 30) (hjk : jk.length = 60)
    (hk : key.length = 16 ∨ key.length = 24 ∨ key.length = 32) (hs : keysched x jk key = .ok x')
    (q : Q) {junk : List (BitVec 64)} (hj : junk.length = 240) {mem : List Byte} {mo co n : Nat} (hb : Buffers mem mo co (16 * n))
    (hn : 16 * n < 2 ^ 32) :
    encrypt x' q junk mem mo (16 * n) co (16 * n) =
      .ok (mem.take co ++ Spec.eachBlock (Spec.encryptBlock key) n ((mem.drop mo).take (16 * n)) ++ mem.drop (co + 16 * n)) := by
  have := encrypt_low hx hjk hk hs q hj hb
  rwa [Nat.mod_eq_of_lt (by omega : n < 2 ^ 28)] at this

/-- **C93, decryption.** After `aeskeysched` with a key of a right size, for every message of `n` blocks and
a destination of the same length that is the message or does not meet it, `aesdecrypt` returns; as many bytes of the
destination as the low 32 bits of the length say hold the blocks of the message decrypted as FIPS 197 has it, and
every other byte of the memory is as it was.  What the context, the arrays on the stack and the destination held
before does not matter. -/
theorem decrypt_low {x x' : Ctx} {jk : List (BitVec 32)} {key : List Byte} (hx : x.skey.length = 30) (hjk : jk.length = 60)
    (hk : key.length = 16 ∨ key.length = 24 ∨ key.length = 32) (hs : keysched x jk key = .ok x')
    (q : Q) {junk : List (BitVec 64)} (hj : junk.length = 240) {mem : List Byte} {mo co n : Nat} (hb : Buffers mem co mo (16 * n)) :
    decrypt x' q junk mem co (16 * n) mo (16 * n) =
      .ok (mem.take mo ++ Spec.eachBlock (Spec.decryptBlock key) (n % 2 ^ 28) ((mem.drop co).take (16 * (n % 2 ^ 28))) ++ mem.drop (mo + 16 * (n % 2 ^ 28))) := by
  obtain ⟨y, h1, h2⟩ := keysched_ok hk hx hjk
  rw [hs] at h1
  cases h1
  unfold decrypt
  rw [crypt_ok (F := Spec.invCipher) (fun ek w nr _ hr => decrypt64_ok hr) h2 q hj hb]
  unfold put
  rw [eachBlock_length (fun b => Vector.length_toList)]
  rfl

/-- **C93, decryption, what holds.** For messages of less than 4 GiB this is the whole message.  What is missing from
`EncryptClaim` is the rest of longer ones. -/
theorem decrypt_partial {x x' : Ctx} {jk : List (BitVec 32)} {key : List Byte} (hx : x.skey.length = 30) (hjk : jk.length = 60)
    (hk : key.length = 16 ∨ key.length = 24 ∨ key.length = 32) (hs : keysched x jk key = .ok x')
    (q : Q) {junk : List (BitVec 64)} (hj : junk.length = 240) {mem : List Byte} {mo co n : Nat} (hb : Buffers mem co mo (16 * n))
    (hn : 16 * n < 2 ^ 32) :
    decrypt x' q junk mem co (16 * n) mo (16 * n) =
      .ok (mem.take mo ++ Spec.eachBlock (Spec.decryptBlock key) n ((mem.drop co).take (16 * n)) ++ mem.drop (mo + 16 * n)) := by
  have := decrypt_low hx hjk hk hs q hj hb
  rwa [Nat.mod_eq_of_lt (by omega : n < 2 ^ 28)] at this

/-- **C93, violated.** A message of 4 GiB is not encrypted: `while m.len != 0` (aes.myr:113) ends at once, since
`m.len` is an `int` of 32 bits there. Here the message is zeros, encrypted in place with the key of zeros. -/
theorem encrypt_violated : ¬ EncryptClaim := by
  intro h
  obtain ⟨x', hs⟩ : ∃ x', keysched ⟨0, List.replicate 30 0⟩ (List.replicate 60 0) (List.replicate 16 0) = .ok x' := by
    obtain ⟨x', h1, _⟩ := keysched_ok (x := ⟨0, List.replicate 30 0⟩) (junk := List.replicate 60 0) (key := List.replicate 16 0)
      (.inl rfl) List.length_replicate List.length_replicate
    exact ⟨x', h1⟩
  have hb : Buffers (List.replicate (16 * 2 ^ 28) (0 : Byte)) 0 0 (16 * 2 ^ 28) :=
    ⟨by rw [List.length_replicate]; omega, by rw [List.length_replicate]; omega, .inl rfl⟩
  have h1 := h _ _ _ _ ⟨0, 0, 0, 0, 0, 0, 0, 0⟩ (List.replicate 240 0) _ _ _ _ List.length_replicate List.length_replicate (.inl rfl) hs List.length_replicate hb
  rw [encrypt_low List.length_replicate List.length_replicate (.inl rfl) hs _ List.length_replicate hb, Nat.mod_self] at h1
  have h2 := Res.ok.inj h1
  rw [show Spec.eachBlock _ 0 _ = [] from rfl, Nat.mul_zero, Nat.add_zero, List.take_zero, List.drop_zero, List.nil_append, List.nil_append,
    List.nil_append, Nat.zero_add] at h2
  have h3 := congrArg (List.take 16) h2
  have el : ∀ b, (Spec.encryptBlock (List.replicate 16 0) b).length = 16 := fun b => Vector.length_toList
  have key : ∀ n m, 0 < n → (Spec.eachBlock (Spec.encryptBlock (List.replicate 16 0)) n m).take 16 = Spec.encryptBlock (List.replicate 16 0) (m.take 16) := by
    intro n m hn
    obtain ⟨n, rfl⟩ : ∃ k, n = k + 1 := ⟨n - 1, by omega⟩
    rw [Spec.eachBlock, List.take_left' (el _)]
  rw [List.take_append_of_le_length (by rw [eachBlock_length el]; omega), key _ _ (by decide), List.take_take,
    Nat.min_eq_left (by omega), List.take_replicate, Nat.min_eq_left (by omega)] at h3
  exact absurd h3 (by decide +kernel)

/-- **C93, lengths.** Messages that are not whole blocks, and destinations of another length, stop the program
(all of less than 4 GiB). -/
theorem lengths_refused (x : Ctx) (q : Q) (junk : List (BitVec 64)) (mem : List Byte) (mo mn co cn : Nat) (hm : mn < 2 ^ 32) (hc : cn < 2 ^ 32)
    (h : ¬ (mn % 16 = 0 ∧ mn = cn)) :
    encrypt x q junk mem mo mn co cn = .abort ∧ decrypt x q junk mem mo mn co cn = .abort := by
  unfold encrypt decrypt crypt low
  rw [Nat.mod_eq_of_lt hm, Nat.mod_eq_of_lt hc, if_neg h, if_neg h]
  exact ⟨rfl, rfl⟩

/-- **C93, round trip.** What was encrypted and then decrypted with the same key is the message, wherever the
three buffers are, as long as the two of each call are the same or apart (for messages of less than 4 GiB). -/
theorem decrypt_encrypt {x x' : Ctx} {jk : List (BitVec 32)} {key : List Byte} (hx : x.skey.length = 30) (hjk : jk.length = 60)
    (hk : key.length = 16 ∨ key.length = 24 ∨ key.length = 32) (hs : keysched x jk key = .ok x')
    (q q' : Q) {junk junk' : List (BitVec 64)} (hj : junk.length = 240) (hj' : junk'.length = 240) {mem : List Byte} {mo co po n : Nat}
    (hb : Buffers mem mo co (16 * n)) (hb' : Buffers mem co po (16 * n)) (hn : 16 * n < 2 ^ 32) :
    ∃ mem1 mem2, encrypt x' q junk mem mo (16 * n) co (16 * n) = .ok mem1 ∧
      decrypt x' q' junk' mem1 co (16 * n) po (16 * n) = .ok mem2 ∧
      (mem2.drop po).take (16 * n) = (mem.drop mo).take (16 * n) := by
  have he := encrypt_partial hx hjk hk hs q hj hb hn
  have vl : ((mem.drop mo).take (16 * n)).length = 16 * n := by rw [List.length_take, List.length_drop]; have := hb.1; omega
  have self : ∀ (mem bs : List Byte) (o : Nat), o + 16 * n ≤ mem.length → bs.length = 16 * n →
      (mem.take o ++ bs ++ mem.drop (o + 16 * n)).length = mem.length ∧ ((mem.take o ++ bs ++ mem.drop (o + 16 * n)).drop o).take (16 * n) = bs := by
    intro mem bs o h1 h2
    constructor
    · simp; omega
    · rw [List.append_assoc, List.drop_left' (by rw [List.length_take]; omega), List.take_left' h2]
  have el := eachBlock_length (f := Spec.encryptBlock key) (fun b => Vector.length_toList) n ((mem.drop mo).take (16 * n))
  obtain ⟨l1, v1⟩ := self mem _ co hb.2.1 el
  have hd := decrypt_partial hx hjk hk hs q' hj' (mem := mem.take co ++ Spec.eachBlock (Spec.encryptBlock key) n ((mem.drop mo).take (16 * n)) ++
    mem.drop (co + 16 * n)) (mo := po) (co := co) (n := n) ⟨by rw [l1]; exact hb'.1, by rw [l1]; exact hb'.2.1, hb'.2.2⟩ hn
  rw [v1, eachBlock_eachBlock (f := Spec.encryptBlock key) (g := Spec.decryptBlock key) (fun b => Vector.length_toList) (fun b hb => decryptBlock_encryptBlock key hb) n _ vl] at hd
  exact ⟨_, _, he, hd, (self _ _ po (by rw [l1]; exact hb'.2.1) vl).2⟩

/-! ## Concrete cases -/

/-- A key of the standard (appendix C.1). -/
def key128 : List Byte := (List.range 16).map (BitVec.ofNat 8)
/-- A block of the standard (appendix C.1). -/
def block : List Byte := (List.range 16).map fun i => BitVec.ofNat 8 (17 * i)

/-- The specification against the vectors of appendix C: C.1, C.2 and C.3. -/
example : Spec.encryptBlock key128 block =
    [0x69, 0xc4, 0xe0, 0xd8, 0x6a, 0x7b, 0x04, 0x30, 0xd8, 0xcd, 0xb7, 0x80, 0x70, 0xb4, 0xc5, 0x5a] := by decide +kernel
example : Spec.encryptBlock ((List.range 24).map (BitVec.ofNat 8)) block =
    [0xdd, 0xa9, 0x7c, 0xa4, 0x86, 0x4c, 0xdf, 0xe0, 0x6e, 0xaf, 0x70, 0xa0, 0xec, 0x0d, 0x71, 0x91] := by decide +kernel
example : Spec.encryptBlock ((List.range 32).map (BitVec.ofNat 8)) block =
    [0x8e, 0xa2, 0xb7, 0xca, 0x51, 0x67, 0x45, 0xbf, 0xea, 0xfc, 0x49, 0x90, 0x4b, 0x49, 0x60, 0x89] := by decide +kernel

/-- Two blocks in place, in a memory with bytes around them, encrypted and decrypted with a key of 32 bytes. -/
example : ∃ x', keysched ⟨7, List.replicate 30 5⟩ (List.replicate 60 9) (key128 ++ block) = .ok x' ∧
    ∃ mem1 mem2, encrypt x' ⟨1, 2, 3, 4, 5, 6, 7, 8⟩ (List.replicate 240 3) ([1, 2] ++ block ++ key128 ++ [3]) 2 (16 * 2) 2 (16 * 2) = .ok mem1 ∧
      decrypt x' ⟨1, 2, 3, 4, 5, 6, 7, 8⟩ (List.replicate 240 4) mem1 2 (16 * 2) 2 (16 * 2) = .ok mem2 ∧
      (mem2.drop 2).take (16 * 2) = block ++ key128 := by
  obtain ⟨x', h⟩ := (keysched_sizes ⟨7, List.replicate 30 5⟩ (List.replicate 60 9) (key128 ++ block) rfl rfl (by decide)).1 (.inr (.inr rfl))
  exact ⟨x', h, decrypt_encrypt rfl rfl (.inr (.inr rfl)) h _ _ rfl rfl (n := 2) ⟨by decide, by decide, .inl rfl⟩ ⟨by decide, by decide, .inl rfl⟩ (by decide)⟩

end Verif.Aes
