import Verif.Crypto.Sha2
import Verif.Crypto.Keccak

/-! Lemmas: the hashes as streaming implementations, and HMAC over them. -/

namespace Verif.Crypto

open Spec (chain pad)

/-- `H` computes `S` in pieces, for messages of lengths in `Bound`; `I` says
which messages a state stands for. -/
structure Computes (H : Hash) (S : List Byte → List Byte) (Bound Pc : Nat → Prop) (I : St H.X → List Byte → Prop) : Prop where
  mono : ∀ a b, a ≤ b → Bound b → Bound a
  size : ∀ m, (S m).length = H.Hashsz
  init : ∀ st, st.tail.length = H.Blocksz → I (H.hinit st) []
  tail : ∀ st m, I st m → st.tail.length = H.Blocksz
  add : ∀ st m d, I st m → Bound (m ++ d).length → Pc d.length → ∃ st', H.hadd st d = .ok st' ∧ I st' (m ++ d)
  fin : ∀ st m r, I st m → Bound m.length → H.Hashsz ≤ r.length →
    ∃ st', H.hfin st r = .ok (st', S m ++ r.drop H.Hashsz) ∧ st'.tail.length = H.Blocksz

section
variable {H : Hash} {S : List Byte → List Byte} {Bound Pc : Nat → Prop} {I : St H.X → List Byte → Prop}

theorem adds_ok (hc : Computes H S Bound Pc I) : ∀ (ds : List (List Byte)) (st : St H.X) (m : List Byte), I st m → Bound (m ++ ds.flatten).length →
    (∀ d ∈ ds, Pc d.length) → ∃ st', H.adds st ds = .ok st' ∧ I st' (m ++ ds.flatten)
  | [], st, m, h, _, _ => ⟨st, rfl, by simpa using h⟩
  | d :: ds, st, m, h, hb, hp => by
    rw [List.flatten_cons, ← List.append_assoc] at hb ⊢
    obtain ⟨st1, h1, h2⟩ := hc.add st m d h (hc.mono _ _ (by rw [List.length_append (bs := ds.flatten)]; omega) hb)
      (hp d (List.mem_cons_self ..))
    obtain ⟨st2, h3, h4⟩ := adds_ok hc ds st1 (m ++ d) h2 hb (fun e he => hp e (List.mem_cons_of_mem _ he))
    exact ⟨st2, by rw [Hash.adds, h1, Res.bind_ok, h3], h4⟩

theorem digest_ok (hc : Computes H S Bound Pc I) (x0 : H.X) (l0 : BitVec 64) (t : List Byte) (ds : List (List Byte)) (r : List Byte)
    (ht : t.length = H.Blocksz) (hr : H.Hashsz ≤ r.length) (hb : Bound ds.flatten.length)
    (hp : ∀ d ∈ ds, Pc d.length) : H.digest x0 l0 t ds r = .ok (S ds.flatten ++ r.drop H.Hashsz) := by
  obtain ⟨st, h1, h2⟩ := adds_ok hc ds _ [] (hc.init ⟨x0, t, l0⟩ ht) (by simpa using hb) hp
  obtain ⟨st2, h3, _⟩ := hc.fin st _ r h2 (by simpa using hb) hr
  unfold Hash.digest
  rw [h1, Res.bind_ok, h3, Res.bind_ok]
  simp

theorem xorKey_ok (v : Byte) : ∀ (n i : Nat) (k : List Byte), i + n ≤ k.length →
    xorKey k v i n = .ok (((k.drop i).take n).map (· ^^^ v))
  | 0, i, k, _ => by simp [xorKey]
  | n + 1, i, k, h => by
    unfold xorKey
    rw [rdChk_ok (by omega), Res.bind_ok, xorKey_ok v n (i + 1) k (by omega), Res.bind_ok,
      List.drop_eq_getElem_cons (l := k) (i := i) (by omega), List.take_succ_cons, List.map_cons]

theorem hmacKey_ok (hc : Computes H S Bound Pc I) (hHB : H.Hashsz ≤ H.Blocksz) {inner : St H.X} {k0 key : List Byte}
    (hi : inner.tail.length = H.Blocksz) (hk0 : H.Blocksz ≤ k0.length) (hb : Bound key.length) (hp : Pc key.length) :
    ∃ st k, hmacKey H inner k0 key = .ok (st, k) ∧ st.tail.length = H.Blocksz ∧ H.Blocksz ≤ k.length ∧
      k.take H.Blocksz = Spec.hmacKey H.Blocksz S key := by
  unfold hmacKey
  rw [slcpAt_ok (Nat.zero_le _) hk0 (by simp), Res.bind_ok, List.take_zero, List.nil_append]
  unfold Spec.hmacKey
  by_cases h : H.Blocksz < key.length
  · rw [if_pos h]
    dsimp only
    rw [if_pos h]
    obtain ⟨st1, h1, h2⟩ := hc.add _ _ key (hc.init inner hi) (by simpa using hb) hp
    rw [h1, Res.bind_ok, slice_prefix (by simp; omega), Res.bind_ok]
    have hd : ((List.replicate H.Blocksz 0#8 ++ k0.drop H.Blocksz).take H.Hashsz).length = H.Hashsz := by
      rw [List.length_take, List.length_append, List.length_replicate]; omega
    obtain ⟨st2, h3, h4⟩ := hc.fin st1 _ _ h2 (by simpa using hb) (Nat.le_of_eq hd.symm)
    rw [h3, Res.bind_ok]
    refine ⟨_, _, rfl, h4, ?_, ?_⟩
    · dsimp only
      simp only [List.length_append, List.length_drop, List.length_replicate, hc.size]; omega
    · dsimp only
      rw [List.drop_eq_nil_of_le (Nat.le_of_eq hd), List.append_nil, List.nil_append,
        List.drop_append_of_le_length (by rw [List.length_replicate]; omega), List.drop_replicate, ← List.append_assoc,
        List.take_left' (by rw [List.length_append, List.length_replicate, hc.size]; omega), hc.size]
  · rw [if_neg h]
    dsimp only
    rw [if_neg h, slcpAt_ok (Nat.zero_le _) (by simp; omega) (by simp), Res.bind_ok]
    refine ⟨_, _, rfl, hi, ?_, ?_⟩
    · simp only [List.length_append, List.length_drop, List.length_replicate, List.length_take]; omega
    · rw [List.take_zero, List.nil_append, List.drop_append_of_le_length (by rw [List.length_replicate]; omega), List.drop_replicate,
        ← List.append_assoc, List.take_left' (by rw [List.length_append, List.length_replicate]; omega)]

theorem hmacadds_ok (hc : Computes H S Bound Pc I) : ∀ (ds : List (List Byte)) (h : Hmac H) (m : List Byte), I h.inner m → Bound (m ++ ds.flatten).length →
    (∀ d ∈ ds, Pc d.length) → ∃ st', hmacadds H h ds = .ok ⟨st', h.outer⟩ ∧ I st' (m ++ ds.flatten)
  | [], h, m, hi, _, _ => ⟨h.inner, rfl, by simpa using hi⟩
  | d :: ds, h, m, hi, hb, hp => by
    rw [List.flatten_cons, ← List.append_assoc] at hb ⊢
    obtain ⟨st1, h1, h2⟩ := hc.add h.inner m d hi (hc.mono _ _ (by rw [List.length_append (bs := ds.flatten)]; omega) hb)
      (hp d (List.mem_cons_self ..))
    obtain ⟨st2, h3, h4⟩ := hmacadds_ok hc ds ⟨st1, h.outer⟩ (m ++ d) h2 hb (fun e he => hp e (List.mem_cons_of_mem _ he))
    refine ⟨st2, ?_, h4⟩
    rw [hmacadds, hmacadd, h1, Res.bind_ok, Res.bind_ok, h3]

theorem hmac_ok (hc : Computes H S Bound Pc I) (hHB : H.Hashsz ≤ H.Blocksz) (h : Hmac H) (k0 key : List Byte) (ds : List (List Byte)) (r : List Byte)
    (h1 : h.inner.tail.length = H.Blocksz) (h2 : h.outer.tail.length = H.Blocksz) (hk0 : H.Blocksz ≤ k0.length)
    (hr : r.length = H.Hashsz) (hb1 : Bound key.length) (hb2 : Bound (H.Blocksz + ds.flatten.length))
    (hb3 : Bound (H.Blocksz + H.Hashsz)) (hp1 : Pc key.length) (hp2 : ∀ d ∈ ds, Pc d.length) (hp3 : Pc H.Blocksz)
    (hp4 : Pc H.Hashsz) :
    hmac H h k0 key ds r = .ok (Spec.hmac H.Blocksz S key ds.flatten) := by
  obtain ⟨st0, k, e1, e2, e3, e4⟩ := hmacKey_ok hc hHB h1 hk0 hb1 hp1
  have hkl : (Spec.hmacKey H.Blocksz S key).length = H.Blocksz := by rw [← e4, List.length_take]; omega
  have hbB : Bound H.Blocksz := hc.mono _ _ (by omega) hb3
  unfold hmac hmacinit
  rw [e1, Res.bind_ok]
  dsimp only
  rw [xorKey_ok _ _ _ _ (by omega), Res.bind_ok, xorKey_ok _ _ _ _ (by omega), Res.bind_ok, List.drop_zero, e4]
  obtain ⟨st1, f1, f2⟩ := hc.add _ _ ((Spec.hmacKey H.Blocksz S key).map (· ^^^ 0x36#8)) (hc.init st0 e2)
    (by rw [List.nil_append, List.length_map, hkl]; exact hbB) (by rw [List.length_map, hkl]; exact hp3)
  obtain ⟨st2, f3, f4⟩ := hc.add _ _ ((Spec.hmacKey H.Blocksz S key).map (· ^^^ 0x5c#8)) (hc.init h.outer h2)
    (by rw [List.nil_append, List.length_map, hkl]; exact hbB) (by rw [List.length_map, hkl]; exact hp3)
  rw [f1, Res.bind_ok, f3, Res.bind_ok, Res.bind_ok]
  rw [List.nil_append] at f2 f4
  have hlen : ((Spec.hmacKey H.Blocksz S key).map (· ^^^ 0x36#8) ++ ds.flatten).length = H.Blocksz + ds.flatten.length := by
    rw [List.length_append, List.length_map, hkl]
  obtain ⟨st3, f5, f6⟩ := hmacadds_ok hc ds ⟨st1, st2⟩ _ f2 (by rw [hlen]; exact hb2) hp2
  rw [f5, Res.bind_ok]
  unfold hmacfin
  obtain ⟨st4, f7, _⟩ := hc.fin st3 _ r f6 (by rw [hlen]; exact hb2) (by omega)
  rw [f7, Res.bind_ok, List.drop_eq_nil_of_le (by omega), List.append_nil]
  dsimp only
  obtain ⟨st5, f8, f9⟩ := hc.add st2 _ (S ((Spec.hmacKey H.Blocksz S key).map (· ^^^ 0x36#8) ++ ds.flatten)) f4
    (by rw [List.length_append, List.length_map, hkl, hc.size]; exact hb3) (by rw [hc.size]; exact hp4)
  rw [f8, Res.bind_ok]
  obtain ⟨st6, f10, _⟩ := hc.fin st5 _ (S ((Spec.hmacKey H.Blocksz S key).map (· ^^^ 0x36#8) ++ ds.flatten)) f9
    (by rw [List.length_append, List.length_map, hkl, hc.size]; exact hb3) (by rw [hc.size])
  rw [f10, Res.bind_ok, List.drop_eq_nil_of_le (by rw [hc.size]), List.append_nil]
  rfl

end

/-! ## The instances -/

/-- No bound. -/
abbrev Any : Nat → Prop := fun _ => True

/-- Below a bound. -/
abbrev Below (n : Nat) : Nat → Prop := fun k => k < n

theorem inv_init {X Y : Type} {B : Nat} (ab : X → Y) (f : Y → List Byte → Y) (iv : Y) {st : St X} (h1 : st.tail.length = B)
    (h2 : st.msglen = 0#64) (h3 : ab st.x = iv) : Inv B ab f iv st [] := by
  refine ⟨h1, h2, ?_, ?_⟩
  · rw [h3]; unfold chain; simp
  · simp

theorem md5_computes : Computes md5 Spec.md5 Any (Piece false)
    (Inv 64 ab Spec.md5Block ![0x67452301, 0xefcdab89, 0x98badcfe, 0x10325476]) where
  mono _ _ _ h := h
  size m := by
    simp only [Spec.md5, Spec.le, List.ofFn_succ, List.ofFn_zero, List.flatMap_cons, List.flatMap_nil, List.length_append, List.length_map,
      List.length_range, List.length_nil]
    rfl
  init st h := inv_init ab _ _ h rfl (by funext j; revert j; exact forall4 rfl rfl rfl rfl)
  tail st m h := h.1
  add st m d h _ hp := hadd_ok (by decide) (by decide) md5_steps _ h (counts_dvd (by decide) _) (counts_dvd (by decide) _) hp
  fin st m r h _ hr := by
    obtain ⟨st', h1, h2, h3⟩ := finish_ok (L := 8) (by decide) (by decide) (by decide) md5_steps _ h (counts_dvd (by decide) _)
      (ks := [0, 8, 16, 24, 32, 40, 48, 56]) rfl (lenLe_eq m.length)
    refine ⟨st', ?_, h2⟩
    show (finish 64 8 lenLe md5Step st >>= fun st => putBytes st.x outMd5 r >>= fun r => Res.ok (st, r)) = _
    rw [show lenLe = idx (64 - 8) [0, 8, 16, 24, 32, 40, 48, 56] from rfl, h1, Res.bind_ok]
    have e : outMd5 = idx3 0 [(0, 0), (0, 8), (0, 16), (0, 24), (1, 0), (1, 8), (1, 16), (1, 24), (2, 0), (2, 8), (2, 16), (2, 24),
      (3, 0), (3, 8), (3, 16), (3, 24)] := rfl
    rw [e, putBytes_all _ _ _ (by exact hr), Res.bind_ok]
    congr 2
    unfold Spec.md5
    rw [← h3]
    congr 1
    show [0, 8, 16, 24].map (byteAt (ab st'.x 0)) ++ ([0, 8, 16, 24].map (byteAt (ab st'.x 1)) ++ ([0, 8, 16, 24].map (byteAt (ab st'.x 2)) ++
      ([0, 8, 16, 24].map (byteAt (ab st'.x 3)) ++ []))) = _
    rw [le4, le4, le4, le4]
    rfl

theorem sha1_computes : Computes sha1 Spec.sha1 Any (Piece false)
    (Inv 64 ab Spec.sha1Block ![0x67452301, 0xefcdab89, 0x98badcfe, 0x10325476, 0xc3d2e1f0]) where
  mono _ _ _ h := h
  size m := by
    simp only [Spec.sha1, Spec.be, List.ofFn_succ, List.ofFn_zero, List.flatMap_cons, List.flatMap_nil, List.length_append, List.length_map,
      List.length_range, List.length_nil]
    rfl
  init st h := inv_init ab _ _ h rfl (by funext j; revert j; exact forall5 rfl rfl rfl rfl rfl)
  tail st m h := h.1
  add st m d h _ hp := hadd_ok (by decide) (by decide) sha1_steps _ h (counts_dvd (by decide) _) (counts_dvd (by decide) _) hp
  fin st m r h _ hr := by
    obtain ⟨st', h1, h2, h3⟩ := finish_ok (L := 8) (by decide) (by decide) (by decide) sha1_steps _ h (counts_dvd (by decide) _)
      (ks := [56, 48, 40, 32, 24, 16, 8, 0]) rfl (lenBe_eq m.length)
    refine ⟨st', ?_, h2⟩
    show (finish 64 8 lenBe sha1Step st >>= fun st => putBytes st.x outSha1 r >>= fun r => Res.ok (st, r)) = _
    rw [show lenBe = idx (64 - 8) [56, 48, 40, 32, 24, 16, 8, 0] from rfl, h1, Res.bind_ok]
    have e : outSha1 = idx3 0 [(0, 24), (0, 16), (0, 8), (0, 0), (1, 24), (1, 16), (1, 8), (1, 0), (2, 24), (2, 16), (2, 8), (2, 0),
      (3, 24), (3, 16), (3, 8), (3, 0), (4, 24), (4, 16), (4, 8), (4, 0)] := rfl
    rw [e, putBytes_all _ _ _ (by exact hr), Res.bind_ok]
    congr 2
    unfold Spec.sha1
    rw [← h3]
    congr 1
    show [24, 16, 8, 0].map (byteAt (ab st'.x 0)) ++ ([24, 16, 8, 0].map (byteAt (ab st'.x 1)) ++ ([24, 16, 8, 0].map (byteAt (ab st'.x 2)) ++
      ([24, 16, 8, 0].map (byteAt (ab st'.x 3)) ++ ([24, 16, 8, 0].map (byteAt (ab st'.x 4)) ++ [])))) = _
    rw [be4, be4, be4, be4, be4]
    rfl

theorem be_length (n v : Nat) : (Spec.be n v).length = n := by
  unfold Spec.be; rw [List.length_map, List.length_range]

theorem le_length (n v : Nat) : (Spec.le n v).length = n := by
  unfold Spec.le; rw [List.length_map, List.length_range]

theorem words8_length {w : Nat} (g : Fin 8 → BitVec w) (n : Nat) (e : Nat → Nat → List Byte) (he : ∀ v, (e n v).length = n) :
    ((List.ofFn g).flatMap fun w => e n w.toNat).length = 8 * n := by
  simp only [List.ofFn_succ, List.ofFn_zero, List.flatMap_cons, List.flatMap_nil, List.length_append, List.length_nil, he]
  omega

theorem iv256_eq : ∀ j : Fin 8, get #v[0x6a09e667, 0xbb67ae85, 0x3c6ef372, 0xa54ff53a, 0x510e527f, 0x9b05688c, 0x1f83d9ab, 0x5be0cd19] j =
    Spec.iv 32 j := by decide +kernel

theorem iv224_eq : ∀ j : Fin 8, get #v[0xc1059ed8, 0x367cd507, 0x3070dd17, 0xf70e5939, 0xffc00b31, 0x68581511, 0x64f98fa7, 0xbefa4fa4] j =
    Spec.iv224 j := by decide +kernel

theorem iv512_eq : ∀ j : Fin 8, get #v[0x6a09e667f3bcc908, 0xbb67ae8584caa73b, 0x3c6ef372fe94f82b, 0xa54ff53a5f1d36f1,
           0x510e527fade682d1, 0x9b05688c2b3e6c1f, 0x1f83d9abfb41bd6b, 0x5be0cd19137e2179] j = Spec.iv 64 j := by decide +kernel

theorem iv384_eq : ∀ j : Fin 8, get #v[0xCBBB9D5DC1059ED8, 0x629A292A367CD507, 0x9159015A3070DD17, 0x152FECD8F70E5939,
           0x67332667FFC00B31, 0x8EB44A8768581511, 0xDB0C2E0D64F98FA7, 0x47B5481DBEFA4FA4] j = Spec.iv384 j := by decide +kernel

theorem unBe_idx : unBe.map (fun p => ((p.1, 0, p.2) : Nat × Fin 1 × Nat)) = idx3 0 ([24, 16, 8, 0].map fun k => (0, k)) := rfl

theorem unBe64_idx : unBe64.map (fun p => ((p.1, 0, p.2) : Nat × Fin 1 × Nat)) = idx3 0 ([56, 48, 40, 32, 24, 16, 8, 0].map fun k => (0, k)) := rfl

theorem sha256_computes : Computes sha256 Spec.sha256 Any (Piece false) (Inv 64 ab (Spec.sha2Block Spec.f256) (Spec.iv 32)) where
  mono _ _ _ h := h
  size m := words8_length _ 4 Spec.be (be_length 4)
  init st h := inv_init ab _ _ h rfl (by funext j; exact iv256_eq j)
  tail st m h := h.1
  add st m d h _ hp := hadd_ok (by decide) (by decide) sha256_steps _ h (counts_dvd (by decide) _) (counts_dvd (by decide) _) hp
  fin st m r h _ hr := by
    obtain ⟨st', h1, h2, h3⟩ := finish_ok (L := 8) (by decide) (by decide) (by decide) sha256_steps _ h (counts_dvd (by decide) _)
      (ks := [56, 48, 40, 32, 24, 16, 8, 0]) rfl (lenBe_eq m.length)
    refine ⟨st', ?_, h2⟩
    show (finish 64 8 lenBe sha256Step st >>= fun st => packAll 4 unBe st.x [0, 1, 2, 3, 4, 5, 6, 7] r >>= fun r => Res.ok (st, r)) = _
    rw [show lenBe = idx (64 - 8) [56, 48, 40, 32, 24, 16, 8, 0] from rfl, h1, Res.bind_ok,
      packAll_all (n := 4) unBe_idx rfl _ _ _ (by decide) (by exact hr), Res.bind_ok]
    congr 2
    unfold Spec.sha256
    rw [← h3]
    simp only [be4]
    rfl

theorem sha224_computes : Computes sha224 Spec.sha224 Any (Piece false) (Inv 64 ab (Spec.sha2Block Spec.f256) Spec.iv224) where
  mono _ _ _ h := h
  size m := by
    unfold Spec.sha224
    rw [List.length_take, words8_length _ 4 Spec.be (be_length 4)]; rfl
  init st h := inv_init ab _ _ h rfl (by funext j; exact iv224_eq j)
  tail st m h := h.1
  add st m d h _ hp := hadd_ok (by decide) (by decide) sha256_steps _ h (counts_dvd (by decide) _) (counts_dvd (by decide) _) hp
  fin st m r h _ hr := by
    obtain ⟨st', h1, h2, h3⟩ := finish_ok (L := 8) (by decide) (by decide) (by decide) sha256_steps _ h (counts_dvd (by decide) _)
      (ks := [56, 48, 40, 32, 24, 16, 8, 0]) rfl (lenBe_eq m.length)
    refine ⟨st', ?_, h2⟩
    show (finish 64 8 lenBe sha256Step st >>= fun st => packAll 4 unBe st.x [0, 1, 2, 3, 4, 5, 6] r >>= fun r => Res.ok (st, r)) = _
    rw [show lenBe = idx (64 - 8) [56, 48, 40, 32, 24, 16, 8, 0] from rfl, h1, Res.bind_ok,
      packAll_all (n := 4) unBe_idx rfl _ _ _ (by decide) (by exact hr), Res.bind_ok]
    congr 2
    unfold Spec.sha224
    rw [← h3]
    simp only [be4]
    rfl

theorem below_mono {n : Nat} : ∀ a b, a ≤ b → Below n b → Below n a := fun _ _ h h2 => Nat.lt_of_le_of_lt h h2

/-- The length field as the code fills it: eight zero bytes and the low 64 bits. -/
def be64in (L v : Nat) : List Byte := List.replicate (L - 8) 0#8 ++ Spec.be 8 v

/-- The iteration of SHA-512 and SHA-384 over a message padded that way. -/
def chain512 (iv : Fin 8 → BitVec 64) (m : List Byte) : List Byte :=
  (List.ofFn (chain 128 (Spec.sha2Block Spec.f512) iv (pad 128 16 be64in m))).flatMap fun w => Spec.be 8 w.toNat

theorem be64in_eq (n : Nat) : be64in 16 (8 * n) = List.replicate (16 - 8) 0#8 ++
    [56, 48, 40, 32, 24, 16, 8, 0].map (fun k => ((BitVec.ofNat 64 n * 8#64) >>> k).setWidth 8) := by
  unfold be64in
  rw [lenBe_eq n]
  rfl

theorem chain512_eq (iv : Fin 8 → BitVec 64) (m : List Byte) (h : m.length < 2 ^ 61) :
    chain512 iv m = (List.ofFn (chain 128 (Spec.sha2Block Spec.f512) iv (pad 128 16 Spec.be m))).flatMap fun w => Spec.be 8 w.toNat := by
  unfold chain512 pad
  rw [be64in_eq, ← lenBe512_eq m.length h]

theorem sha512_raw : Computes sha512 (chain512 (Spec.iv 64)) Any (Piece false) (Inv 128 ab (Spec.sha2Block Spec.f512) (Spec.iv 64)) where
  mono _ _ _ h := h
  size m := words8_length _ 8 Spec.be (be_length 8)
  init st h := inv_init ab _ _ h rfl (by funext j; exact iv512_eq j)
  tail st m h := h.1
  add st m d h _ hp := hadd_ok (by decide) (by decide) sha512_steps _ h (counts_dvd (by decide) _) (counts_dvd (by decide) _) hp
  fin st m r h _ hr := by
    obtain ⟨st', h1, h2, h3⟩ := finish_ok (L := 16) (by decide) (by decide) (by decide) sha512_steps _ h (counts_dvd (by decide) _)
      (ks := [56, 48, 40, 32, 24, 16, 8, 0]) rfl (be64in_eq m.length)
    refine ⟨st', ?_, h2⟩
    show (finish 128 16 lenBe512 sha512Step st >>= fun st => packAll 8 unBe64 st.x [0, 1, 2, 3, 4, 5, 6, 7] r >>= fun r => Res.ok (st, r)) = _
    rw [show lenBe512 = idx (128 - 8) [56, 48, 40, 32, 24, 16, 8, 0] from rfl, h1, Res.bind_ok,
      packAll_all (n := 8) unBe64_idx rfl _ _ _ (by decide) (by exact hr), Res.bind_ok]
    congr 2
    unfold chain512
    rw [← h3]
    simp only [be8]
    rfl

theorem sha384_raw : Computes sha384 (fun m => (chain512 Spec.iv384 m).take 48) Any (Piece false) (Inv 128 ab (Spec.sha2Block Spec.f512) Spec.iv384) where
  mono _ _ _ h := h
  size m := by
    unfold chain512
    rw [List.length_take, words8_length _ 8 Spec.be (be_length 8)]; rfl
  init st h := inv_init ab _ _ h rfl (by funext j; exact iv384_eq j)
  tail st m h := h.1
  add st m d h _ hp := hadd_ok (by decide) (by decide) sha512_steps _ h (counts_dvd (by decide) _) (counts_dvd (by decide) _) hp
  fin st m r h _ hr := by
    obtain ⟨st', h1, h2, h3⟩ := finish_ok (L := 16) (by decide) (by decide) (by decide) sha512_steps _ h (counts_dvd (by decide) _)
      (ks := [56, 48, 40, 32, 24, 16, 8, 0]) rfl (be64in_eq m.length)
    refine ⟨st', ?_, h2⟩
    show (finish 128 16 lenBe512 sha512Step st >>= fun st => packAll 8 unBe64 st.x [0, 1, 2, 3, 4, 5] r >>= fun r => Res.ok (st, r)) = _
    rw [show lenBe512 = idx (128 - 8) [56, 48, 40, 32, 24, 16, 8, 0] from rfl, h1, Res.bind_ok,
      packAll_all (n := 8) unBe64_idx rfl _ _ _ (by decide) (by exact hr), Res.bind_ok]
    congr 2
    unfold chain512
    rw [← h3]
    simp only [be8]
    rfl

theorem computes_below {H : Hash} {S T : List Byte → List Byte} {Pc : Nat → Prop} {I : St H.X → List Byte → Prop} {n : Nat} (h : Computes H S Any Pc I)
    (hs : ∀ m, m.length < n → S m = T m) (ht : ∀ m, (T m).length = H.Hashsz) : Computes H T (Below n) Pc I where
  mono := below_mono
  size := ht
  init := h.init
  tail := h.tail
  add st m d hi _ hp := h.add st m d hi trivial hp
  fin st m r hi hb hr := by rw [← hs m hb]; exact h.fin st m r hi trivial hr

theorem sha512_computes : Computes sha512 Spec.sha512 (Below (2 ^ 61)) (Piece false) (Inv 128 ab (Spec.sha2Block Spec.f512) (Spec.iv 64)) :=
  computes_below sha512_raw (fun m h => chain512_eq _ m h) (fun _ => words8_length _ 8 Spec.be (be_length 8))

theorem sha384_computes : Computes sha384 Spec.sha384 (Below (2 ^ 61)) (Piece false) (Inv 128 ab (Spec.sha2Block Spec.f512) Spec.iv384) :=
  computes_below sha384_raw (fun m h => by rw [chain512_eq _ m h]; rfl) (fun _ => by
    unfold Spec.sha384
    rw [List.length_take, words8_length _ 8 Spec.be (be_length 8)]; rfl)

/-! ## Keccak -/

/-- What a Keccak state is to stand for. -/
def KInv (B : Nat) (st : St (Vector (BitVec 64) 25)) (m : List Byte) : Prop :=
  m.length < 2 ^ 63 ∧ Inv B kab (fun A b => Spec.keccakF (Spec.kXor A b)) (fun _ _ => 0#64) st m

theorem kinit_ok {B : Nat} {st : St (Vector (BitVec 64) 25)} (h : st.tail.length = B) : KInv B (kinit st) [] := by
  refine ⟨by decide, inv_init _ _ _ h rfl ?_⟩
  funext x y
  show (Vector.replicate 25 0#64)[(pos x y).val] = 0#64
  rw [Vector.getElem_replicate]

theorem kadd_ok {B : Nat} (hB : IsRate B) {st : St (Vector (BitVec 64) 25)} {m d : List Byte} (h : KInv B st m)
    (hb : (m ++ d).length < 2 ^ 63) : ∃ st', kadd B st d = .ok st' ∧ KInv B st' (m ++ d) := by
  obtain ⟨h0, h⟩ := h
  have hB0 : 0 < B := by rcases hB with rfl | rfl | rfl | rfl <;> decide
  have hB31 : B ≤ 2 ^ 31 := by rcases hB with rfl | rfl | rfl | rfl <;> decide
  obtain ⟨st', h1, h2⟩ := hadd_ok hB0 hB31 (wide := true) (bm := false) (keccak_steps hB) _ h (counts_lt (by omega)) (data := d)
    (counts_lt (by omega)) (.inl rfl)
  refine ⟨st', ?_, hb, h2⟩
  unfold kadd
  rw [if_pos]
  · exact h1
  · rw [h.2.1, BitVec.toNat_ofNat, Nat.mod_eq_of_lt (by omega), ← List.length_append]
    exact hb

theorem kBytes_length (A : Spec.KState) : (Spec.kBytes A).length = 200 := by
  unfold Spec.kBytes
  rw [List.length_flatMap]
  simp only [le_length]
  rfl

theorem kfin_ok' {B : Nat} (hB : IsRate B) {st : St (Vector (BitVec 64) 25)} {m : List Byte} (h : KInv B st m) :
    ∃ st', kfin B st = .ok st' ∧ st'.tail.length = B ∧
      kab st'.x = chain B (fun A b => Spec.keccakF (Spec.kXor A b)) (fun _ _ => 0#64) (Spec.kPad B m) :=
  kfin_ok hB h.2 (counts_lt (by have := h.1; omega))

theorem keccak_size (d : Nat) (hd : d ≤ 200) (m : List Byte) : (Spec.keccak d m).length = d := by
  unfold Spec.keccak
  rw [List.length_take, kBytes_length]; omega

theorem take_lanes (v : Vector (BitVec 64) 25) (a b : List (Fin 25)) (n : Nat) (h : n = 8 * a.length)
    (he : ([0, 1, 2, 3, 4, 5, 6, 7, 8, 9, 10, 11, 12, 13, 14, 15, 16, 17, 18, 19, 20, 21, 22, 23, 24] : List (Fin 25)) = a ++ b) :
    (Spec.kBytes (kab v)).take n = a.flatMap (fun j => Spec.le 8 (get v j).toNat) := by
  rw [kBytes_eq, he, List.flatMap_append]
  apply List.take_left'
  rw [h, List.length_flatMap]
  simp only [le_length]
  clear he h
  induction a with
  | nil => rfl
  | cons i a ih => rw [List.map_cons, List.sum_cons, ih, List.length_cons]; omega

theorem keccak256_computes : Computes keccak256 (Spec.keccak 32) (Below (2 ^ 63)) Any (KInv 136) where
  mono := below_mono
  size m := keccak_size 32 (by decide) m
  init st h := kinit_ok h
  tail st m h := h.2.1
  add st m d h hb _ := kadd_ok (by right; left; rfl) h hb
  fin st m r h _ hr := by
    obtain ⟨st', h1, h2, h3⟩ := kfin_ok' (by right; left; rfl) h
    refine ⟨st', ?_, h2⟩
    show (kfin 136 st >>= fun st => putLanes st.x [0, 1, 2, 3] r >>= fun r => Res.ok (st, r)) = _
    rw [h1, Res.bind_ok, putLanes_all _ _ _ (by decide) (by exact hr), Res.bind_ok]
    congr 2
    unfold Spec.keccak
    rw [show 200 - 2 * 32 = 136 from rfl, ← h3, take_lanes _ [0, 1, 2, 3] _ 32 rfl rfl]
    rfl

theorem keccak384_computes : Computes keccak384 (Spec.keccak 48) (Below (2 ^ 63)) Any (KInv 104) where
  mono := below_mono
  size m := keccak_size 48 (by decide) m
  init st h := kinit_ok h
  tail st m h := h.2.1
  add st m d h hb _ := kadd_ok (by right; right; left; rfl) h hb
  fin st m r h _ hr := by
    obtain ⟨st', h1, h2, h3⟩ := kfin_ok' (by right; right; left; rfl) h
    refine ⟨st', ?_, h2⟩
    show (kfin 104 st >>= fun st => putLanes st.x [0, 1, 2, 3, 4, 5] r >>= fun r => Res.ok (st, r)) = _
    rw [h1, Res.bind_ok, putLanes_all _ _ _ (by decide) (by exact hr), Res.bind_ok]
    congr 2
    unfold Spec.keccak
    rw [show 200 - 2 * 48 = 104 from rfl, ← h3, take_lanes _ [0, 1, 2, 3, 4, 5] _ 48 rfl rfl]
    rfl

theorem keccak512_computes : Computes keccak512 (Spec.keccak 64) (Below (2 ^ 63)) Any (KInv 72) where
  mono := below_mono
  size m := keccak_size 64 (by decide) m
  init st h := kinit_ok h
  tail st m h := h.2.1
  add st m d h hb _ := kadd_ok (by right; right; right; rfl) h hb
  fin st m r h _ hr := by
    obtain ⟨st', h1, h2, h3⟩ := kfin_ok' (by right; right; right; rfl) h
    refine ⟨st', ?_, h2⟩
    show (kfin 72 st >>= fun st => putLanes st.x [0, 1, 2, 3, 4, 5, 6, 7] r >>= fun r => Res.ok (st, r)) = _
    rw [h1, Res.bind_ok, putLanes_all _ _ _ (by decide) (by exact hr), Res.bind_ok]
    congr 2
    unfold Spec.keccak
    rw [show 200 - 2 * 64 = 72 from rfl, ← h3, take_lanes _ [0, 1, 2, 3, 4, 5, 6, 7] _ 64 rfl rfl]
    rfl

theorem keccak224_computes : Computes keccak224 (Spec.keccak 28) (Below (2 ^ 63)) Any (KInv 144) where
  mono := below_mono
  size m := keccak_size 28 (by decide) m
  init st h := kinit_ok h
  tail st m h := h.2.1
  add st m d h hb _ := kadd_ok (by left; rfl) h hb
  fin st m r h _ hr := by
    have hr : 28 ≤ r.length := hr
    obtain ⟨st', h1, h2, h3⟩ := kfin_ok' (by left; rfl) h
    refine ⟨st', ?_, h2⟩
    show (kfin 144 st >>= fun st => kout224 st.x r >>= fun r => Res.ok (st, r)) = _
    have hl : ([0, 1, 2].flatMap (fun j => Spec.le 8 (get st'.x j).toNat)).length = 24 := by
      simp only [List.flatMap_cons, List.flatMap_nil, List.length_append, le_length, List.length_nil]
    obtain ⟨p, hp⟩ : ∃ p, [0, 1, 2].flatMap (fun j => Spec.le 8 (get st'.x j).toNat) = p := ⟨_, rfl⟩
    unfold kout224
    rw [h1, Res.bind_ok, putLanes_all st'.x [0, 1, 2] r (by decide) (show 24 ≤ r.length by omega), hp]
    rw [hp] at hl
    rw [Res.bind_ok, show 8 * ([0, 1, 2] : List (Fin 25)).length = 24 from rfl, slice_ok (by decide) (by rw [List.length_append, List.length_drop]; omega), Res.bind_ok,
      List.drop_take, List.drop_left' hl, putle_le _ _ 4 (by rw [List.length_take, List.length_drop]; omega), Res.bind_ok]
    dsimp only
    rw [List.take_left' hl, show (28 : Nat) = 24 + 4 from rfl, ← List.drop_drop, List.drop_left' hl, List.drop_drop, Res.bind_ok]
    congr 2
    unfold Spec.keccak
    rw [show 200 - 2 * (24 + 4) = 144 from rfl, ← h3, kBytes_eq]
    have e : ([0, 1, 2, 3, 4, 5, 6, 7, 8, 9, 10, 11, 12, 13, 14, 15, 16, 17, 18, 19, 20, 21, 22, 23, 24] : List (Fin 25)) =
      [0, 1, 2] ++ 3 :: [4, 5, 6, 7, 8, 9, 10, 11, 12, 13, 14, 15, 16, 17, 18, 19, 20, 21, 22, 23, 24] := rfl
    rw [e, List.flatMap_append, hp, List.flatMap_cons]
    have e2 : Spec.le 8 (get st'.x 3).toNat = Spec.le 4 (get st'.x 3).toNat ++ Spec.le 4 ((get st'.x 3).toNat / 256 ^ 4) := by
      unfold Spec.le
      rw [show List.range 8 = List.range (4 + 4) from rfl, List.range_add, List.map_append, List.map_map]
      congr 1
      apply List.map_congr_left
      intro i _
      show BitVec.ofNat 8 (_ / 256 ^ (4 + i)) = _
      rw [Nat.pow_add, Nat.div_div_eq_div_mul]
    rw [e2, List.append_assoc (Spec.le 4 _), ← List.append_assoc p (Spec.le 4 _),
      List.take_left' (l₁ := p ++ Spec.le 4 (get st'.x 3).toNat) (by rw [List.length_append, hl, le_length])]
    rfl

end Verif.Crypto
