import Verif.Crypto.Digest

/-!
# C52, C83, C84: the hash functions and HMAC
-/

namespace Verif.Crypto

/-- Six zero bytes and the like, for the examples. -/
def zs (n : Nat) : List Byte := List.replicate n 0#8

/-- "abc". -/
def abc : List Byte := [0x61, 0x62, 0x63]

/-! ## C52: streaming -/

/-- However a message is cut into pieces, and whatever the state held before it
was initialised, the digest is the same bytes, the rest of the destination
stays as it is, and nothing aborts. `Bound` limits the length of the message and
`Pc` that of each piece. -/
def ChunkFree (H : Hash) (Bound Pc : Nat → Prop) : Prop :=
  ∀ (x0 x0' : H.X) (l0 l0' : BitVec 64) (t t' : List Byte) (ds ds' : List (List Byte)) (r : List Byte),
    t.length = H.Blocksz → t'.length = H.Blocksz → H.Hashsz ≤ r.length → ds.flatten = ds'.flatten → Bound ds.flatten.length →
    (∀ d ∈ ds, Pc d.length) → (∀ d ∈ ds', Pc d.length) →
    ∃ d, d.length = H.Hashsz ∧ H.digest x0 l0 t ds r = .ok (d ++ r.drop H.Hashsz) ∧
      H.digest x0' l0' t' ds' r = .ok (d ++ r.drop H.Hashsz)

theorem chunkFree {H : Hash} {S : List Byte → List Byte} {Bound Pc : Nat → Prop} {I : St H.X → List Byte → Prop}
    (hc : Computes H S Bound Pc I) : ChunkFree H Bound Pc := by
  intro x0 x0' l0 l0' t t' ds ds' r h1 h2 h3 h4 h5 h6 h7
  refine ⟨S ds.flatten, hc.size _, digest_ok hc x0 l0 t ds r h1 h3 h5 h6, ?_⟩
  rw [h4] at h5 ⊢
  exact digest_ok hc x0' l0' t' ds' r h2 h3 h5 h7

theorem chunkFree_mono {H : Hash} {Bound Pc Pc' : Nat → Prop} (h : ∀ n, Pc' n → Pc n) (hc : ChunkFree H Bound Pc) :
    ChunkFree H Bound Pc' :=
  fun x0 x0' l0 l0' t t' ds ds' r h1 h2 h3 h4 h5 h6 h7 =>
    hc x0 x0' l0 l0' t t' ds ds' r h1 h2 h3 h4 h5 (fun d hd => h _ (h6 d hd)) (fun d hd => h _ (h7 d hd))

/-- A hash for which one piece of 2 GiB is one too many. -/
theorem abort_violates {H : Hash} (x0 : H.X)
    (h : ∀ d, d.length = 2 ^ 31 → H.digest x0 0#64 (zs H.Blocksz) [d] (zs H.Hashsz) = .abort) :
    ¬ChunkFree H (fun _ => True) (fun _ => True) := by
  intro hc
  obtain ⟨d, _, h1, _⟩ := hc x0 x0 0 0 (zs H.Blocksz) (zs H.Blocksz) [zs (2 ^ 31)] [zs (2 ^ 31)] (zs H.Hashsz)
    List.length_replicate List.length_replicate (Nat.le_of_eq List.length_replicate.symm) rfl trivial (fun _ _ => trivial) (fun _ _ => trivial)
  rw [show H.digest x0 0 (zs H.Blocksz) [zs (2 ^ 31)] (zs H.Hashsz) = .abort from h _ List.length_replicate] at h1
  cases h1

/-- The digest of a message given as one piece of 2^31 bytes is an abort of the
program. -/
def Aborts (H : Hash) : Prop :=
  ∀ (x0 : H.X) (l0 : BitVec 64) (t d r : List Byte), t.length = H.Blocksz → d.length = 2 ^ 31 → H.digest x0 l0 t [d] r = .abort

theorem aborts {H : Hash} (h : ∀ st d, st.tail.length = H.Blocksz → d.length = 2 ^ 31 → H.hadd (H.hinit st) d = .abort) : Aborts H := by
  intro x0 l0 t d r ht hd
  unfold Hash.digest Hash.adds
  rw [h _ d ht hd]
  rfl

/-- What happens with pieces of 2 GiB, for every state, message and destination. -/
theorem big_aborts : Aborts md5 ∧ Aborts sha1 ∧ Aborts sha256 ∧ Aborts sha224 ∧ Aborts sha512 ∧ Aborts sha384 :=
  ⟨aborts fun st _ ht hd => hadd_abort (B := 64) (bm := false) (step := md5Step) (st := md5.hinit st) (by decide) (by decide) rfl ht hd,
    aborts fun st _ ht hd => hadd_abort (B := 64) (bm := false) (step := sha1Step) (st := sha1.hinit st) (by decide) (by decide) rfl ht hd,
    aborts fun st _ ht hd => hadd_abort (B := 64) (bm := true) (step := sha256Step) (st := sha256.hinit st) (by decide) (by decide) rfl ht hd,
    aborts fun st _ ht hd => hadd_abort (B := 64) (bm := true) (step := sha256Step) (st := sha224.hinit st) (by decide) (by decide) rfl ht hd,
    aborts fun st _ ht hd => hadd_abort (B := 128) (bm := true) (step := sha512Step) (st := sha512.hinit st) (by decide) (by decide) rfl ht hd,
    aborts fun st _ ht hd => hadd_abort (B := 128) (bm := true) (step := sha512Step) (st := sha384.hinit st) (by decide) (by decide) rfl ht hd⟩

/-- **C52 is violated** for MD5, SHA-1, SHA-256, SHA-224, SHA-512 and SHA-384:
a message of 2 GiB in one piece aborts the program. -/
theorem chunks_violated : ¬ChunkFree md5 (fun _ => True) (fun _ => True) ∧ ¬ChunkFree sha1 (fun _ => True) (fun _ => True) ∧
    ¬ChunkFree sha256 (fun _ => True) (fun _ => True) ∧ ¬ChunkFree sha224 (fun _ => True) (fun _ => True) ∧
    ¬ChunkFree sha512 (fun _ => True) (fun _ => True) ∧ ¬ChunkFree sha384 (fun _ => True) (fun _ => True) := by
  obtain ⟨h1, h2, h3, h4, h5, h6⟩ := big_aborts
  exact ⟨abort_violates (.replicate 4 0#32) fun d hd => h1 _ _ _ d _ List.length_replicate hd,
    abort_violates (.replicate 5 0#32) fun d hd => h2 _ _ _ d _ List.length_replicate hd,
    abort_violates (.replicate 8 0#32) fun d hd => h3 _ _ _ d _ List.length_replicate hd,
    abort_violates (.replicate 8 0#32) fun d hd => h4 _ _ _ d _ List.length_replicate hd,
    abort_violates (.replicate 8 0#64) fun d hd => h5 _ _ _ d _ List.length_replicate hd,
    abort_violates (.replicate 8 0#64) fun d hd => h6 _ _ _ d _ List.length_replicate hd⟩

/-- Worse than the abort: all messages of 4 GiB given in one piece have the same
SHA-256, as none of their bytes is looked at. -/
theorem big_same : ∃ out : List Byte, out.length = 32 ∧ ∀ (x0 : sha256.X) (l0 : BitVec 64) (d : List Byte), d.length = 2 ^ 32 →
    sha256.digest x0 l0 (zs 64) [d] (zs 32) = .ok out := by
  have e : ∃ out : List Byte, out.length = 32 ∧
      (match sha256.hfin ⟨(sha256.hinit ⟨.replicate 8 0#32, zs 64, 0⟩).x, zs 64, BitVec.ofNat 64 (2 ^ 32)⟩ (zs 32) with
        | .ok p => some p.2 | _ => none) = some out :=
    ⟨[124, 207, 13, 57, 150, 57, 89, 124, 106, 201, 189, 134, 134, 149, 234, 59, 220, 186, 35, 227, 61, 168, 203, 78, 8, 158, 32, 205,
      255, 46, 51, 0], by decide +kernel, by decide +kernel⟩
  obtain ⟨out, h1, h2⟩ := e
  refine ⟨out, h1, ?_⟩
  intro x0 l0 d hd
  have h3 : sha256.hadd (sha256.hinit ⟨x0, zs 64, l0⟩) d =
      .ok ⟨(sha256.hinit ⟨.replicate 8 0#32, zs 64, 0⟩).x, zs 64, BitVec.ofNat 64 (2 ^ 32)⟩ :=
    hadd_skip (B := 64) (bm := true) (step := sha256Step) (st := sha256.hinit ⟨x0, zs 64, l0⟩) (by decide) rfl hd
  unfold Hash.digest Hash.adds
  rw [h3, Res.bind_ok]
  unfold Hash.adds
  rw [Res.bind_ok]
  revert h2
  generalize sha256.hfin _ (zs 32) = q
  intro h2
  cases q <;> simp_all

/-- **C52.** What holds for MD5, SHA-1, SHA-256, SHA-224, SHA-512 and SHA-384:
no bound on the length of the message, but each piece is of fewer than 2^31
bytes. Missing: longer pieces. -/
theorem hash_chunks_partial : ChunkFree md5 (fun _ => True) (· < 2 ^ 31) ∧ ChunkFree sha1 (fun _ => True) (· < 2 ^ 31) ∧
    ChunkFree sha256 (fun _ => True) (· < 2 ^ 31) ∧ ChunkFree sha224 (fun _ => True) (· < 2 ^ 31) ∧
    ChunkFree sha512 (fun _ => True) (· < 2 ^ 31) ∧ ChunkFree sha384 (fun _ => True) (· < 2 ^ 31) :=
  ⟨chunkFree_mono (fun _ => .inr) (chunkFree md5_computes), chunkFree_mono (fun _ => .inr) (chunkFree sha1_computes),
    chunkFree_mono (fun _ => .inr) (chunkFree sha256_computes), chunkFree_mono (fun _ => .inr) (chunkFree sha224_computes),
    chunkFree_mono (fun _ => .inr) (chunkFree sha512_raw), chunkFree_mono (fun _ => .inr) (chunkFree sha384_raw)⟩

/-- **C52.** For Keccak pieces of any length, as long as the number of bytes fits
the signed counter. -/
theorem keccak_chunks : ChunkFree keccak224 (· < 2 ^ 63) (fun _ => True) ∧ ChunkFree keccak256 (· < 2 ^ 63) (fun _ => True) ∧
    ChunkFree keccak384 (· < 2 ^ 63) (fun _ => True) ∧ ChunkFree keccak512 (· < 2 ^ 63) (fun _ => True) :=
  ⟨chunkFree keccak224_computes, chunkFree keccak256_computes, chunkFree keccak384_computes, chunkFree keccak512_computes⟩

/-- The hypotheses are met by a message in three pieces (one empty) and in one,
with states that held different things; the digest is that of the standard's
example. -/
example : sha256.digest (.replicate 8 0#32) 5#64 (zs 64) [[0x61], [], [0x62, 0x63]] (zs 34) =
      sha256.digest (.replicate 8 7#32) 0#64 (List.replicate 64 9#8) [abc] (zs 34) ∧
    sha256.digest (.replicate 8 0#32) 5#64 (zs 64) [[0x61], [], [0x62, 0x63]] (zs 34) =
      .ok ([0xba, 0x78, 0x16, 0xbf, 0x8f, 0x01, 0xcf, 0xea, 0x41, 0x41, 0x40, 0xde, 0x5d, 0xae, 0x22, 0x23, 0xb0, 0x03, 0x61, 0xa3,
        0x96, 0x17, 0x7a, 0x9c, 0xb4, 0x10, 0xff, 0x61, 0xf2, 0x00, 0x15, 0xad] ++ zs 2) := by decide +kernel

/-! ## C83: the digests are those of the standards -/

/-- The claim in full: whatever the pieces, the digest is the one of the
standard (`Bound` is that of the standard or of the length field). -/
def DigestClaim (H : Hash) (S : List Byte → List Byte) (Bound : Nat → Prop) : Prop :=
  ∀ (x0 : H.X) (l0 : BitVec 64) (t : List Byte) (ds : List (List Byte)) (r : List Byte),
    t.length = H.Blocksz → H.Hashsz ≤ r.length → Bound ds.flatten.length →
    H.digest x0 l0 t ds r = .ok (S ds.flatten ++ r.drop H.Hashsz)

/-- **C83 is violated** for all hashes but Keccak: a piece of 2 GiB aborts. -/
theorem digest_violated : ¬DigestClaim md5 Spec.md5 (· < 2 ^ 61) ∧ ¬DigestClaim sha1 Spec.sha1 (· < 2 ^ 61) ∧
    ¬DigestClaim sha256 Spec.sha256 (· < 2 ^ 61) ∧ ¬DigestClaim sha224 Spec.sha224 (· < 2 ^ 61) ∧
    ¬DigestClaim sha512 Spec.sha512 (· < 2 ^ 61) ∧ ¬DigestClaim sha384 Spec.sha384 (· < 2 ^ 61) := by
  have key : ∀ {H : Hash} {S : List Byte → List Byte} (x0 : H.X), Aborts H → ¬DigestClaim H S (· < 2 ^ 61) := by
    intro H S x0 ha hc
    have h := hc x0 0 (zs H.Blocksz) [zs (2 ^ 31)] (zs H.Hashsz) List.length_replicate (Nat.le_of_eq List.length_replicate.symm)
      (by rw [List.flatten_cons, List.flatten_nil, List.append_nil, zs, List.length_replicate]; decide)
    have h' := ha x0 0 (zs H.Blocksz) (zs (2 ^ 31)) (zs H.Hashsz) List.length_replicate List.length_replicate
    rw [h'] at h
    cases h
  obtain ⟨h1, h2, h3, h4, h5, h6⟩ := big_aborts
  exact ⟨key (.replicate 4 0#32) h1, key (.replicate 5 0#32) h2, key (.replicate 8 0#32) h3, key (.replicate 8 0#32) h4,
    key (.replicate 8 0#64) h5, key (.replicate 8 0#64) h6⟩

/-- **C83, MD5** (RFC 1321), for all messages, in pieces of fewer than 2^31
bytes. -/
theorem md5_digest_partial (x0 : Vector (BitVec 32) 4) (l0 : BitVec 64) (t : List Byte) (ds : List (List Byte)) (r : List Byte)
    (ht : t.length = 64) (hr : 16 ≤ r.length) (hp : ∀ d ∈ ds, d.length < 2 ^ 31) :
    md5.digest x0 l0 t ds r = .ok (Spec.md5 ds.flatten ++ r.drop 16) :=
  digest_ok md5_computes x0 l0 t ds r ht hr trivial (fun d hd => .inr (hp d hd))

/-- **C83, SHA-1** (FIPS 180-4), for all messages, in pieces of fewer than 2^31
bytes. -/
theorem sha1_digest_partial (x0 : Vector (BitVec 32) 5) (l0 : BitVec 64) (t : List Byte) (ds : List (List Byte)) (r : List Byte)
    (ht : t.length = 64) (hr : 20 ≤ r.length) (hp : ∀ d ∈ ds, d.length < 2 ^ 31) :
    sha1.digest x0 l0 t ds r = .ok (Spec.sha1 ds.flatten ++ r.drop 20) :=
  digest_ok sha1_computes x0 l0 t ds r ht hr trivial (fun d hd => .inr (hp d hd))

/-- **C83, SHA-256** (FIPS 180-4), for all messages, in pieces of fewer than 2^31
bytes. -/
theorem sha256_digest_partial (x0 : Vector (BitVec 32) 8) (l0 : BitVec 64) (t : List Byte) (ds : List (List Byte)) (r : List Byte)
    (ht : t.length = 64) (hr : 32 ≤ r.length) (hp : ∀ d ∈ ds, d.length < 2 ^ 31) :
    sha256.digest x0 l0 t ds r = .ok (Spec.sha256 ds.flatten ++ r.drop 32) :=
  digest_ok sha256_computes x0 l0 t ds r ht hr trivial (fun d hd => .inr (hp d hd))

/-- **C83, SHA-224** (FIPS 180-4), for all messages, in pieces of fewer than 2^31
bytes. -/
theorem sha224_digest_partial (x0 : Vector (BitVec 32) 8) (l0 : BitVec 64) (t : List Byte) (ds : List (List Byte)) (r : List Byte)
    (ht : t.length = 64) (hr : 28 ≤ r.length) (hp : ∀ d ∈ ds, d.length < 2 ^ 31) :
    sha224.digest x0 l0 t ds r = .ok (Spec.sha224 ds.flatten ++ r.drop 28) :=
  digest_ok sha224_computes x0 l0 t ds r ht hr trivial (fun d hd => .inr (hp d hd))

/-- **C83, SHA-512** (FIPS 180-4), for messages of fewer than 2^61 bytes (the
code only stores the low half of the length field), in pieces of fewer than 2^31
bytes. -/
theorem sha512_digest_partial (x0 : Vector (BitVec 64) 8) (l0 : BitVec 64) (t : List Byte) (ds : List (List Byte)) (r : List Byte)
    (ht : t.length = 128) (hr : 64 ≤ r.length) (hm : ds.flatten.length < 2 ^ 61)
    (hp : ∀ d ∈ ds, d.length < 2 ^ 31) : sha512.digest x0 l0 t ds r = .ok (Spec.sha512 ds.flatten ++ r.drop 64) :=
  digest_ok sha512_computes x0 l0 t ds r ht hr hm (fun d hd => .inr (hp d hd))

/-- **C83, SHA-384** (FIPS 180-4), for messages of fewer than 2^61 bytes, in pieces
of fewer than 2^31 bytes. -/
theorem sha384_digest_partial (x0 : Vector (BitVec 64) 8) (l0 : BitVec 64) (t : List Byte) (ds : List (List Byte)) (r : List Byte)
    (ht : t.length = 128) (hr : 48 ≤ r.length) (hm : ds.flatten.length < 2 ^ 61)
    (hp : ∀ d ∈ ds, d.length < 2 ^ 31) : sha384.digest x0 l0 t ds r = .ok (Spec.sha384 ds.flatten ++ r.drop 48) :=
  digest_ok sha384_computes x0 l0 t ds r ht hr hm (fun d hd => .inr (hp d hd))

/-- **C83, Keccak-224**, for messages whose length the counter holds. -/
theorem keccak224_digest (x0 : Vector (BitVec 64) 25) (l0 : BitVec 64) (t : List Byte) (ds : List (List Byte)) (r : List Byte)
    (ht : t.length = 144) (hr : 28 ≤ r.length) (hm : ds.flatten.length < 2 ^ 63) :
    keccak224.digest x0 l0 t ds r = .ok (Spec.keccak 28 ds.flatten ++ r.drop 28) :=
  digest_ok keccak224_computes x0 l0 t ds r ht hr hm (fun _ _ => trivial)

/-- **C83, Keccak-256**, for messages whose length the counter holds. -/
theorem keccak256_digest (x0 : Vector (BitVec 64) 25) (l0 : BitVec 64) (t : List Byte) (ds : List (List Byte)) (r : List Byte)
    (ht : t.length = 136) (hr : 32 ≤ r.length) (hm : ds.flatten.length < 2 ^ 63) :
    keccak256.digest x0 l0 t ds r = .ok (Spec.keccak 32 ds.flatten ++ r.drop 32) :=
  digest_ok keccak256_computes x0 l0 t ds r ht hr hm (fun _ _ => trivial)

/-- **C83, Keccak-384**, for messages whose length the counter holds. -/
theorem keccak384_digest (x0 : Vector (BitVec 64) 25) (l0 : BitVec 64) (t : List Byte) (ds : List (List Byte)) (r : List Byte)
    (ht : t.length = 104) (hr : 48 ≤ r.length) (hm : ds.flatten.length < 2 ^ 63) :
    keccak384.digest x0 l0 t ds r = .ok (Spec.keccak 48 ds.flatten ++ r.drop 48) :=
  digest_ok keccak384_computes x0 l0 t ds r ht hr hm (fun _ _ => trivial)

/-- **C83, Keccak-512**, for messages whose length the counter holds. -/
theorem keccak512_digest (x0 : Vector (BitVec 64) 25) (l0 : BitVec 64) (t : List Byte) (ds : List (List Byte)) (r : List Byte)
    (ht : t.length = 72) (hr : 64 ≤ r.length) (hm : ds.flatten.length < 2 ^ 63) :
    keccak512.digest x0 l0 t ds r = .ok (Spec.keccak 64 ds.flatten ++ r.drop 64) :=
  digest_ok keccak512_computes x0 l0 t ds r ht hr hm (fun _ _ => trivial)

/-- The hypotheses are met, and with the theorems the specifications evaluate to
the examples of the standards: MD5, SHA-1 and SHA-256 of "abc", Keccak-256 of
the empty message. -/
example : Spec.md5 abc = [0x90, 0x01, 0x50, 0x98, 0x3c, 0xd2, 0x4f, 0xb0, 0xd6, 0x96, 0x3f, 0x7d, 0x28, 0xe1, 0x7f, 0x72] := by
  have h := md5_digest_partial (.replicate 4 0) 0 (zs 64) [abc] (zs 16) rfl (by decide) (by decide)
  have e : md5.digest (.replicate 4 0) 0 (zs 64) [abc] (zs 16) =
    .ok [0x90, 0x01, 0x50, 0x98, 0x3c, 0xd2, 0x4f, 0xb0, 0xd6, 0x96, 0x3f, 0x7d, 0x28, 0xe1, 0x7f, 0x72] := by decide +kernel
  rw [e] at h
  simpa [zs] using (Res.ok.inj h).symm

example : Spec.sha1 abc = [0xa9, 0x99, 0x3e, 0x36, 0x47, 0x06, 0x81, 0x6a, 0xba, 0x3e, 0x25, 0x71, 0x78, 0x50, 0xc2, 0x6c, 0x9c, 0xd0, 0xd8, 0x9d] := by
  have h := sha1_digest_partial (.replicate 5 0) 0 (zs 64) [abc] (zs 20) rfl (by decide) (by decide)
  have e : sha1.digest (.replicate 5 0) 0 (zs 64) [abc] (zs 20) =
    .ok [0xa9, 0x99, 0x3e, 0x36, 0x47, 0x06, 0x81, 0x6a, 0xba, 0x3e, 0x25, 0x71, 0x78, 0x50, 0xc2, 0x6c, 0x9c, 0xd0, 0xd8, 0x9d] := by decide +kernel
  rw [e] at h
  simpa [zs] using (Res.ok.inj h).symm

example : Spec.keccak 32 [] = [0xc5, 0xd2, 0x46, 0x01, 0x86, 0xf7, 0x23, 0x3c, 0x92, 0x7e, 0x7d, 0xb2, 0xdc, 0xc7, 0x03, 0xc0,
    0xe5, 0x00, 0xb6, 0x53, 0xca, 0x82, 0x27, 0x3b, 0x7b, 0xfa, 0xd8, 0x04, 0x5d, 0x85, 0xa4, 0x70] := by
  have h := keccak256_digest (.replicate 25 0) 0 (zs 136) [] (zs 32) rfl (by decide) (by decide)
  have e : keccak256.digest (.replicate 25 0) 0 (zs 136) [] (zs 32) =
    .ok [0xc5, 0xd2, 0x46, 0x01, 0x86, 0xf7, 0x23, 0x3c, 0x92, 0x7e, 0x7d, 0xb2, 0xdc, 0xc7, 0x03, 0xc0,
    0xe5, 0x00, 0xb6, 0x53, 0xca, 0x82, 0x27, 0x3b, 0x7b, 0xfa, 0xd8, 0x04, 0x5d, 0x85, 0xa4, 0x70] := by decide +kernel
  rw [e] at h
  simpa [zs] using (Res.ok.inj h).symm

/-! ## C84: HMAC -/

/-- The claim in full: with a destination at least as long as a digest (which is
what the hashes themselves ask of a destination), the first bytes are the MAC
and the rest stays. -/
def HmacClaim (H : Hash) (S : List Byte → List Byte) : Prop :=
  ∀ (h : Hmac H) (k0 key : List Byte) (ds : List (List Byte)) (r : List Byte),
    h.inner.tail.length = H.Blocksz → h.outer.tail.length = H.Blocksz → k0.length = 128 →
    key.length < 2 ^ 60 → ds.flatten.length < 2 ^ 60 → H.Hashsz ≤ r.length →
    hmac H h k0 key ds r = .ok (Spec.hmac H.Blocksz S key ds.flatten ++ r.drop H.Hashsz)

theorem hmac_exact {H : Hash} {S : List Byte → List Byte} {Bound : Nat → Prop} {I : St H.X → List Byte → Prop}
    (hc : Computes H S Bound (Piece false) I) (hHB : H.Hashsz ≤ H.Blocksz) (hB : H.Blocksz ≤ 128) (hb : ∀ n, n < 2 ^ 61 → Bound n)
    (h : Hmac H) (k0 key : List Byte) (ds : List (List Byte)) (r : List Byte)
    (h1 : h.inner.tail.length = H.Blocksz) (h2 : h.outer.tail.length = H.Blocksz) (hk : k0.length = 128)
    (h3 : key.length < 2 ^ 31) (h4 : ds.flatten.length < 2 ^ 60) (h5 : ∀ d ∈ ds, d.length < 2 ^ 31) (hr : r.length = H.Hashsz) :
    hmac H h k0 key ds r = .ok (Spec.hmac H.Blocksz S key ds.flatten) :=
  hmac_ok hc hHB h k0 key ds r h1 h2 (by omega) hr (hb _ (by omega)) (hb _ (by omega)) (hb _ (by omega))
    (.inr h3) (fun d hd => .inr (h5 d hd)) (.inr (by omega)) (.inr (by omega))

/-- A state for the witness. -/
def hst : St sha256.X := ⟨.replicate 8 0#32, zs 64, 0#64⟩

/-- **C84 is violated**: `hmacfin` hashes the whole destination, not the first
digest-size bytes of it. With an empty key and message and a destination of 33
bytes the MAC that comes out is wrong. -/
theorem hmac_violated : ¬HmacClaim sha256 Spec.sha256 := by
  intro hc
  have h1 := hc ⟨hst, hst⟩ (zs 128) [] [] (zs 33) rfl rfl List.length_replicate (by decide) (by decide) (by decide)
  have h2 := hmac_exact sha256_computes (by decide) (by decide) (fun _ _ => trivial) ⟨hst, hst⟩ (zs 128) [] [] (zs 32) rfl rfl
    List.length_replicate (by decide) (by decide) (by decide) (by decide)
  have e1 : (match hmac sha256 ⟨hst, hst⟩ (zs 128) [] [] (zs 33) with | .ok l => l.headD 0 | _ => 0) ≠
      (match hmac sha256 ⟨hst, hst⟩ (zs 128) [] [] (zs 32) with | .ok l => l.headD 0 | _ => 0) := by decide +kernel
  rw [h1, h2] at e1
  apply e1
  have hl : (Spec.hmac 64 Spec.sha256 [] []).length = 32 := sha256_computes.size _
  show (Spec.hmac 64 Spec.sha256 [] [] ++ _).headD 0 = (Spec.hmac 64 Spec.sha256 [] []).headD 0
  cases hq : Spec.hmac 64 Spec.sha256 [] [] with
  | nil => rw [hq] at hl; cases hl
  | cons a b => rfl

/-- **C84.** What holds: with a destination of exactly the size of a digest the
result is HMAC as in RFC 2104, for every key, message and cutting into pieces
and whatever the states held before. This covers `hmacsha256` and `hmacsha224`.
Missing: longer destinations, and keys and pieces of 2 GiB and more. -/
theorem hmac_partial :
    (∀ h k0 key ds r, h.inner.tail.length = 64 → h.outer.tail.length = 64 → k0.length = 128 → key.length < 2 ^ 31 →
      ds.flatten.length < 2 ^ 60 → (∀ d ∈ ds, d.length < 2 ^ 31) → r.length = 16 → hmac md5 h k0 key ds r = .ok (Spec.hmac 64 Spec.md5 key ds.flatten)) ∧
    (∀ h k0 key ds r, h.inner.tail.length = 64 → h.outer.tail.length = 64 → k0.length = 128 → key.length < 2 ^ 31 →
      ds.flatten.length < 2 ^ 60 → (∀ d ∈ ds, d.length < 2 ^ 31) → r.length = 20 → hmac sha1 h k0 key ds r = .ok (Spec.hmac 64 Spec.sha1 key ds.flatten)) ∧
    (∀ h k0 key ds r, h.inner.tail.length = 64 → h.outer.tail.length = 64 → k0.length = 128 → key.length < 2 ^ 31 →
      ds.flatten.length < 2 ^ 60 → (∀ d ∈ ds, d.length < 2 ^ 31) → r.length = 32 → hmac sha256 h k0 key ds r = .ok (Spec.hmac 64 Spec.sha256 key ds.flatten)) ∧
    (∀ h k0 key ds r, h.inner.tail.length = 64 → h.outer.tail.length = 64 → k0.length = 128 → key.length < 2 ^ 31 →
      ds.flatten.length < 2 ^ 60 → (∀ d ∈ ds, d.length < 2 ^ 31) → r.length = 28 → hmac sha224 h k0 key ds r = .ok (Spec.hmac 64 Spec.sha224 key ds.flatten)) ∧
    (∀ h k0 key ds r, h.inner.tail.length = 128 → h.outer.tail.length = 128 → k0.length = 128 → key.length < 2 ^ 31 →
      ds.flatten.length < 2 ^ 60 → (∀ d ∈ ds, d.length < 2 ^ 31) → r.length = 64 → hmac sha512 h k0 key ds r = .ok (Spec.hmac 128 Spec.sha512 key ds.flatten)) ∧
    (∀ h k0 key ds r, h.inner.tail.length = 128 → h.outer.tail.length = 128 → k0.length = 128 → key.length < 2 ^ 31 →
      ds.flatten.length < 2 ^ 60 → (∀ d ∈ ds, d.length < 2 ^ 31) → r.length = 48 → hmac sha384 h k0 key ds r = .ok (Spec.hmac 128 Spec.sha384 key ds.flatten)) :=
  ⟨hmac_exact md5_computes (by decide) (by decide) (fun _ _ => trivial), hmac_exact sha1_computes (by decide) (by decide) (fun _ _ => trivial),
    hmac_exact sha256_computes (by decide) (by decide) (fun _ _ => trivial), hmac_exact sha224_computes (by decide) (by decide) (fun _ _ => trivial),
    hmac_exact sha512_computes (by decide) (by decide) (fun _ h => h), hmac_exact sha384_computes (by decide) (by decide) (fun _ h => h)⟩

/-- The hypotheses are met: HMAC-SHA-256 of "abc" in two pieces under a key of
70 bytes, longer than a block. -/
example : hmac sha256 ⟨hst, hst⟩ (zs 128) (zs 70) [[0x61], [0x62, 0x63]] (zs 32) =
    .ok (Spec.hmac 64 Spec.sha256 (zs 70) abc) :=
  hmac_partial.2.2.1 ⟨hst, hst⟩ (zs 128) (zs 70) [[0x61], [0x62, 0x63]] (zs 32) rfl rfl List.length_replicate (by decide) (by decide) (by decide) (by decide)

/-- The usual example: key "key", "The quick brown fox jumps over the lazy dog". -/
example : hmac sha256 ⟨hst, hst⟩ (zs 128) [0x6b, 0x65, 0x79] [[0x54, 0x68, 0x65, 0x20, 0x71, 0x75, 0x69, 0x63, 0x6b, 0x20, 0x62, 0x72, 0x6f, 0x77, 0x6e, 0x20, 0x66, 0x6f, 0x78, 0x20, 0x6a, 0x75, 0x6d, 0x70, 0x73, 0x20, 0x6f, 0x76, 0x65, 0x72, 0x20, 0x74, 0x68, 0x65, 0x20, 0x6c, 0x61, 0x7a, 0x79, 0x20, 0x64, 0x6f, 0x67]] (zs 32) =
    .ok [0xf7, 0xbc, 0x83, 0xf4, 0x30, 0x53, 0x84, 0x24, 0xb1, 0x32, 0x98, 0xe6, 0xaa, 0x6f, 0xb1, 0x43, 0xef, 0x4d, 0x59, 0xa1, 0x49, 0x46, 0x17, 0x59, 0x97, 0x47, 0x9d, 0xbc, 0x2d, 0x1a, 0x3c, 0xd8] := by decide +kernel

end Verif.Crypto
