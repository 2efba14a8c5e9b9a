import Verif.Tydesc.Lemmas

/-!
# C45 and C68: type descriptors

C45: a number below 2^56 packed by the compiler is unpacked at run time to the same number, using
exactly its bytes, whatever follows.

C68: the descriptor the compiler emits for a type tells the running program that type: its kind,
its element types, the names and types of its members and constructors in order, its name and, for
all but two kinds of types, its size and alignment.
-/

namespace Verif.Tydesc

open Verif.Layout

/-! ## C45 -/

/-- Packing and unpacking. -/
theorem packed_roundtrip (v : Nat) (hv : v < 2 ^ 56) (rest : List Byte) :
    getipacked (encodemin v ++ rest) = .ok (v, (encodemin v).length) := getipacked_encodemin v hv rest

example : getipacked (encodemin 300 ++ [0xff, 0x17]) = .ok (300, 2) := by
  rw [packed_roundtrip 300 (by decide)]
  decide +kernel

/-- No two numbers share an encoding, and no encoding is a prefix of another. -/
theorem packed_prefix_free (v w : Nat) (hv : v < 2 ^ 56) (hw : w < 2 ^ 56) (r s : List Byte)
    (h : encodemin v ++ r = encodemin w ++ s) : v = w ∧ r = s := by
  have h1 := getipacked_encodemin v hv r
  rw [h, getipacked_encodemin w hw] at h1
  have e : w = v := congrArg Prod.fst (Res.ok.inj h1)
  subst e
  exact ⟨rfl, List.append_cancel_left h⟩

/-- The number of bytes is the least that leaves seven bits of each byte for the value. -/
theorem packed_length (v : Nat) (hv : v < 2 ^ 56) :
    0 < (encodemin v).length ∧ (encodemin v).length ≤ 8 ∧ v < 2 ^ (7 * (encodemin v).length) ∧
      ∀ k, 0 < k → v < 2 ^ (7 * k) → (encodemin v).length ≤ k := by
  rw [encodemin_length v hv]
  obtain ⟨h1, h2, h3, h4⟩ := minlen_spec v hv 1 (by omega) (by omega) (Or.inr rfl)
  refine ⟨h1, h2, h3, fun k hk hlt => ?_⟩
  rcases h4 with h4 | h4
  · apply Nat.le_of_not_lt
    intro hc
    have : 2 ^ (7 * k) ≤ 2 ^ (7 * (minlen v 1 - 1)) := Nat.pow_le_pow_right (by omega) (by omega)
    omega
  · omega

/-- The size computed in advance is the number of bytes emitted. -/
theorem packed_size (v : Nat) (hv : v < 2 ^ 49) : minsz v = .ok (encodemin v).length := by
  rw [minsz, if_neg (by rw [Nat.one_shiftLeft]; omega), szloop_eq v 1 (by omega) (by omega) hv,
    encodemin_length v (by omega)]

/-- From 2^49 on the compiler stops when it computes the size, though the number could be packed. -/
theorem packed_size_dies (v : Nat) (hv : 2 ^ 49 ≤ v) : minsz v = .abort := by
  have h : ∀ i, szloop v i = .abort := by
    intro i
    fun_induction szloop v i with
    | case1 i hi hlt =>
      rw [Nat.one_shiftLeft] at hlt
      have : 2 ^ (7 * i) ≤ 2 ^ 49 := Nat.pow_le_pow_right (by omega) (by omega)
      omega
    | case2 i hi hge ih => exact ih
    | case3 => rfl
  rw [minsz]
  split
  · rfl
  · exact h 1

example : minsz (2 ^ 50) = .abort ∧ getipacked (encodemin (2 ^ 50)) = .ok (2 ^ 50, 8) :=
  ⟨packed_size_dies _ (by decide), by
    have := packed_roundtrip (2 ^ 50) (by decide) []
    rw [List.append_nil] at this
    rw [this]
    decide +kernel⟩

/-- The byte 0xff, which the compiler never emits first, makes the reader loop forever. -/
theorem getipacked_spins (fuel : Nat) : ∀ len mask : _, mask ≠ 0#8 →
    (mask = 0x80#8 ∨ mask = 0xc0#8 ∨ mask = 0xe0#8 ∨ mask = 0xf0#8 ∨ mask = 0xf8#8 ∨ mask = 0xfc#8 ∨ mask = 0xfe#8 ∨
      mask = 0xff#8) → lenloop 0xff#8 fuel mask len = .spin := by
  induction fuel with
  | zero => intros; rfl
  | succ fuel ih =>
    intro len mask _ hm
    rw [lenloop]
    rw [if_pos (by rcases hm with h | h | h | h | h | h | h | h <;> subst h <;> decide)]
    apply ih
    · rcases hm with h | h | h | h | h | h | h | h <;> subst h <;> decide
    · rcases hm with h | h | h | h | h | h | h | h <;> subst h <;> decide

example : lenloop 0xff#8 1000000 0x80 1 = .spin := getipacked_spins _ _ _ (by decide) (Or.inl rfl)

/-! ## C68: kinds, element types, members, names -/

/-- The bytes `e` are the descriptor the compiler emits for `d`, without the size in front. -/
def Body (d : Desc) (e : List Byte) : Prop :=
  ∃ sub n, tydescsub d = .ok (.seq (.cons (.min n) sub)) ∧ e = emits sub

/-- At the address `a` the compiler's descriptor of a type named `nm`, defined as `t`, is found. -/
def NameAt (env : Env) (a : Addr) (nm : List Byte) (t : Desc) : Prop :=
  ∃ b n rest, tydescblob nm t = .ok b ∧ blobsz b = .ok n ∧ env (List.ofFn a) = some (emit b ++ rest)

/-- A cursor lists these names and descriptors in turn, and then is at its end. -/
inductive Lists : Cursor → List (List Byte × List Byte) → Prop where
  | done (c : Cursor) : c.nelt = 0 → ncnext c = .ok (([], []), c) → Lists c []
  | next (c c' : Cursor) (x : List Byte × List Byte) (l : List (List Byte × List Byte)) :
      ncpeek c = .ok x → ncnext c = .ok (x, c') → Lists c' l → Lists c (x :: l)

/-- The descriptors of element types, in order, without names. -/
inductive Elems : Descs → List (List Byte × List Byte) → Prop where
  | nil : Elems .nil []
  | cons {t ts e l} : Body t e → Elems ts l → Elems (.cons t ts) (([], e) :: l)

/-- The names and descriptors of members, in order. -/
inductive Members : DMembs → List (List Byte × List Byte) → Prop where
  | nil : Members .nil []
  | cons {nm t ts e l} : Body t e → Members ts l → Members (.cons nm t ts) ((nm, e) :: l)

/-- The names and descriptors of constructors, in order; a constructor without value has the
descriptor "no type". -/
inductive Constrs : DUcons → List (List Byte × List Byte) → Prop where
  | nil : Constrs .nil []
  | bare {nm us l} : Constrs us l → Constrs (.bare nm us) ((nm, [0]) :: l)
  | cons {nm t ts e l} : Body t e → Constrs ts l → Constrs (.cons nm t ts) ((nm, e) :: l)

/-- What a running program should be told about a type. -/
def Shows (env : Env) : Desc → TD → Prop
  | .atom t, td => td = .atom t
  | .ptr t, td => ∃ e, td = .ptr e ∧ Body t e
  | .slice t, td => ∃ e, td = .slice e ∧ Body t e
  | .array n t, td => ∃ e, td = .array (n.getD 0) e ∧ Body t e
  | .func ts, td => ∃ c l, td = .func c ∧ c.nelt = ts.length ∧ Elems ts l ∧ Lists c l
  | .tuple ts, td => ∃ c l, td = .tuple c ∧ c.nelt = ts.length ∧ Elems ts l ∧ Lists c l
  | .struct ms, td => ∃ c l, td = .struct c ∧ c.nelt = ms.length ∧ Members ms l ∧ Lists c l
  | .union us, td => ∃ c l, td = .union c ∧ c.nelt = us.length ∧ Constrs us l ∧ Lists c l
  | .name a _, td => ∀ nm t, NameAt env a nm t → ∃ e, td = .name nm e ∧ Body t e

theorem sized_ok {sub : Blobs} {b : Blob} (h : sized sub = .ok b) :
    ∃ n, blobsszs sub = .ok n ∧ b = .seq (.cons (.min n) sub) := by
  rw [sized] at h
  obtain ⟨n, hn, h⟩ := Res.bind_eq_ok.1 h
  cases h
  exact ⟨n, hn, rfl⟩

theorem tydescsub_ok {d : Desc} {b : Blob} (h : tydescsub d = .ok b) :
    ∃ sub n, tysub d = .ok sub ∧ blobsszs sub = .ok n ∧ b = .seq (.cons (.min n) sub) := by
  rw [tydescsub] at h
  obtain ⟨sub, hs, h⟩ := Res.bind_eq_ok.1 h
  obtain ⟨n, hn, h⟩ := sized_ok h
  exact ⟨sub, n, hs, hn, h⟩

/-- A descriptor within another one: its size and its body. -/
theorem sub_emit {t : Desc} {b : Blob} {k : Nat} (h : tydescsub t = .ok b) (hb : blobsz b = .ok k) :
    ∃ e, Body t e ∧ e.length < 2 ^ 56 ∧ emit b = encodemin e.length ++ e := by
  obtain ⟨sub, n, hs, hn, rfl⟩ := tydescsub_ok h
  refine ⟨emits sub, ⟨sub, n, h, rfl⟩, ?_, ?_⟩
  · rw [blobsszs_ok _ _ hn]
    rw [blobsz] at hb
    obtain ⟨x, y, hx, _, _⟩ := blobsszs_cons hb
    have := (minsz_ok hx).1
    omega
  · rw [emit, emits, emit, blobsszs_ok _ _ hn]

theorem body_ok {d : Desc} {e : List Byte} (h : Body d e) :
    ∃ sub n, tysub d = .ok sub ∧ blobsszs sub = .ok n ∧ e = emits sub := by
  obtain ⟨sub, n, h, rfl⟩ := h
  obtain ⟨sub', n', hs, hn, he⟩ := tydescsub_ok h
  cases he
  exact ⟨_, _, hs, hn, rfl⟩

theorem lists_nil (n : Bool) (rest : List Byte) : Lists ⟨0, rest, n, true⟩ [] :=
  .done _ rfl (by rw [ncnext, if_pos (Or.inr rfl)])

theorem elems_lists : ∀ (ts : Descs) (bs : Blobs) (k : Nat) (rest : List Byte), tydescsubs ts = .ok bs → blobsszs bs = .ok k →
    ∃ l, Elems ts l ∧ Lists ⟨ts.length, emits bs ++ rest, false, true⟩ l
  | .nil, bs, k, rest, h, hk => by rw [tydescsubs] at h; cases h; exact ⟨[], .nil, lists_nil _ _⟩
  | .cons t ts, bs, k, rest, h, hk => by
    rw [tydescsubs] at h
    obtain ⟨b, hb, h⟩ := Res.bind_eq_ok.1 h
    obtain ⟨bs', hbs, h⟩ := Res.bind_eq_ok.1 h
    cases h
    obtain ⟨x, y, hx, hy, _⟩ := blobsszs_cons hk
    obtain ⟨e, he, hl, hem⟩ := sub_emit hb hx
    obtain ⟨l, h1, h2⟩ := elems_lists ts bs' y rest hbs hy
    refine ⟨_, .cons he h1, ?_⟩
    have hn : ncnext ⟨(Descs.cons t ts).length, emits (.cons b bs') ++ rest, false, true⟩ =
        .ok (([], e), ⟨ts.length, emits bs' ++ rest, false, true⟩) := by
      rw [emits, hem, List.append_assoc, List.append_assoc]
      exact ncnext_plain _ _ _ hl
    exact .next _ _ _ _ (ncpeek_eq _ _ hn) hn h2

theorem namevec_emits (nm : List Byte) : emits (namevec nm) = encodemin nm.length ++ nm := by
  rw [namevec, emits, emits, emits, emit, emit, List.append_nil]

theorem namevec_sz {nm : List Byte} {k : Nat} (h : blobsszs (namevec nm) = .ok k) : nm.length < 2 ^ 56 := by
  obtain ⟨x, y, hx, _, _⟩ := blobsszs_cons h
  have := (minsz_ok hx).1
  omega

theorem members_lists : ∀ (ts : DMembs) (bs : Blobs) (k : Nat) (rest : List Byte), structmembs ts = .ok bs →
    blobsszs bs = .ok k → ∃ l, Members ts l ∧ Lists ⟨ts.length, emits bs ++ rest, true, true⟩ l
  | .nil, bs, k, rest, h, hk => by rw [structmembs] at h; cases h; exact ⟨[], .nil, lists_nil _ _⟩
  | .cons nm t ts, bs, k, rest, h, hk => by
    rw [structmembs] at h
    obtain ⟨b, hb, h⟩ := Res.bind_eq_ok.1 h
    obtain ⟨bs', hbs, h⟩ := Res.bind_eq_ok.1 h
    cases h
    obtain ⟨w, z, hw, hk, _⟩ := blobsszs_app hk
    obtain ⟨x, y, hx, hy, _⟩ := blobsszs_cons hk
    obtain ⟨e, he, hl, hem⟩ := sub_emit hb hx
    obtain ⟨l, h1, h2⟩ := members_lists ts bs' y rest hbs hy
    refine ⟨_, .cons he h1, ?_⟩
    have hn : ncnext ⟨(DMembs.cons nm t ts).length, emits ((namevec nm).app (.cons b bs')) ++ rest, true, true⟩ =
        .ok ((nm, e), ⟨ts.length, emits bs' ++ rest, true, true⟩) := by
      rw [emits_app, namevec_emits, emits, hem, List.append_assoc, List.append_assoc, List.append_assoc, List.append_assoc]
      exact ncnext_named _ _ _ _ (namevec_sz hw) hl
    exact .next _ _ _ _ (ncpeek_eq _ _ hn) hn h2

theorem constrs_lists : ∀ (ts : DUcons) (bs : Blobs) (k : Nat) (rest : List Byte), unionmembs ts = .ok bs →
    blobsszs bs = .ok k → ∃ l, Constrs ts l ∧ Lists ⟨ts.length, emits bs ++ rest, true, true⟩ l
  | .nil, bs, k, rest, h, hk => by rw [unionmembs] at h; cases h; exact ⟨[], .nil, lists_nil _ _⟩
  | .bare nm ts, bs, k, rest, h, hk => by
    rw [unionmembs] at h
    obtain ⟨bs', hbs, h⟩ := Res.bind_eq_ok.1 h
    cases h
    obtain ⟨w, z, hw, hk, _⟩ := blobsszs_app hk
    obtain ⟨x, y, hx, hy, _⟩ := blobsszs_cons hk
    obtain ⟨x', y', hx', hy', _⟩ := blobsszs_cons hy
    obtain ⟨l, h1, h2⟩ := constrs_lists ts bs' y' rest hbs hy'
    refine ⟨_, .bare h1, ?_⟩
    have hn : ncnext ⟨(DUcons.bare nm ts).length, emits ((namevec nm).app (.cons (.min 1) (.cons (.i8 0) bs'))) ++ rest,
        true, true⟩ = .ok ((nm, [0]), ⟨ts.length, emits bs' ++ rest, true, true⟩) := by
      rw [emits_app, namevec_emits, emits, emits, emit, emit, List.append_assoc, List.append_assoc, List.append_assoc,
        List.append_assoc]
      exact ncnext_named _ _ [0] _ (namevec_sz hw) (by decide)
    exact .next _ _ _ _ (ncpeek_eq _ _ hn) hn h2
  | .cons nm t ts, bs, k, rest, h, hk => by
    rw [unionmembs] at h
    obtain ⟨b, hb, h⟩ := Res.bind_eq_ok.1 h
    obtain ⟨bs', hbs, h⟩ := Res.bind_eq_ok.1 h
    cases h
    obtain ⟨w, z, hw, hk, _⟩ := blobsszs_app hk
    obtain ⟨x, y, hx, hy, _⟩ := blobsszs_cons hk
    obtain ⟨e, he, hl, hem⟩ := sub_emit hb hx
    obtain ⟨l, h1, h2⟩ := constrs_lists ts bs' y rest hbs hy
    refine ⟨_, .cons he h1, ?_⟩
    have hn : ncnext ⟨(DUcons.cons nm t ts).length, emits ((namevec nm).app (.cons b bs')) ++ rest, true, true⟩ =
        .ok ((nm, e), ⟨ts.length, emits bs' ++ rest, true, true⟩) := by
      rw [emits_app, namevec_emits, emits, hem, List.append_assoc, List.append_assoc, List.append_assoc, List.append_assoc]
      exact ncnext_named _ _ _ _ (namevec_sz hw) hl
    exact .next _ _ _ _ (ncpeek_eq _ _ hn) hn h2

/-- The descriptor found at the address of a named type. -/
theorem nameAt_getenc {env : Env} {a : Addr} {nm : List Byte} {t : Desc} (h : NameAt env a nm t) :
    ∃ e, Body t e ∧ e.length < 2 ^ 56 ∧ nm.length < 2 ^ 56 ∧
      getenc env (List.ofFn a) = .ok (28#8 :: (encodemin nm.length ++ (nm ++ (encodemin e.length ++ (e ++ []))))) := by
  obtain ⟨b, n, rest, hb, hn, henv⟩ := h
  rw [tydescblob] at hb
  obtain ⟨sub, hs, hb⟩ := Res.bind_eq_ok.1 hb
  obtain ⟨k, hk, hb⟩ := Res.bind_eq_ok.1 hb
  cases hb
  rw [namesub] at hs
  obtain ⟨b, htb, hs⟩ := Res.bind_eq_ok.1 hs
  cases hs
  have hk' := hk
  rw [blobsz] at hk'
  obtain ⟨x, y, _, hy, _⟩ := blobsszs_cons hk'
  obtain ⟨w, z, hw, hz, _⟩ := blobsszs_app hy
  obtain ⟨x', y', hx', hy', _⟩ := blobsszs_cons hz
  obtain ⟨e, he, hl, hem⟩ := sub_emit htb hx'
  refine ⟨e, he, hl, namevec_sz hw, ?_⟩
  have hsz := blobsz_ok _ _ hk
  have hbody : emit (.seq (.cons (.i8 28) ((namevec nm).app (.cons b .nil)))) =
      28#8 :: (encodemin nm.length ++ (nm ++ (encodemin e.length ++ (e ++ [])))) := by
    rw [emit, emits, emit, emits_app, namevec_emits, emits, emits, hem]
    simp
  rw [blobsz] at hn
  obtain ⟨p, q, hp, _, _⟩ := blobsszs_cons hn
  have hk56 := (minsz_ok hp).1
  rw [hbody] at hsz
  apply getenc_ok env _ _ rest (by omega)
  rw [henv, emit, emits, emits, emits, emit, hbody, hsz]
  simp

/-- C68: the descriptor of a type shows that type. -/
theorem descriptor_shows (env : Env) (d : Desc) (e : List Byte) (h : Body d e) (fuel : Nat)
    (hd : ∀ t, d = .atom t → 1 ≤ t ∧ t ≤ 17) (hn : ∀ a l, d = .name a l → ∃ nm t, NameAt env a nm t) :
    ∃ td, typedesc env (fuel + 2) e = .ok td ∧ Shows env d td := by
  obtain ⟨sub, n, hs, hsz, rfl⟩ := body_ok h
  cases d with
  | atom t =>
    rw [tysub] at hs
    cases hs
    obtain ⟨h1, h2⟩ := hd t rfl
    refine ⟨.atom t, ?_, rfl⟩
    rw [typedesc]
    rw [show rdChk (emits (.cons (.i8 (BitVec.ofNat 8 t)) .nil)) 0 = .ok (BitVec.ofNat 8 t) from rfl, Res.bind_ok]
    rw [show emits (.cons (.i8 (BitVec.ofNat 8 t)) .nil) = BitVec.ofNat 8 t :: [] from rfl, suffix_one, Res.bind_ok]
    have : (BitVec.ofNat 8 t).toNat = t := by rw [BitVec.toNat_ofNat]; omega
    rw [this, if_pos (by omega)]
    rfl
  | ptr t =>
    rw [tysub] at hs
    obtain ⟨b, hb, hs⟩ := Res.bind_eq_ok.1 hs
    cases hs
    obtain ⟨_, _, _, hsz, _⟩ := blobsszs_cons hsz
    obtain ⟨_, _, hsz, _, _⟩ := blobsszs_cons hsz
    obtain ⟨e, he, hl, hem⟩ := sub_emit hb hsz
    refine ⟨.ptr e, ?_, e, rfl, he⟩
    rw [show emits (.cons (.i8 18) (.cons b .nil)) = 18 :: (emit b ++ []) from rfl, hem, List.append_assoc]
    rw [typedesc, rdChk_cons, Res.bind_ok, suffix_one,
      Res.bind_ok, if_neg (by decide), if_pos (by rfl), getsub_ok _ _ hl]
    rfl
  | slice t =>
    rw [tysub] at hs
    obtain ⟨b, hb, hs⟩ := Res.bind_eq_ok.1 hs
    cases hs
    obtain ⟨_, _, _, hsz, _⟩ := blobsszs_cons hsz
    obtain ⟨_, _, hsz, _, _⟩ := blobsszs_cons hsz
    obtain ⟨e, he, hl, hem⟩ := sub_emit hb hsz
    refine ⟨.slice e, ?_, e, rfl, he⟩
    rw [show emits (.cons (.i8 20) (.cons b .nil)) = 20 :: (emit b ++ []) from rfl, hem, List.append_assoc]
    rw [typedesc, rdChk_cons, Res.bind_ok, suffix_one,
      Res.bind_ok, if_neg (by decide), if_neg (by decide), if_neg (by decide), if_pos (by rfl), getsub_ok _ _ hl]
    rfl
  | array m t =>
    rw [tysub] at hs
    obtain ⟨b, hb, hs⟩ := Res.bind_eq_ok.1 hs
    cases hs
    obtain ⟨_, _, _, hsz, _⟩ := blobsszs_cons hsz
    obtain ⟨_, _, hti, hsz, _⟩ := blobsszs_app hsz
    obtain ⟨_, _, hm, hsz, _⟩ := blobsszs_cons hsz
    obtain ⟨_, _, hsz, _, _⟩ := blobsszs_cons hsz
    obtain ⟨_, _, h1, hti, _⟩ := blobsszs_cons hti
    obtain ⟨_, _, h2, hti, _⟩ := blobsszs_cons hti
    have h1 := (minsz_ok h1).1
    have h2 := (minsz_ok h2).1
    have h3 := (minsz_ok hm).1
    obtain ⟨e, he, hl, hem⟩ := sub_emit hb hsz
    refine ⟨.array (m.getD 0) e, ?_, e, rfl, he⟩
    rw [emits, emits_app, encodetypeinfo, emits, emits, emits, emits, emits, emits, emit, emit, emit, emit, hem,
      List.append_nil, List.append_nil, List.append_assoc]
    generalize tysize (.array m (lay t)) = s at h1 ⊢
    generalize tyalign (.array m (lay t)) = al at h2 ⊢
    generalize m.getD 0 = m at h3 ⊢
    rw [List.singleton_append]
    rw [typedesc, rdChk_cons, Res.bind_ok, suffix_one, Res.bind_ok,
      if_neg (by decide), if_neg (by decide), if_neg (by decide), if_neg (by decide), if_pos (by rfl),
      skiptypeinfo_ok _ _ (by omega) (by omega), Res.bind_ok, getipacked_encodemin _ (by omega), Res.bind_ok]
    dsimp only
    rw [suffix_mid, Res.bind_ok]
    have := getsub_ok e [] hl
    rw [List.append_nil] at this
    rw [this]
    rfl
  | func ts =>
    rw [tysub] at hs
    obtain ⟨bs, hb, hs⟩ := Res.bind_eq_ok.1 hs
    cases hs
    obtain ⟨_, _, _, hsz, _⟩ := blobsszs_cons hsz
    obtain ⟨_, _, hm, hsz, _⟩ := blobsszs_cons hsz
    have h3 := (minsz_ok hm).1
    obtain ⟨l, h1, h2⟩ := elems_lists ts bs _ [] hb hsz
    rw [List.append_nil] at h2
    refine ⟨.func ⟨ts.length, emits bs, false, true⟩, ?_, _, l, rfl, rfl, h1, h2⟩
    rw [emits, emits, emit, emit, List.singleton_append]
    rw [typedesc, rdChk_cons, Res.bind_ok, suffix_one, Res.bind_ok,
      if_neg (by decide), if_neg (by decide), if_pos (by rfl), lentypecursor_ok _ (by omega)]
    rfl
  | tuple ts =>
    rw [tysub] at hs
    obtain ⟨bs, hb, hs⟩ := Res.bind_eq_ok.1 hs
    cases hs
    obtain ⟨_, _, _, hsz, _⟩ := blobsszs_cons hsz
    obtain ⟨_, _, hti, hsz, _⟩ := blobsszs_app hsz
    obtain ⟨_, _, hm, hsz, _⟩ := blobsszs_cons hsz
    obtain ⟨_, _, h1, hti, _⟩ := blobsszs_cons hti
    obtain ⟨_, _, h2, hti, _⟩ := blobsszs_cons hti
    have h1 := (minsz_ok h1).1
    have h2 := (minsz_ok h2).1
    have h3 := (minsz_ok hm).1
    obtain ⟨l, hl1, hl2⟩ := elems_lists ts bs _ [] hb hsz
    rw [List.append_nil] at hl2
    refine ⟨.tuple ⟨ts.length, emits bs, false, true⟩, ?_, _, l, rfl, rfl, hl1, hl2⟩
    rw [emits, emits_app, encodetypeinfo, emits, emits, emits, emits, emit, emit, emit, emit,
      List.append_nil, List.append_assoc]
    generalize tysize (.tuple (lays ts)) = s at h1 ⊢
    generalize tyalign (.tuple (lays ts)) = al at h2 ⊢
    rw [List.singleton_append]
    rw [typedesc, rdChk_cons, Res.bind_ok, suffix_one, Res.bind_ok,
      if_neg (by decide), if_neg (by decide), if_neg (by decide), if_neg (by decide), if_neg (by decide), if_pos (by rfl),
      skiptypeinfo_ok _ _ (by omega) (by omega), Res.bind_ok, lentypecursor_ok _ (by omega)]
    rfl
  | struct ts =>
    rw [tysub] at hs
    obtain ⟨bs, hb, hs⟩ := Res.bind_eq_ok.1 hs
    cases hs
    obtain ⟨_, _, _, hsz, _⟩ := blobsszs_cons hsz
    obtain ⟨_, _, hti, hsz, _⟩ := blobsszs_app hsz
    obtain ⟨_, _, hm, hsz, _⟩ := blobsszs_cons hsz
    obtain ⟨_, _, h1, hti, _⟩ := blobsszs_cons hti
    obtain ⟨_, _, h2, hti, _⟩ := blobsszs_cons hti
    have h1 := (minsz_ok h1).1
    have h2 := (minsz_ok h2).1
    have h3 := (minsz_ok hm).1
    obtain ⟨l, hl1, hl2⟩ := members_lists ts bs _ [] hb hsz
    rw [List.append_nil] at hl2
    refine ⟨.struct ⟨ts.length, emits bs, true, true⟩, ?_, _, l, rfl, rfl, hl1, hl2⟩
    rw [emits, emits_app, encodetypeinfo, emits, emits, emits, emits, emit, emit, emit, emit,
      List.append_nil, List.append_assoc]
    generalize tysize (.struct (laym ts)) = s at h1 ⊢
    generalize tyalign (.struct (laym ts)) = al at h2 ⊢
    rw [List.singleton_append]
    rw [typedesc, rdChk_cons, Res.bind_ok, suffix_one, Res.bind_ok,
      if_neg (by decide), if_neg (by decide), if_neg (by decide), if_neg (by decide), if_neg (by decide),
      if_neg (by decide), if_pos (by rfl),
      skiptypeinfo_ok _ _ (by omega) (by omega), Res.bind_ok, lennamecursor_ok _ (by omega)]
    rfl
  | union ts =>
    rw [tysub] at hs
    obtain ⟨bs, hb, hs⟩ := Res.bind_eq_ok.1 hs
    cases hs
    obtain ⟨_, _, _, hsz, _⟩ := blobsszs_cons hsz
    obtain ⟨_, _, hti, hsz, _⟩ := blobsszs_app hsz
    obtain ⟨_, _, hm, hsz, _⟩ := blobsszs_cons hsz
    obtain ⟨_, _, h1, hti, _⟩ := blobsszs_cons hti
    obtain ⟨_, _, h2, hti, _⟩ := blobsszs_cons hti
    have h1 := (minsz_ok h1).1
    have h2 := (minsz_ok h2).1
    have h3 := (minsz_ok hm).1
    obtain ⟨l, hl1, hl2⟩ := constrs_lists ts bs _ [] hb hsz
    rw [List.append_nil] at hl2
    refine ⟨.union ⟨ts.length, emits bs, true, true⟩, ?_, _, l, rfl, rfl, hl1, hl2⟩
    rw [emits, emits_app, encodetypeinfo, emits, emits, emits, emits, emit, emit, emit, emit,
      List.append_nil, List.append_assoc]
    generalize tysize (.union (layu ts)) = s at h1 ⊢
    generalize tyalign (.union (layu ts)) = al at h2 ⊢
    rw [List.singleton_append]
    rw [typedesc, rdChk_cons, Res.bind_ok, suffix_one, Res.bind_ok,
      if_neg (by decide), if_neg (by decide), if_neg (by decide), if_neg (by decide), if_neg (by decide),
      if_neg (by decide), if_neg (by decide), if_pos (by rfl),
      skiptypeinfo_ok _ _ (by omega) (by omega), Res.bind_ok, lennamecursor_ok _ (by omega)]
    rfl
  | name a l =>
    rw [tysub] at hs
    cases hs
    have key : ∀ nm t, NameAt env a nm t → ∃ e, Body t e ∧
        typedesc env (fuel + 2) (emits (.cons (.i8 (28 ||| 0x80)) (.cons (.ref a) .nil))) = .ok (.name nm e) := by
      intro nm t hat
      obtain ⟨e, he, hl, hnm, hg⟩ := nameAt_getenc hat
      refine ⟨e, he, ?_⟩
      rw [show emits (.cons (.i8 (28 ||| 0x80)) (.cons (.ref a) .nil)) = 156#8 :: (List.ofFn a ++ []) from rfl]
      rw [typedesc, rdChk_cons, Res.bind_ok, suffix_one,
        Res.bind_ok, if_neg (by decide), if_neg (by decide), if_neg (by decide), if_neg (by decide), if_neg (by decide),
        if_neg (by decide), if_neg (by decide), if_neg (by decide), if_neg (by decide), if_pos (by rfl),
        address_ok, Res.bind_ok, hg, Res.bind_ok]
      rw [typedesc, rdChk_cons, Res.bind_ok, suffix_one,
        Res.bind_ok, if_neg (by decide), if_neg (by decide), if_neg (by decide), if_neg (by decide), if_neg (by decide),
        if_neg (by decide), if_neg (by decide), if_neg (by decide), if_pos (by rfl), namedesc_ok _ _ _ hnm hl]
      rfl
    obtain ⟨nm, t, hat⟩ := hn a l rfl
    obtain ⟨e, he, htd⟩ := key nm t hat
    refine ⟨_, htd, fun nm' t' hat' => ?_⟩
    obtain ⟨e', he', htd'⟩ := key nm' t' hat'
    rw [htd] at htd'
    exact ⟨e', Res.ok.inj htd', he'⟩

/-- Computing a descriptor. -/
theorem body_of (d : Desc) (e : List Byte)
    (h : (tysub d >>= fun s => blobsszs s >>= fun _ => Res.ok (emits s)) = .ok e) : Body d e := by
  obtain ⟨sub, hs, h⟩ := Res.bind_eq_ok.1 h
  obtain ⟨n, hn, h⟩ := Res.bind_eq_ok.1 h
  cases h
  refine ⟨sub, n, ?_, rfl⟩
  rw [tydescsub, hs, Res.bind_ok, sized, blobsz, hn]
  rfl

/-- A struct `a : byte#, bc : int16[300]`. -/
example : ∃ e, Body (.struct (.cons [97] (.ptr (.atom 9)) (.cons [98, 99] (.array (some 300) (.atom 5)) .nil))) e ∧
    typedesc (fun _ => none) 2 e = .ok (.struct ⟨2, [1, 97, 3, 18, 1, 9, 2, 98, 99, 8, 21, 152, 9, 2, 172, 4, 1, 5], true, true⟩) :=
  ⟨[23, 160, 9, 8, 2, 1, 97, 3, 18, 1, 9, 2, 98, 99, 8, 21, 152, 9, 2, 172, 4, 1, 5], body_of _ _ (by decide +kernel),
    by decide +kernel⟩

/-- Computing the descriptor of a named type. -/
theorem nameAt_of (env : Env) (a : Addr) (nm e rest : List Byte) (t : Desc)
    (h : (tydescblob nm t >>= fun b => blobsz b >>= fun _ => Res.ok (emit b)) = .ok e)
    (he : env (List.ofFn a) = some (e ++ rest)) : NameAt env a nm t := by
  obtain ⟨b, hb, h⟩ := Res.bind_eq_ok.1 h
  obtain ⟨n, hn, h⟩ := Res.bind_eq_ok.1 h
  cases h
  exact ⟨b, n, rest, hb, hn, he⟩

/-- A named type, `type foo = byte[:]`: the indirection is followed. -/
example : ∃ td, typedesc (fun _ => some [9, 28, 3, 102, 111, 111, 3, 20, 1, 9, 77]) 2 [156, 0, 0, 0, 0, 0, 0, 0, 0] = .ok td ∧
    Shows (fun _ => some [9, 28, 3, 102, 111, 111, 3, 20, 1, 9, 77]) (.name (fun _ => 0) .slice) td :=
  descriptor_shows _ (.name (fun _ => 0) .slice) _ (body_of _ _ (by decide +kernel)) 0 (by intro t h; cases h)
    (by
      intro a l h
      exact ⟨[102, 111, 111], .slice (.atom 9), nameAt_of _ _ _ [9, 28, 3, 102, 111, 111, 3, 20, 1, 9] [77] _
        (by decide +kernel) rfl⟩)

/-! ## C68: sizes and alignments -/

/-- The descriptor of an aggregate has its size and alignment after its kind. -/
theorem info_head (env : Env) (f : Nat) (k : Byte) (t : Ty) (bs : Blobs) (n : Nat)
    (hsz : blobsszs (.cons (.i8 k) ((encodetypeinfo t).app bs)) = .ok n)
    (hk : k = 21 ∨ k = 22 ∨ k = 23 ∨ k = 24) :
    typeinfo env (f + 1) (emits (.cons (.i8 k) ((encodetypeinfo t).app bs))) = .ok (tysize t, tyalign t) := by
  obtain ⟨_, _, _, hsz, _⟩ := blobsszs_cons hsz
  obtain ⟨_, _, hti, hsz, _⟩ := blobsszs_app hsz
  obtain ⟨_, _, h1, hti, _⟩ := blobsszs_cons hti
  obtain ⟨_, _, h2, hti, _⟩ := blobsszs_cons hti
  have h1 := (minsz_ok h1).1
  have h2 := (minsz_ok h2).1
  rw [emits, emits_app, encodetypeinfo, emits, emits, emits, emit, emit, emit, List.append_nil, List.append_assoc,
    List.singleton_append, typeinfo, rdChk_cons, Res.bind_ok, suffix_one, Res.bind_ok]
  have e1 : ¬ k.toNat ≤ 17 := by rcases hk with h | h | h | h <;> subst h <;> decide
  have e2 : k ≠ 18 := by rcases hk with h | h | h | h <;> subst h <;> decide
  have e3 : k ≠ 19 := by rcases hk with h | h | h | h <;> subst h <;> decide
  have e4 : k ≠ 20 := by rcases hk with h | h | h | h <;> subst h <;> decide
  rw [if_neg e1, if_neg e2, if_neg e3, if_neg e4, if_pos hk]
  exact gettypeinfo_ok _ _ (by omega) (by omega) _

/-- Following names from `d` leads to the type `t`, which is not a name; `lay` is the layout of what is named. -/
inductive EndsIn (env : Env) : Desc → Desc → Prop where
  | atom (t : Nat) : 1 ≤ t → t ≤ 17 → EndsIn env (.atom t) (.atom t)
  | ptr (t : Desc) : EndsIn env (.ptr t) (.ptr t)
  | slice (t : Desc) : EndsIn env (.slice t) (.slice t)
  | func (ts : Descs) : EndsIn env (.func ts) (.func ts)
  | array (n : Option Nat) (t : Desc) : EndsIn env (.array n t) (.array n t)
  | tuple (ts : Descs) : EndsIn env (.tuple ts) (.tuple ts)
  | struct (ms : DMembs) : EndsIn env (.struct ms) (.struct ms)
  | union (us : DUcons) : EndsIn env (.union us) (.union us)
  | name (a : Addr) (nm : List Byte) (t u : Desc) :
      NameAt env a nm t → EndsIn env t u → EndsIn env (.name a (lay t)) u

/-- The full claim: the run-time size and alignment of every type are those the compiler uses. -/
def TypeinfoFull : Prop :=
  ∀ env d t e, EndsIn env d t → Body d e → ∃ k, ∀ f, k ≤ f → typeinfo env f e = .ok (tysize (lay d), tyalign (lay d))

/-- The claim for all types but `bool` and functions (and names for these). -/
theorem typeinfo_partial (env : Env) (d t : Desc) (h : EndsIn env d t) (hb : t ≠ .atom 2) (hf : ∀ ts, t ≠ .func ts) :
    ∃ k, ∀ f, k ≤ f → ∀ e, Body d e → typeinfo env f e = .ok (tysize (lay d), tyalign (lay d)) := by
  induction h with
  | atom t h1 h2 =>
    refine ⟨1, fun f hf e he => ?_⟩
    obtain ⟨f, rfl⟩ : ∃ g, f = g + 1 := ⟨f - 1, by omega⟩
    obtain ⟨sub, n, hs, hsz, rfl⟩ := body_ok he
    rw [tysub] at hs
    cases hs
    rw [typeinfo]
    rw [show emits (.cons (.i8 (BitVec.ofNat 8 t)) .nil) = BitVec.ofNat 8 t :: [] from rfl, rdChk_cons, Res.bind_ok,
      suffix_one, Res.bind_ok]
    have : (BitVec.ofNat 8 t).toNat = t := by rw [BitVec.toNat_ofNat]; omega
    rw [this, if_pos (by omega)]
    have hb : t ≠ 2 := fun e => hb (by rw [e])
    rw [lay]
    have key : ∀ t : Fin 18, 1 ≤ t.val → t.val ≠ 2 →
        atominfo t.val = (tysize (atomTy t.val), tyalign (atomTy t.val)) := by
      decide +kernel
    exact congrArg Res.ok (key ⟨t, by omega⟩ h1 hb)
  | ptr t =>
    refine ⟨1, fun f hf e he => ?_⟩
    obtain ⟨f, rfl⟩ : ∃ g, f = g + 1 := ⟨f - 1, by omega⟩
    obtain ⟨sub, n, hs, hsz, rfl⟩ := body_ok he
    rw [tysub] at hs
    obtain ⟨b, hb, hs⟩ := Res.bind_eq_ok.1 hs
    cases hs
    rw [emits, emit, List.singleton_append, typeinfo, rdChk_cons, Res.bind_ok, suffix_one, Res.bind_ok,
      if_neg (by decide), if_pos (by rfl)]
    rfl
  | slice t =>
    refine ⟨1, fun f hf e he => ?_⟩
    obtain ⟨f, rfl⟩ : ∃ g, f = g + 1 := ⟨f - 1, by omega⟩
    obtain ⟨sub, n, hs, hsz, rfl⟩ := body_ok he
    rw [tysub] at hs
    obtain ⟨b, hb, hs⟩ := Res.bind_eq_ok.1 hs
    cases hs
    rw [emits, emit, List.singleton_append, typeinfo, rdChk_cons, Res.bind_ok, suffix_one, Res.bind_ok,
      if_neg (by decide), if_neg (by decide), if_neg (by decide), if_pos (by rfl)]
    rfl
  | func ts => exact absurd rfl (hf ts)
  | array m t =>
    refine ⟨1, fun f hf e he => ?_⟩
    obtain ⟨f, rfl⟩ : ∃ g, f = g + 1 := ⟨f - 1, by omega⟩
    obtain ⟨sub, n, hs, hsz, rfl⟩ := body_ok he
    rw [tysub] at hs
    obtain ⟨b, hb, hs⟩ := Res.bind_eq_ok.1 hs
    cases hs
    rw [lay]
    exact info_head env f 21 _ _ _ hsz (by decide)
  | tuple ts =>
    refine ⟨1, fun f hf e he => ?_⟩
    obtain ⟨f, rfl⟩ : ∃ g, f = g + 1 := ⟨f - 1, by omega⟩
    obtain ⟨sub, n, hs, hsz, rfl⟩ := body_ok he
    rw [tysub] at hs
    obtain ⟨b, hb, hs⟩ := Res.bind_eq_ok.1 hs
    cases hs
    rw [lay]
    exact info_head env f 22 _ _ _ hsz (by decide)
  | struct ts =>
    refine ⟨1, fun f hf e he => ?_⟩
    obtain ⟨f, rfl⟩ : ∃ g, f = g + 1 := ⟨f - 1, by omega⟩
    obtain ⟨sub, n, hs, hsz, rfl⟩ := body_ok he
    rw [tysub] at hs
    obtain ⟨b, hb, hs⟩ := Res.bind_eq_ok.1 hs
    cases hs
    rw [lay]
    exact info_head env f 23 _ _ _ hsz (by decide)
  | union ts =>
    refine ⟨1, fun f hf e he => ?_⟩
    obtain ⟨f, rfl⟩ : ∃ g, f = g + 1 := ⟨f - 1, by omega⟩
    obtain ⟨sub, n, hs, hsz, rfl⟩ := body_ok he
    rw [tysub] at hs
    obtain ⟨b, hb, hs⟩ := Res.bind_eq_ok.1 hs
    cases hs
    rw [lay]
    exact info_head env f 24 _ _ _ hsz (by decide)
  | name a nm t u hat _ ih =>
    obtain ⟨k, ih⟩ := ih hb hf
    refine ⟨k + 2, fun f hf e he => ?_⟩
    obtain ⟨f, rfl⟩ : ∃ g, f = g + 2 := ⟨f - 2, by omega⟩
    obtain ⟨sub, n, hs, hsz, rfl⟩ := body_ok he
    rw [tysub] at hs
    cases hs
    obtain ⟨e, he, hl, hnm, hg⟩ := nameAt_getenc hat
    rw [show emits (.cons (.i8 (28 ||| 0x80)) (.cons (.ref a) .nil)) = 156#8 :: (List.ofFn a ++ []) from rfl]
    rw [typeinfo, rdChk_cons, Res.bind_ok, suffix_one, Res.bind_ok, if_neg (by decide), if_neg (by decide),
      if_neg (by decide), if_neg (by decide), if_neg (by decide), if_neg (by decide), if_pos (by rfl), address_ok,
      Res.bind_ok, hg, Res.bind_ok]
    rw [typeinfo, rdChk_cons, Res.bind_ok, suffix_one, Res.bind_ok, if_neg (by decide), if_neg (by decide),
      if_neg (by decide), if_neg (by decide), if_neg (by decide), if_pos (by rfl), namedesc_ok _ _ _ hnm hl, Res.bind_ok]
    dsimp only
    rw [ih f (by omega) e he]
    rw [lay]
    rfl

/-- The claim fails: the run-time size of `bool` is 0, the compiler's is 1. -/
theorem typeinfo_violated : ¬ TypeinfoFull := by
  intro h
  obtain ⟨k, h⟩ := h (fun _ => none) (.atom 2) (.atom 2) [2] (.atom 2 (by omega) (by omega))
    (body_of _ _ (by decide +kernel))
  have := h (k + 1) (by omega)
  rw [typeinfo, rdChk_cons, Res.bind_ok, suffix_one, Res.bind_ok, if_pos (by decide)] at this
  revert this
  decide

/-- It fails for functions too: 8 bytes instead of 16. -/
theorem typeinfo_func (env : Env) (f : Nat) (ts : Descs) (e : List Byte) (h : Body (.func ts) e) :
    typeinfo env (f + 1) e = .ok (8, 8) ∧ tysize (lay (.func ts)) = 16 := by
  obtain ⟨sub, n, hs, hsz, rfl⟩ := body_ok h
  rw [tysub] at hs
  obtain ⟨b, hb, hs⟩ := Res.bind_eq_ok.1 hs
  cases hs
  refine ⟨?_, rfl⟩
  rw [emits, emit, List.singleton_append, typeinfo, rdChk_cons, Res.bind_ok, suffix_one, Res.bind_ok,
    if_neg (by decide), if_neg (by decide), if_pos (by rfl)]
  rfl

end Verif.Tydesc
