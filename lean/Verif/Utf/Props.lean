import Verif.Utf.Lemmas
import Verif.Utf.Spec

/-!
# C05, C06, C59, C60: UTF-8 coding and character iteration
-/

namespace Verif.Utf

theorem utf8_length (c : Nat) (h : c < 0x110000) : (utf8 c).length = charlen (BitVec.ofNat 32 c) := by
  rw [charlen_nat, BitVec.toNat_ofNat, Nat.mod_eq_of_lt (by omega)]
  unfold utf8
  (repeat' split) <;> first | rfl | omega

/-- **C05, encoding.**  `encode` of a code point writes exactly its UTF-8 bytes at
the start of the buffer, keeps the rest, and returns their number, which is
`charlen`; if the buffer is too short it returns -1 and writes nothing. -/
theorem encode_utf8 (c : Nat) (hc : c < 0x110000) (buf : List Byte) :
    charlen (BitVec.ofNat 32 c) = (utf8 c).length ∧
    encode buf (BitVec.ofNat 32 c) =
      if (utf8 c).length ≤ buf.length then
        .ok (((utf8 c).length : Int), utf8 c ++ buf.drop (utf8 c).length)
      else .ok (-1, buf) := by
  have hl := utf8_length c hc
  refine ⟨hl.symm, ?_⟩
  have hn : (BitVec.ofNat 32 c).toNat = c := by rw [BitVec.toNat_ofNat, Nat.mod_eq_of_lt (by omega)]
  split
  · next h =>
    unfold utf8 at h ⊢
    by_cases h1 : c ≤ 0x7f
    · simp only [if_pos h1] at h ⊢
      rcases buf with _ | ⟨x, t⟩
      · simp at h
      · rw [encode_1 _ (by omega), hn]; rfl
    by_cases h2 : c ≤ 0x7ff
    · simp only [if_neg h1, if_pos h2] at h ⊢
      rcases buf with _ | ⟨x, _ | ⟨y, t⟩⟩
      · simp at h
      · simp at h
      · rw [encode_2 _ (by omega) (by omega), hn]; rfl
    by_cases h3 : c ≤ 0xffff
    · simp only [if_neg h1, if_neg h2, if_pos h3] at h ⊢
      rcases buf with _ | ⟨x, _ | ⟨y, _ | ⟨z, t⟩⟩⟩
      · simp at h
      · simp at h
      · simp at h
      · rw [encode_3 _ (by omega) (by omega), hn, Nat.div_div_eq_div_mul]; rfl
    · simp only [if_neg h1, if_neg h2, if_neg h3] at h ⊢
      rcases buf with _ | ⟨x, _ | ⟨y, _ | ⟨z, _ | ⟨w, t⟩⟩⟩⟩
      · simp at h
      · simp at h
      · simp at h
      · simp at h
      · rw [encode_4 _ (by omega) (by omega), hn]; simp only [Nat.div_div_eq_div_mul]; rfl
  · next h =>
    unfold encode
    simp only
    rw [← hl, if_pos (by omega)]

example : encode [1, 2, 3, 4] (BitVec.ofNat 32 0x20ac) = .ok (3, [0xe2, 0x82, 0xac, 4]) := by decide +kernel
example : encode [1, 2] (BitVec.ofNat 32 0x20ac) = .ok (-1, [1, 2]) := by decide +kernel

theorem byte_ofNat (n : Nat) (h : n < 256) : (BitVec.ofNat 8 n).toNat = n := by
  rw [BitVec.toNat_ofNat, Nat.mod_eq_of_lt (by omega)]

/-- **C05, decoding.**  `charstep` on a UTF-8 encoded character followed by
arbitrary bytes returns the character and exactly those bytes. -/
theorem charstep_utf8 (c : Nat) (hc : c < 0x110000) (t : List Byte) :
    charstep (utf8 c ++ t) = .ok (BitVec.ofNat 32 c, t) := by
  unfold utf8
  by_cases h1 : c ≤ 0x7f
  · rw [if_pos h1]
    show charstep (_ :: t) = _
    rw [charstep_1 _ _ (by rw [byte_ofNat _ (by omega)]; omega), byte_ofNat _ (by omega)]
  by_cases h2 : c ≤ 0x7ff
  · rw [if_neg h1, if_pos h2]
    show charstep (_ :: _ :: t) = _
    have e0 := byte_ofNat (0xc0 + c / 64) (by omega)
    have e1 := byte_ofNat (0x80 + c % 64) (by omega)
    rw [charstep_2 _ _ _ (by omega) (by omega), e0, e1]
    congr 3; omega
  by_cases h3 : c ≤ 0xffff
  · rw [if_neg h1, if_neg h2, if_pos h3]
    show charstep (_ :: _ :: _ :: t) = _
    have e0 := byte_ofNat (0xe0 + c / 4096) (by omega)
    have e1 := byte_ofNat (0x80 + c / 64 % 64) (by omega)
    have e2 := byte_ofNat (0x80 + c % 64) (by omega)
    rw [charstep_3 _ _ _ _ (by omega) (by omega), e0, e1, e2]
    congr 3; omega
  · rw [if_neg h1, if_neg h2, if_neg h3]
    show charstep (_ :: _ :: _ :: _ :: t) = _
    have e0 := byte_ofNat (0xf0 + c / 262144) (by omega)
    have e1 := byte_ofNat (0x80 + c / 4096 % 64) (by omega)
    have e2 := byte_ofNat (0x80 + c / 64 % 64) (by omega)
    have e3 := byte_ofNat (0x80 + c % 64) (by omega)
    rw [charstep_4 _ _ _ _ _ (by omega) (by omega), e0, e1, e2, e3]
    congr 3; omega

example : charstep [0xf0, 0x9f, 0x98, 0x80, 0xff] = .ok (0x1f600, [0xff]) := by decide +kernel

/-- **C05, round trip through the API only**: what `encode` writes into any large
enough buffer, `decode` reads back. -/
theorem encode_decode (c : Nat) (hc : c < 0x110000) (buf : List Byte) (h : 4 ≤ buf.length) :
    ∃ n buf', encode buf (BitVec.ofNat 32 c) = .ok (n, buf') ∧ buf'.length = buf.length ∧
      decode buf' = .ok (BitVec.ofNat 32 c) := by
  have hl : (utf8 c).length ≤ 4 := by
    unfold utf8; (repeat' split) <;> simp
  have := (encode_utf8 c hc buf).2
  rw [if_pos (by omega)] at this
  refine ⟨_, _, this, ?_, ?_⟩
  · simp; omega
  · unfold decode; rw [charstep_utf8 c hc]; rfl

/-- **C05, prefix freedom.** -/
theorem utf8_prefix_free (c d : Nat) (hc : c < 0x110000) (hd : d < 0x110000)
    (h : utf8 c <+: utf8 d) : c = d := by
  obtain ⟨t, ht⟩ := h
  have h1 := charstep_utf8 c hc t
  have h2 := charstep_utf8 d hd []
  rw [List.append_nil, ← ht, h1] at h2
  simp only [Res.ok.injEq, Prod.mk.injEq] at h2
  have := congrArg BitVec.toNat h2.1
  rw [BitVec.toNat_ofNat, BitVec.toNat_ofNat, Nat.mod_eq_of_lt (by omega), Nat.mod_eq_of_lt (by omega)] at this
  exact this

example : ¬ utf8 0x41 <+: utf8 0x141 := by decide +kernel

theorem ofNat_toNat (c : Char32) : BitVec.ofNat 32 c.toNat = c := by
  apply BitVec.eq_of_toNat_eq
  rw [BitVec.toNat_ofNat, Nat.mod_eq_of_lt c.isLt]

theorem utf8_ne_nil (c : Nat) : utf8 c ≠ [] := by
  unfold utf8; (repeat' split) <;> simp

theorem utf8_pos (c : Nat) : 1 ≤ (utf8 c).length := by
  have := utf8_ne_nil c
  cases h : utf8 c with
  | nil => exact absurd h this
  | cons => simp

theorem enc_cons (c : Char32) (cs : List Char32) : enc (c :: cs) = utf8 c.toNat ++ enc cs := rfl

theorem enc_append (a b : List Char32) : enc (a ++ b) = enc a ++ enc b := by
  simp [enc, List.flatMap_append]

/-- **C06, `bychar`.**  Iterating over an encoded string yields exactly its
characters. -/
theorem bychar_enc (cs : List Char32) (h : CodePoints cs) :
    bychar ((enc cs).length + 1) (enc cs) = .ok cs := by
  have gen : ∀ (cs : List Char32) (fuel : Nat), CodePoints cs → (enc cs).length < fuel →
      bychar fuel (enc cs) = .ok cs := by
    intro cs
    induction cs with
    | nil => intro fuel _ hf; cases fuel with
      | zero => omega
      | succ n => rfl
    | cons c cs ih =>
      intro fuel hcp hf
      cases fuel with
      | zero => omega
      | succ n =>
        have hp := utf8_pos c.toNat
        rw [enc_cons] at hf ⊢
        unfold bychar
        rw [if_neg (by simp; intro h; exact absurd h (utf8_ne_nil _)),
          charstep_utf8 _ (hcp c (by simp)), Res.bind_ok]
        simp only
        rw [ih n (fun d hd => hcp d (by simp [hd])) (by simp at hf; omega), ofNat_toNat]
        rfl
  exact gen cs _ h (by omega)

example : bychar 100 [0x41, 0xc3, 0xa9, 0xe2, 0x82, 0xac] = .ok [0x41, 0xe9, 0x20ac] := by decide +kernel

theorem bycharoff_gen (cs : List Char32) : ∀ (pre : List Byte) (fuel : Nat), CodePoints cs →
    (enc cs).length < fuel →
    bycharoff (pre ++ enc cs) fuel pre.length = .ok (withEnd pre.length cs) := by
  induction cs with
  | nil => intro pre fuel _ hf; cases fuel with
    | zero => omega
    | succ n => simp [bycharoff, enc, withEnd]
  | cons c cs ih =>
    intro pre fuel hcp hf
    cases fuel with
    | zero => omega
    | succ n =>
      have hp := utf8_pos c.toNat
      rw [enc_cons] at hf ⊢
      unfold bycharoff
      rw [if_neg (by simp; intro h; exact absurd h (utf8_ne_nil _)), slice_suffix (by simp), Res.bind_ok,
        List.drop_left]
      unfold decode
      rw [charstep_utf8 _ (hcp c (by simp)), Res.bind_ok]
      simp only [Res.pure_eq, Res.bind_ok]
      have hl := utf8_length c.toNat (hcp c (by simp))
      have := ih (pre ++ utf8 c.toNat) n (fun d hd => hcp d (by simp [hd])) (by simp at hf; omega)
      rw [List.append_assoc, List.length_append] at this
      rw [← hl, this, ofNat_toNat]
      rfl

/-- The full claim about `bycharoff`: characters paired with their start offsets. -/
def CharoffClaim : Prop := ∀ cs, CodePoints cs →
  bycharoff (enc cs) ((enc cs).length + 1) 0 = .ok (withStart 0 cs)

/-- **C06, `bycharoff`, part.**  The characters are right, but the offset paired with
each is where it *ends*; missing: the start offsets promised by the documentation
(striter.myr:104-111), which is false. -/
theorem bycharoff_enc_partial (cs : List Char32) (h : CodePoints cs) :
    bycharoff (enc cs) ((enc cs).length + 1) 0 = .ok (withEnd 0 cs) := by
  have := bycharoff_gen cs [] ((enc cs).length + 1) h (by omega)
  simpa using this

/-- The documentation's own example, "ὐbὐc". -/
example : bycharoff (enc [0x1f50, 0x62, 0x1f50, 0x63]) 20 0 =
    .ok [(0x1f50, 3), (0x62, 4), (0x1f50, 7), (0x63, 8)] := by decide +kernel

/-- The claim is false: the string "a" yields ('a', 1). -/
theorem bycharoff_violated : ¬ CharoffClaim := by
  intro h
  have := h [0x61#32] (by intro c hc; simp at hc; subst hc; decide)
  revert this
  decide +kernel

/-! ### C59: arbitrary byte strings -/

/-- **C59, `bychar`.**  On arbitrary bytes iteration ends without an abort, and yields
between `len/4` and `len` characters. -/
theorem bychar_total (s : List Byte) : ∃ cs, bychar (s.length + 1) s = .ok cs ∧
    cs.length ≤ s.length ∧ (s ≠ [] → cs ≠ []) := by
  have gen : ∀ (fuel : Nat) (s : List Byte), s.length < fuel →
      ∃ cs, bychar fuel s = .ok cs ∧ cs.length ≤ s.length ∧ (s ≠ [] → cs ≠ []) := by
    intro fuel
    induction fuel with
    | zero => intro s h; omega
    | succ n ih =>
      intro s h
      unfold bychar
      by_cases hs : s = []
      · subst hs; exact ⟨[], rfl, by simp, by simp⟩
      · obtain ⟨c, m, h1, -, h3, h4⟩ := charstep_total s hs
        obtain ⟨cs, h5, h6, -⟩ := ih (s.drop m) (by simp; omega)
        refine ⟨c :: cs, ?_, ?_, by simp⟩
        · rw [if_neg (by simpa using hs), h1, Res.bind_ok]
          simp only
          rw [h5]; rfl
        · simp at h6 ⊢; omega
  exact gen _ s (by omega)

example : bychar 9 [0xff, 0xc3, 0xe2, 0x82] = .ok [Badchar, 0xe2, Badchar] := by decide +kernel

/-- `decode` on any non-empty rest returns a character that is no longer than the rest. -/
theorem decode_total (s : List Byte) (hs : s ≠ []) :
    ∃ c, decode s = .ok c ∧ 1 ≤ charlen c ∧ charlen c ≤ s.length := by
  obtain ⟨c, m, h1, h2, h3, h4⟩ := charstep_total s hs
  exact ⟨c, by simp [decode, h1], charlen_pos c, by omega⟩

/-- **C59, `bycharoff`.**  On arbitrary bytes iteration ends without an abort; the
offsets increase and stay within the string, and the last one is its length. -/
theorem bycharoff_total (s : List Byte) : ∃ l, bycharoff s (s.length + 1) 0 = .ok l ∧
    (l.map Prod.snd).Pairwise (· < ·) ∧ (∀ p ∈ l, 0 < p.2 ∧ p.2 ≤ s.length) ∧
    (s ≠ [] → (l.map Prod.snd).getLast? = some s.length) := by
  have gen : ∀ (fuel idx : Nat), idx ≤ s.length → s.length - idx < fuel →
      ∃ l, bycharoff s fuel idx = .ok l ∧ (l.map Prod.snd).Pairwise (· < ·) ∧
        (∀ p ∈ l, idx < p.2 ∧ p.2 ≤ s.length) ∧
        (idx < s.length → (l.map Prod.snd).getLast? = some s.length) := by
    intro fuel
    induction fuel with
    | zero => intro idx h h'; omega
    | succ n ih =>
      intro idx h h'
      unfold bycharoff
      by_cases hs : idx = s.length
      · rw [if_pos hs]; exact ⟨[], rfl, by simp, by simp, by omega⟩
      · have hd : s.drop idx ≠ [] := by
          intro e; have := congrArg List.length e; simp at this; omega
        obtain ⟨c, h1, h2, h3⟩ := decode_total _ hd
        rw [List.length_drop] at h3
        obtain ⟨l, h5, h6, h7, h8⟩ := ih (idx + charlen c) (by omega) (by omega)
        refine ⟨(c, idx + charlen c) :: l, ?_, ?_, ?_, ?_⟩
        · rw [if_neg hs, slice_suffix h, Res.bind_ok, h1, Res.bind_ok, h5]; rfl
        · simp only [List.map_cons, List.pairwise_cons]
          refine ⟨?_, h6⟩
          intro a ha
          obtain ⟨p, hp, rfl⟩ := List.mem_map.1 ha
          exact (h7 p hp).1
        · intro p hp
          rcases List.mem_cons.1 hp with rfl | hp
          · exact ⟨by simp only; omega, by simp only; omega⟩
          · have := h7 p hp; exact ⟨by omega, this.2⟩
        · intro _
          by_cases he : idx + charlen c < s.length
          · have := h8 he
            rw [List.map_cons, List.getLast?_cons, this]; rfl
          · have : l = [] := by
              cases l with
              | nil => rfl
              | cons p l => have := h7 p (by simp); omega
            subst this
            simp; omega
  obtain ⟨l, h1, h2, h3, h4⟩ := gen (s.length + 1) 0 (by omega) (by omega)
  exact ⟨l, h1, h2, h3, fun h => h4 (List.length_pos_iff.2 h)⟩

example : bycharoff [0xc0, 0x80, 0x41] 9 0 = .ok [(0, 1), (Badchar, 2), (0x41, 3)] := by decide +kernel

theorem graphemeLoop_total (cw : Char32 → Int) (fuel : Nat) : ∀ (rest : List Byte) (len : Nat),
    rest.length < fuel → ∃ n, graphemeLoop cw fuel rest len = .ok n ∧ n ≤ len + rest.length ∧ len ≤ n ∧
      (rest ≠ [] → 0 < n) := by
  induction fuel with
  | zero => intro rest len h; omega
  | succ k ih =>
    intro rest len h
    unfold graphemeLoop
    by_cases hr : rest = []
    · subst hr; exact ⟨len, by simp, by simp, by omega, by simp⟩
    · have hlen : 0 < rest.length := List.length_pos_iff.2 hr
      obtain ⟨c, m, h1, h2, h3, h4⟩ := charstep_total rest hr
      rw [if_pos hlen, h1, Res.bind_ok]
      simp only
      split
      · split
        · exact ⟨1, rfl, by omega, by omega, by simp⟩
        · exact ⟨len, rfl, by omega, by omega, by intro; omega⟩
      · split
        · next hc => exact ⟨len, rfl, by omega, by omega, fun _ => hc.2⟩
        · next hc1 =>
          split
          · next hc2 =>
            have : len = 0 := by
              rw [not_and] at hc1
              have := hc1 (Or.inr hc2)
              omega
            exact ⟨1, rfl, by omega, by omega, by simp⟩
          · obtain ⟨n, e1, e2, e3, -⟩ := ih (rest.drop m) (len + charlen c) (by simp; omega)
            have := charlen_pos c
            rw [List.length_drop] at e2
            exact ⟨n, e1, by omega, by omega, by intro; omega⟩

/-- **C59, `bygrapheme`.**  For every width function, iteration over arbitrary bytes
ends without an abort, every piece is non-empty, and the pieces concatenate to the
string. -/
theorem bygrapheme_total (cw : Char32 → Int) (s : List Byte) :
    ∃ l, bygrapheme cw (s.length + 1) s = .ok l ∧ l.flatten = s ∧ ∀ g ∈ l, g ≠ [] := by
  have gen : ∀ (fuel : Nat) (s : List Byte), s.length < fuel →
      ∃ l, bygrapheme cw fuel s = .ok l ∧ l.flatten = s ∧ ∀ g ∈ l, g ≠ [] := by
    intro fuel
    induction fuel with
    | zero => intro s h; omega
    | succ k ih =>
      intro s h
      unfold bygrapheme
      by_cases hs : s = []
      · subst hs; exact ⟨[], by simp, by simp, by simp⟩
      · obtain ⟨n, e1, e2, -, e4⟩ := graphemeLoop_total cw (s.length + 1) s 0 (by omega)
        have hn := e4 hs
        obtain ⟨l, f1, f2, f3⟩ := ih (s.drop n) (by simp; omega)
        refine ⟨s.take n :: l, ?_, ?_, ?_⟩
        · rw [if_neg (by simpa using hs)]
          unfold graphemestep
          rw [e1, Res.bind_ok, slice_prefix (by omega), Res.bind_ok, slice_suffix (by omega), Res.bind_ok]
          simp only [Res.pure_eq, Res.bind_ok]
          rw [f1]; rfl
        · rw [List.flatten_cons, f2, List.take_append_drop]
        · intro g hg
          rcases List.mem_cons.1 hg with rfl | hg
          · intro e
            have := congrArg List.length e
            rw [List.length_take, List.length_nil] at this
            omega
          · exact f3 g hg
  exact gen _ s (by omega)

/-- 'e' with a combining accent, then 'x'. -/
example : bygrapheme (fun c => if c = 0x301 then 0 else 1) 9 [0x65, 0xcc, 0x81, 0x78] =
    .ok [[0x65, 0xcc, 0x81], [0x78]] := by decide +kernel

end Verif.Utf
