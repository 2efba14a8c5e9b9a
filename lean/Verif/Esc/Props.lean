import Verif.Esc.Model
import Verif.Esc.Spec
import Verif.IntFmt.Spec

/-!
# C30, C31: quoting for the shell, HTML and URLs
-/

namespace Verif.Esc
open Verif.Utf (Char32)

/-! ## C30 -/

/-- What may follow a word: nothing, or a character that ends it. -/
def Delimited (rest : List Byte) : Prop := rest = [] ∨ ∃ b r, rest = b :: r ∧ shEnds b = true

theorem shRead_delimited {rest : List Byte} (h : Delimited rest) : shRead .plain rest = some ([], rest) := by
  rcases h with rfl | ⟨b, r, rfl, h⟩
  · rfl
  · rw [shRead, if_pos h]

/-- Inside quotes, the escaped text reads back as the text; the closing quote returns to `plain`. -/
theorem shRead_body (s rest : List Byte) :
    shRead .quoted (s.flatMap shbyte ++ [39#8] ++ rest) = (shRead .plain rest).map fun p => (s ++ p.1, p.2) := by
  induction s with
  | nil =>
    simp only [List.flatMap_nil, List.nil_append, List.singleton_append]
    rw [shRead, if_pos rfl]
    cases shRead .plain rest <;> rfl
  | cons b s ih =>
    rw [List.flatMap_cons]
    by_cases hb : b = 39#8
    · subst hb
      have e : shbyte 39#8 = [39#8, 92, 39, 39] := rfl
      rw [e]
      simp only [List.cons_append, List.nil_append]
      rw [shRead, if_pos rfl, shRead, if_neg (by decide), if_neg (by decide), if_pos (by decide),
        shRead, if_neg (by decide), shRead, if_neg (by decide), if_pos (by decide), ih]
      cases shRead .plain rest <;> rfl
    · have e : shbyte b = [b] := if_neg hb
      rw [e]
      simp only [List.cons_append, List.nil_append]
      rw [shRead, if_neg hb, ih]
      cases shRead .plain rest <;> rfl

/-- **C30.**  For every byte string, what the shell formatter produces is read by a shell as exactly
one literal word equal to the string, whatever follows the word. -/
theorem shfmt_word (s rest : List Byte) (h : Delimited rest) :
    shRead .plain (shfmt s ++ rest) = some (s, rest) := by
  rw [shfmt, List.append_assoc, List.append_assoc, List.singleton_append, shRead, if_neg (by decide), if_pos rfl,
    ← List.append_assoc, shRead_body, shRead_delimited h]
  simp

/-- A formatted string may be glued to other text: the words are concatenated. -/
theorem shfmt_glue (s rest : List Byte) :
    shRead .plain (shfmt s ++ rest) = (shRead .plain rest).map fun p => (s ++ p.1, p.2) := by
  rw [shfmt, List.append_assoc, List.append_assoc, List.singleton_append, shRead, if_neg (by decide), if_pos rfl,
    ← List.append_assoc, shRead_body]

/-- Splits a command line of literal words separated by single spaces. -/
def shWords : Nat → List Byte → Option (List (List Byte))
  | 0, _ => none
  | f + 1, s =>
    match shRead .plain s with
    | none => none
    | some (w, []) => some [w]
    | some (w, b :: r) => if b = 32#8 then (shWords f r).map (w :: ·) else none

/-- **C30, command lines.**  A command line made by joining formatted arguments with spaces has
exactly those arguments. -/
theorem shfmt_line (w : List Byte) (ws : List (List Byte)) :
    shWords (ws.length + 1) (shfmt w ++ ws.flatMap fun v => 32#8 :: shfmt v) = some (w :: ws) := by
  induction ws generalizing w with
  | nil =>
    rw [List.flatMap_nil, shWords, shfmt_word w [] (.inl rfl)]
  | cons v vs ih =>
    rw [List.flatMap_cons, shWords]
    rw [shfmt_word w _ (.inr ⟨32#8, shfmt v ++ vs.flatMap fun v => 32#8 :: shfmt v, by simp, by decide⟩)]
    simp only [List.cons_append, List.length_cons, if_true]
    rw [ih v]; rfl

/-- `it's $x` -/
example : shfmt [105, 116, 39, 115, 32, 36, 120] = [39, 105, 116, 39, 92, 39, 39, 115, 32, 36, 120, 39] := by decide
example : shRead .plain (shfmt [105, 116, 39, 115, 32, 36, 120] ++ [59, 120]) =
    some ([105, 116, 39, 115, 32, 36, 120], [59, 120]) := shfmt_word _ _ (.inr ⟨59, [120], rfl, by decide⟩)
example : shWords 3 (shfmt [] ++ [[39#8], [10]].flatMap fun v => 32#8 :: shfmt v) = some [[], [39], [10]] :=
  shfmt_line [] [[39], [10]]

/-! ## C31, HTML -/

theorem each_ok {α : Type} {f : α → Res (List Byte)} {g : α → List Byte} {l : List α}
    (h : ∀ a ∈ l, f a = .ok (g a)) : each f l = .ok (l.flatMap g) := by
  induction l with
  | nil => rfl
  | cons a l ih =>
    rw [each, h a (by simp), Res.bind_ok, ih fun b hb => h b (by simp [hb]), Res.bind_ok, List.flatMap_cons]
    rfl

theorem putc_utf8 (c : Char32) (h : c.toNat < 0x110000) : putc c = .ok (Utf.utf8 c.toNat) := by
  have := (Utf.encode_utf8 c.toNat h (List.replicate 4 0#8)).2
  rw [BitVec.ofNat_toNat, BitVec.setWidth_eq] at this
  have hl : (Utf.utf8 c.toNat).length ≤ 4 := by
    unfold Utf.utf8; (repeat' split) <;> simp
  rw [putc, this, List.length_replicate, if_pos hl, Res.bind_ok]
  simp

/-- The escape of one byte of HTML text. -/
def htmlbyte (b : Byte) : List Byte :=
  if b = 38#8 then [38, 97, 109, 112, 59] else if b = 60#8 then [38, 108, 116, 59]
  else if b = 62#8 then [38, 103, 116, 59] else if b = 47#8 then [38, 35, 120, 50, 102, 59] else [b]

theorem htmlbyte_hi {b : Byte} (h : 128 ≤ b.toNat) : htmlbyte b = [b] := by
  have n : ∀ k : Byte, k.toNat < 128 → b ≠ k := fun k hk e => by subst e; omega
  rw [htmlbyte, if_neg (n _ (by decide)), if_neg (n _ (by decide)), if_neg (n _ (by decide)), if_neg (n _ (by decide))]

theorem flatMap_self {f : Byte → List Byte} {l : List Byte} (h : ∀ b ∈ l, f b = [b]) : l.flatMap f = l := by
  induction l with
  | nil => rfl
  | cons a l ih => rw [List.flatMap_cons, h a (by simp), ih fun b hb => h b (by simp [hb])]; rfl

/-- The bytes of a character outside ASCII are at least 128. -/
theorem utf8_hi {c : Nat} (h : c < 0x110000) (h2 : 128 ≤ c) : ∀ b ∈ Utf.utf8 c, 128 ≤ b.toNat := by
  unfold Utf.utf8
  rw [if_neg (by omega)]
  (repeat' split) <;> intro b hb <;> simp only [List.mem_cons, List.not_mem_nil, or_false] at hb <;>
    rcases hb with rfl | rfl | rfl | rfl <;> rw [BitVec.toNat_ofNat] <;> omega

theorem htmlchar_ok (c : Char32) (h : c.toNat < 0x110000) :
    htmlchar c = .ok ((Utf.utf8 c.toNat).flatMap htmlbyte) := by
  by_cases ha : c.toNat < 128
  · have key : ∀ k : Fin 128, htmlchar (BitVec.ofNat 32 k.val) = .ok ((Utf.utf8 k.val).flatMap htmlbyte) := by
      decide +kernel
    have := key ⟨c.toNat, ha⟩
    simpa only [BitVec.ofNat_toNat, BitVec.setWidth_eq] using this
  · have n : ∀ k : Char32, k.toNat < 128 → c ≠ k := fun k hk e => by subst e; omega
    rw [htmlchar, if_neg (n _ (by decide)), if_neg (n _ (by decide)), if_neg (n _ (by decide)),
      if_neg (n _ (by decide)), putc_utf8 c h,
      flatMap_self fun b hb => htmlbyte_hi (utf8_hi h (by omega) b hb)]

/-- The HTML formatter escapes the four bytes `&`, `<`, `>`, `/` and copies the others. -/
theorem htmlfmt_bytes (cs : List Char32) (h : Utf.CodePoints cs) :
    htmlfmt (Utf.enc cs) = .ok ((Utf.enc cs).flatMap htmlbyte) := by
  rw [htmlfmt, Utf.bychar_enc cs h, Res.bind_ok, each_ok fun c hc => htmlchar_ok c (h c hc), Utf.enc,
    List.flatMap_assoc]

theorem unhtml_other (b : Byte) (r : List Byte) (h : b ≠ 38#8) : unhtml (b :: r) = b :: unhtml r := by
  rw [unhtml] <;> (intros; contradiction)

theorem unhtml_flat (s : List Byte) : unhtml (s.flatMap htmlbyte) = s := by
  induction s with
  | nil => rfl
  | cons b s ih =>
    rw [List.flatMap_cons, htmlbyte]
    split
    · next e => subst e; exact congrArg _ ih
    · split
      · next e => subst e; exact congrArg _ ih
      · split
        · next e => subst e; exact congrArg _ ih
        · split
          · next e => subst e; exact congrArg _ ih
          · next h _ _ _ => rw [List.singleton_append, unhtml_other _ _ h, ih]

/-- **C31, HTML.**  For every string of characters the escaped text is produced, contains no `<`,
`>` or `/`, and reading it as HTML text gives the string back. -/
theorem htmlfmt_round (cs : List Char32) (h : Utf.CodePoints cs) :
    ∃ out, htmlfmt (Utf.enc cs) = .ok out ∧ unhtml out = Utf.enc cs ∧
      ∀ b ∈ out, b ≠ 60#8 ∧ b ≠ 62#8 ∧ b ≠ 47#8 := by
  refine ⟨_, htmlfmt_bytes cs h, unhtml_flat _, fun b hb => ?_⟩
  obtain ⟨a, -, ha⟩ := List.mem_flatMap.mp hb
  have key : ∀ a : Fin (2 ^ 8),
      (htmlbyte (BitVec.ofFin a)).all (fun b => b != 60#8 && b != 62#8 && b != 47#8) = true := by
    decide +kernel
  have := List.all_eq_true.mp (key a.toFin) b ha
  simpa [and_assoc] using this

/-- The characters `charstep` yields. -/
def Stepped (c : Char32) : Prop := c.toNat < 0x200000 ∨ c = Utf.Badchar

theorem decLoop_lt (str : List Byte) : ∀ (n i : Nat) (chr c : Char32) (k : Nat), Utf.decLoop str n i chr = .ok c →
    chr.toNat < 2 ^ k → c.toNat < 2 ^ (k + 6 * n)
  | 0, _, chr, c, k, h, hk => by
    rw [Utf.decLoop] at h; cases h; exact hk
  | n + 1, i, chr, c, k, h, hk => by
    rw [Utf.decLoop, Res.bind_eq_ok] at h
    obtain ⟨b, -, h⟩ := h
    have := decLoop_lt str n (i + 1) _ c (k + 6) h (by
      rw [BitVec.toNat_or]
      apply Nat.or_lt_two_pow
      · rw [BitVec.toNat_shiftLeft, Nat.shiftLeft_eq]
        refine Nat.lt_of_le_of_lt (Nat.mod_le _ _) ?_
        rw [Nat.pow_add]
        omega
      · rw [BitVec.toNat_and]
        refine Nat.lt_of_le_of_lt Nat.and_le_right ?_
        have : 2 ^ 6 ≤ 2 ^ (k + 6) := Nat.pow_le_pow_right (by omega) (by omega)
        have e : (0x3f#32).toNat = 63 := rfl
        omega)
    rw [show k + 6 * (n + 1) = k + 6 + 6 * n by omega]
    exact this

theorem charstep_stepped {s : List Byte} {c : Char32} {r : List Byte} (h : Utf.charstep s = .ok (c, r)) : Stepped c := by
  rw [Utf.charstep] at h
  split at h
  · cases h; exact .inr rfl
  · rw [Res.bind_eq_ok] at h
    obtain ⟨b, -, h⟩ := h
    simp only at h
    split at h
    · rw [Res.bind_eq_ok] at h
      obtain ⟨t, -, h⟩ := h
      cases h; exact .inr rfl
    · next hl =>
      rw [Res.bind_eq_ok] at h
      obtain ⟨d, hd, h⟩ := h
      rw [Res.bind_eq_ok] at h
      obtain ⟨t, -, h⟩ := h
      cases h
      left
      have key : ∀ k : Fin (2 ^ 8), Utf.leadLen (BitVec.ofFin k) = 0 ∨
          ∃ j : Fin 8, ((BitVec.ofFin k).setWidth 32 &&& ((1#32 <<< (8 - Utf.leadLen (BitVec.ofFin k))) - 1#32)).toNat <
            2 ^ j.val ∧ j.val + 6 * (Utf.leadLen (BitVec.ofFin k) - 1) ≤ 21 := by
        decide +kernel
      rcases key b.toFin with h0 | ⟨j, h1, h2⟩
      · exact absurd (.inl h0) hl
      · have := decLoop_lt s _ _ _ _ _ hd h1
        exact Nat.lt_of_lt_of_le this (Nat.pow_le_pow_right (by omega) h2)

theorem bychar_stepped : ∀ (f : Nat) (s : List Byte) (cs : List Char32), Utf.bychar f s = .ok cs → ∀ c ∈ cs, Stepped c
  | 0, _, _, h => by rw [Utf.bychar] at h; cases h
  | f + 1, s, cs, h => by
    rw [Utf.bychar] at h
    split at h
    · cases h; simp
    · rw [Res.bind_eq_ok] at h
      obtain ⟨p, hp, h⟩ := h
      rw [Res.bind_eq_ok] at h
      obtain ⟨r, hr, h⟩ := h
      cases h
      intro c hc
      rcases List.mem_cons.mp hc with rfl | hc
      · exact charstep_stepped hp
      · exact bychar_stepped f _ r hr c hc

/-- Whatever `sbputc` appends for a character that is neither `<`, `>` nor `/` contains none of them. -/
theorem putc_safe (c : Char32) (h : Stepped c) (k : Byte) (hk : k.toNat < 128) (hc : c ≠ k.setWidth 32) :
    ∃ out, putc c = .ok out ∧ k ∉ out := by
  have big : ∀ n, 128 ≤ n → n < 256 → k ≠ BitVec.ofNat 8 n := by
    intro n h1 h2 e; subst e; rw [BitVec.toNat_ofNat] at hk; omega
  rcases h with h | rfl
  · by_cases h1 : c.toNat < 0x110000
    · refine ⟨_, putc_utf8 c h1, fun hm => ?_⟩
      by_cases h2 : 128 ≤ c.toNat
      · have := utf8_hi h1 h2 _ hm; omega
      · rw [Utf.utf8, if_pos (by omega), List.mem_singleton] at hm
        apply hc
        apply BitVec.eq_of_toNat_eq
        rw [hm, BitVec.toNat_setWidth, BitVec.toNat_ofNat]
        omega
    · refine ⟨_, by rw [putc, show List.replicate 4 0#8 = [0#8, 0#8, 0#8, 0#8] from rfl, Utf.encode_4 c (by omega) (by omega), Res.bind_ok]; rfl, ?_⟩
      simp only [show Int.toNat 4 = 4 from rfl, List.take_succ_cons, List.take_zero, List.mem_cons, List.not_mem_nil, or_false, not_or]
      refine ⟨big _ ?_ ?_, big _ ?_ ?_, big _ ?_ ?_, big _ ?_ ?_⟩ <;> omega
  · refine ⟨[0xff#8], by decide +kernel, ?_⟩
    rw [List.mem_singleton]
    intro e; subst e; simp at hk

/-- **C31, HTML, hostile input.**  For every byte string, valid UTF-8 or not, escaping succeeds and the
result contains no `<`, `>` or `/`. -/
theorem htmlfmt_safe (s : List Byte) :
    ∃ out, htmlfmt s = .ok out ∧ ∀ b ∈ out, b ≠ 60#8 ∧ b ≠ 62#8 ∧ b ≠ 47#8 := by
  obtain ⟨cs, hcs, -, -⟩ := Utf.bychar_total s
  have hst := bychar_stepped _ _ _ hcs
  rw [htmlfmt, hcs, Res.bind_ok]
  clear hcs
  induction cs with
  | nil => exact ⟨[], rfl, by simp⟩
  | cons c cs ih =>
    obtain ⟨o, ho, hs⟩ := ih fun c hc => hst c (by simp [hc])
    have h1 : ∃ x, htmlchar c = .ok x ∧ ∀ b ∈ x, b ≠ 60#8 ∧ b ≠ 62#8 ∧ b ≠ 47#8 := by
      rw [htmlchar]
      split
      · exact ⟨_, rfl, by simp⟩
      · split
        · exact ⟨_, rfl, by simp⟩
        · split
          · exact ⟨_, rfl, by simp⟩
          · split
            · exact ⟨_, rfl, by simp⟩
            · next n1 n2 n3 n4 =>
              have hc := hst c (by simp)
              obtain ⟨x, hx, a1⟩ := putc_safe c hc 60#8 (by decide) n2
              obtain ⟨x', hx', a2⟩ := putc_safe c hc 62#8 (by decide) n3
              obtain ⟨x'', hx'', a3⟩ := putc_safe c hc 47#8 (by decide) n4
              rw [hx] at hx' hx''
              cases hx'; cases hx''
              exact ⟨x, hx, fun b hb => ⟨fun e => a1 (e ▸ hb), fun e => a2 (e ▸ hb), fun e => a3 (e ▸ hb)⟩⟩
    obtain ⟨x, hx, hxs⟩ := h1
    refine ⟨x ++ o, by rw [each, hx, Res.bind_ok, ho, Res.bind_ok]; rfl, fun b hb => ?_⟩
    rcases List.mem_append.mp hb with hb | hb
    · exact hxs b hb
    · exact hs b hb

/-- An overlong encoding of `<` is escaped, an invalid byte becomes `0xff`. -/
example : htmlfmt [0xc0, 0xbc, 0x80] = .ok [38, 108, 116, 59, 0xff] := by decide +kernel

/-- `a<b>&"é` -/
example : htmlfmt (Utf.enc [97, 60, 98, 62, 38, 34, 233]) =
    .ok [97, 38, 108, 116, 59, 98, 38, 103, 116, 59, 38, 97, 109, 112, 59, 34, 195, 169] :=
  htmlfmt_bytes _ (by simp [Utf.CodePoints])
example : Utf.CodePoints [97, 60, 98, 62, 38, 34, 233] := by simp [Utf.CodePoints]

/-! ## C31, URLs -/

/-- The two hexadecimal digits of a byte. -/
def hex2 (b : Byte) : List Byte := [IntFmt.glyph (b.toNat / 16), IntFmt.glyph (b.toNat % 16)]

/-- The escape of one byte of a URL. -/
def urlesc (b : Byte) : List Byte := if b ∈ urlspecial ∨ b ≥ 0x80#8 then 37#8 :: hex2 b else [b]

theorem urlbyte_ok (b : Byte) : urlbyte b = .ok (urlesc b) := by
  have key : ∀ k : Fin (2 ^ 8), urlbyte (BitVec.ofFin k) = .ok (urlesc (BitVec.ofFin k)) := by decide +kernel
  exact key b.toFin

theorem unpct_flat (s : List Byte) : unpct (s.flatMap urlesc) = some s := by
  have key : ∀ k : Fin (2 ^ 8), (BitVec.ofFin k ∉ urlspecial ∧ ¬ BitVec.ofFin k ≥ 0x80#8 → BitVec.ofFin k ≠ 37#8) ∧
      hexval (IntFmt.glyph (k.val / 16)) = some (k.val / 16) ∧ hexval (IntFmt.glyph (k.val % 16)) = some (k.val % 16) := by
    decide +kernel
  induction s with
  | nil => rfl
  | cons b s ih =>
    obtain ⟨h1, h2, h3⟩ := key b.toFin
    rw [List.flatMap_cons, urlesc]
    split
    · rw [hex2]
      simp only [List.cons_append, List.nil_append]
      rw [unpct, if_pos rfl]
      have h2' : hexval (IntFmt.glyph (b.toNat / 16)) = some (b.toNat / 16) := h2
      have h3' : hexval (IntFmt.glyph (b.toNat % 16)) = some (b.toNat % 16) := h3
      simp only [h2', h3', ih, Option.map_some, Nat.div_add_mod, BitVec.ofNat_toNat, BitVec.setWidth_eq]
    · next h =>
      rw [List.singleton_append, unpct.eq_def]
      simp only
      rw [if_neg (h1 ⟨fun e => h (.inl e), fun e => h (.inr e)⟩), ih]; rfl

/-- **C31, URLs.**  For every byte string the escaped text is produced, contains no reserved
character and no byte outside ASCII, and percent-decoding gives the string back. -/
theorem urlfmt_round (s : List Byte) :
    ∃ out, urlfmt s = .ok out ∧ unpct out = some s ∧ ∀ b ∈ out, b ∉ reserved ∧ b.toNat < 128 := by
  refine ⟨_, each_ok fun b _ => urlbyte_ok b, unpct_flat s, fun b hb => ?_⟩
  obtain ⟨a, -, ha⟩ := List.mem_flatMap.mp hb
  have key : ∀ k : Fin (2 ^ 8),
      (urlesc (BitVec.ofFin k)).all (fun b => decide (b ∉ reserved) && decide (b.toNat < 128)) = true := by
    decide +kernel
  have := List.all_eq_true.mp (key a.toFin) b ha
  rw [Bool.and_eq_true, decide_eq_true_iff, decide_eq_true_iff] at this
  exact this

/-- `a/b é%` : the space is left as it is. -/
example : urlfmt [97, 47, 98, 32, 195, 169, 37] = .ok [97, 37, 50, 102, 98, 32, 37, 99, 51, 37, 97, 57, 37, 50, 53] := by
  decide +kernel

end Verif.Esc
