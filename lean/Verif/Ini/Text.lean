import Verif.Ini.Spec
import Verif.Str.Props
import Verif.Bio.Props

/-!
# ASCII characters in UTF-8 text (helper lemmas)
-/

namespace Verif.Ini

open Verif.Utf (Char32 enc CodePoints utf8 enc_cons enc_append)
open Verif.Str (isblankB isspaceB strfind)

theorem utf8_ascii {c : Nat} (hc : c < 0x80) : utf8 c = [BitVec.ofNat 8 c] := by
  unfold utf8; rw [if_pos (by omega)]

theorem utf8_high {c : Nat} (hc : 0x80 ≤ c) (h2 : c < 0x110000) : ∀ b ∈ utf8 c, 0x80 ≤ b.toNat := by
  intro b hb
  unfold utf8 at hb
  rw [if_neg (by omega)] at hb
  repeat' split at hb
  all_goals
    simp only [List.mem_cons, List.not_mem_nil, or_false] at hb
    rcases hb with rfl | rfl | rfl | rfl <;> simp only [BitVec.toNat_ofNat] <;> omega

/-- The character of an ASCII byte. -/
def chr (b : Byte) : Char32 := b.setWidth 32

theorem chr_toNat (b : Byte) : (chr b).toNat = b.toNat := by
  have := b.isLt
  rw [chr, BitVec.toNat_setWidth, Nat.mod_eq_of_lt (by omega)]

theorem utf8_chr {b : Byte} (hb : b.toNat < 0x80) : utf8 (chr b).toNat = [b] := by
  rw [chr_toNat, utf8_ascii hb]
  simp

theorem enc_inj {a b : List Char32} (ha : CodePoints a) (hb : CodePoints b) (h : enc a = enc b) : a = b := by
  have h1 := Utf.bychar_enc a ha
  have h2 := Utf.bychar_enc b hb
  rw [h, h2] at h1
  injection h1 with h1
  exact h1.symm

theorem cp_append {a b : List Char32} : CodePoints (a ++ b) ↔ CodePoints a ∧ CodePoints b := by
  constructor
  · intro h
    exact ⟨fun c hc => h c (List.mem_append_left _ hc), fun c hc => h c (List.mem_append_right _ hc)⟩
  · rintro ⟨h1, h2⟩ c hc
    rcases List.mem_append.1 hc with hc | hc
    · exact h1 c hc
    · exact h2 c hc

/-- An ASCII byte in UTF-8 text is a character of the text. -/
theorem split_ascii {x : Byte} (hx : x.toNat < 0x80) : ∀ (cs : List Char32) (a b : List Byte),
    CodePoints cs → enc cs = a ++ x :: b →
    ∃ cs1 cs2, cs = cs1 ++ chr x :: cs2 ∧ a = enc cs1 ∧ b = enc cs2 := by
  intro cs
  induction cs with
  | nil => intro a b _ h; simp [Utf.enc] at h
  | cons c cs ih =>
    intro a b hcp h
    obtain ⟨hc, hcs⟩ := Str.codePoints_cons hcp
    rw [enc_cons] at h
    rcases List.append_eq_append_iff.1 h with ⟨a', h1, h2⟩ | ⟨c', h1, h2⟩
    · obtain ⟨s1, s2, e1, e2, e3⟩ := ih a' b hcs h2
      exact ⟨c :: s1, s2, by rw [e1]; rfl, by rw [h1, enc_cons, e2], e3⟩
    · cases c' with
      | nil =>
        rw [List.nil_append] at h2
        rw [List.append_nil] at h1
        obtain ⟨s1, s2, e1, e2, e3⟩ := ih [] b hcs (by rw [← h2]; rfl)
        exact ⟨c :: s1, s2, by rw [e1]; rfl, by rw [← h1, enc_cons, ← e2, List.append_nil], e3⟩
      | cons y ys =>
        rw [List.cons_append, List.cons.injEq] at h2
        obtain ⟨rfl, h2⟩ := h2
        have hlo : c.toNat < 0x80 := by
          by_contra hge
          have := utf8_high (by omega) hc x (by rw [h1]; simp)
          omega
        rw [utf8_ascii hlo] at h1
        have hl := congrArg List.length h1
        simp only [List.length_cons, List.length_nil, List.length_append] at hl
        have ha : a = [] := List.length_eq_zero_iff.1 (by omega)
        have hys : ys = [] := List.length_eq_zero_iff.1 (by omega)
        subst ha hys
        rw [List.nil_append, List.cons.injEq] at h1
        refine ⟨[], cs, ?_, rfl, by rw [h2, List.nil_append]⟩
        rw [List.nil_append, List.cons.injEq]
        refine ⟨?_, rfl⟩
        apply BitVec.eq_of_toNat_eq
        rw [chr_toNat, ← h1.1, BitVec.toNat_ofNat, Nat.mod_eq_of_lt (by omega)]

theorem mem_enc {x : Byte} (hx : x.toNat < 0x80) {cs : List Char32} (hcs : CodePoints cs) :
    x ∈ enc cs ↔ chr x ∈ cs := by
  constructor
  · intro h
    obtain ⟨a, b, h⟩ := List.append_of_mem h
    obtain ⟨s1, s2, rfl, -, -⟩ := split_ascii hx cs a b hcs h
    simp
  · intro h
    obtain ⟨a, b, rfl⟩ := List.append_of_mem h
    rw [enc_append, enc_cons, utf8_chr hx]
    simp

theorem takeWhile_split {α : Type} {p : α → Bool} {a b : List α} {x : α} (ha : ∀ y ∈ a, p y = true) (hx : p x = false) :
    (a ++ x :: b).takeWhile p = a ∧ (a ++ x :: b).dropWhile p = x :: b := by
  constructor
  · rw [List.takeWhile_append_of_pos ha, List.takeWhile_cons_of_neg (by simp [hx]), List.append_nil]
  · rw [List.dropWhile_append_of_pos ha, List.dropWhile_cons_of_neg (by simp [hx])]

theorem takeWhile_all {α : Type} {p : α → Bool} {a : List α} (ha : ∀ y ∈ a, p y = true) :
    a.takeWhile p = a ∧ a.dropWhile p = [] := by
  constructor
  · have := List.takeWhile_append_of_pos (l₂ := []) ha; simpa using this
  · have := List.dropWhile_append_of_pos (l₂ := []) ha; simpa using this

/-- Every text with a given character splits at the first one. -/
theorem split_first {c : Char32} {cs : List Char32} (h : c ∈ cs) :
    cs = cs.takeWhile (· ≠ c) ++ c :: (cs.dropWhile (· ≠ c)).tail := by
  induction cs with
  | nil => cases h
  | cons d cs ih =>
    by_cases e : d = c
    · subst e; simp
    · have : c ∈ cs := by
        rcases List.mem_cons.1 h with h | h
        · exact absurd h.symm e
        · exact h
      conv => lhs; rw [ih this]
      simp [e]

theorem not_mem_takeWhile {c : Char32} {cs : List Char32} : c ∉ cs.takeWhile (· ≠ c) := by
  intro h
  have := List.all_takeWhile (p := fun x => decide (x ≠ c)) (l := cs)
  rw [List.all_eq_true] at this
  simpa using this c h

theorem mem_takeWhile {p : Char32 → Bool} {cs : List Char32} {c : Char32} (h : c ∈ cs.takeWhile p) : c ∈ cs :=
  List.takeWhile_prefix p |>.subset h

theorem mem_dropWhile {p : Char32 → Bool} {cs : List Char32} {c : Char32} (h : c ∈ cs.dropWhile p) : c ∈ cs :=
  List.dropWhile_suffix p |>.subset h

theorem mem_strip {cs : List Char32} {c : Char32} (h : c ∈ strip cs) : c ∈ cs := by
  unfold strip at h
  rw [List.mem_reverse] at h
  exact mem_dropWhile (List.mem_reverse.1 (mem_dropWhile h))

/-- Searching an ASCII byte in UTF-8 text. -/
theorem find_enc {x : Byte} (hx : x.toNat < 0x80) {cs : List Char32} (hcs : CodePoints cs) :
    strfind (enc cs) [x] = .ok (if chr x ∈ cs then some (enc (cs.takeWhile (· ≠ chr x))).length else none) := by
  rcases Str.strfind_split (enc cs) [x] (by simp) with ⟨p, t, h1, h2, -, -, -, h6⟩ | ⟨h1, h2⟩
  · rw [h1]
    rw [List.append_assoc] at h2
    obtain ⟨s1, s2, rfl, e2, e3⟩ := split_ascii hx cs p t hcs h2
    have hn : chr x ∉ s1 := by
      intro hm
      have : x ∈ p := by rw [e2]; exact (mem_enc hx (cp_append.1 hcs).1).2 hm
      obtain ⟨a, b, hp⟩ := List.append_of_mem this
      refine h6 a.length ?_ ⟨a, b ++ [x], ?_, rfl⟩
      · rw [hp]; simp
      · rw [hp]; simp
    rw [if_pos (by simp)]
    rw [(takeWhile_split (a := s1) (b := s2) (x := chr x) (p := fun y => decide (y ≠ chr x))
      (fun y hy => decide_eq_true (fun e : y = chr x => hn (e ▸ hy))) (by simp)).1, e2]
  · rw [h1, if_neg]
    intro hm
    apply h2
    obtain ⟨a, b, hab⟩ := List.append_of_mem ((mem_enc hx hcs).2 hm)
    exact ⟨a.length, a, b, by rw [hab]; simp, rfl⟩

theorem cp_strip {cs : List Char32} (h : CodePoints cs) : CodePoints (strip cs) := fun c hc => h c (mem_strip hc)

theorem strstrip_enc {cs : List Char32} (h : CodePoints cs) : strstrip (enc cs) = .ok (enc (strip cs)) := by
  unfold strstrip
  rw [Str.strfstrip_enc cs h, Res.bind_ok, Str.strrstrip_enc _ (fun c hc => h c (mem_dropWhile hc))]
  rfl

theorem slice_enc_left {x : Byte} {cs : List Char32} (h : chr x ∈ cs) :
    slice (enc cs) 0 (enc (cs.takeWhile (· ≠ chr x))).length = .ok (enc (cs.takeWhile (· ≠ chr x))) := by
  have e := congrArg enc (split_first h)
  rw [enc_append] at e
  rw [slice_prefix (by rw [e]; simp)]
  conv => lhs; rw [e]
  rw [List.take_left]

theorem slice_enc_right {x : Byte} (hx : x.toNat < 0x80) {cs : List Char32} (h : chr x ∈ cs) :
    slice (enc cs) ((enc (cs.takeWhile (· ≠ chr x))).length + 1) (enc cs).length =
      .ok (enc (cs.dropWhile (· ≠ chr x)).tail) := by
  have e := congrArg enc (split_first h)
  rw [enc_append, enc_cons, utf8_chr hx] at e
  rw [slice_suffix (by rw [e]; simp)]
  conv => lhs; rw [e]
  rw [← List.append_assoc, List.drop_left' (by simp)]

theorem cut_enc {x : Byte} (hx : x.toNat < 0x80) {cs : List Char32} (h : CodePoints cs) :
    cutAt x (enc cs) = .ok (enc (cs.takeWhile (· ≠ chr x))) := by
  unfold cutAt
  rw [find_enc hx h, Res.bind_ok]
  by_cases hm : chr x ∈ cs
  · rw [if_pos hm]
    exact slice_enc_left hm
  · rw [if_neg hm, (takeWhile_all (p := fun y => decide (y ≠ chr x)) (a := cs)
      (fun y hy => decide_eq_true (fun e : y = chr x => hm (e ▸ hy)))).1]
    rfl

/-- UTF-8 text has no overlong line breaks: the reading theorems of C48 apply to it. -/
theorem crSafe_enc {cs : List Char32} (h : CodePoints cs) : Bio.CrSafe (enc cs) := by
  intro a b e ho
  obtain ⟨s1, s2, rfl, -, rfl⟩ := split_ascii (x := 0x0d#8) (by decide) cs a b h e
  have hs2 : CodePoints s2 := fun c hc => h c (by simp [hc])
  cases s2 with
  | nil => rcases ho with ⟨y, t, h, -⟩ | ⟨y, z, t, h, -⟩ | ⟨y, z, w, t, h, -⟩ <;> simp [Utf.enc] at h
  | cons c s2 =>
    obtain ⟨hc, -⟩ := Str.codePoints_cons hs2
    rw [enc_cons] at ho
    unfold utf8 at ho
    rcases ho with ⟨y, t, h, h2⟩ | ⟨y, z, t, h, h2, h3⟩ | ⟨y, z, w, t, h, h2, h3, h4⟩
    · repeat' split at h
      all_goals
        rw [List.cons_append, List.cons.injEq] at h
        have h1 := congrArg BitVec.toNat h.1
        simp only [BitVec.toNat_ofNat] at h1
        omega
    · repeat' split at h
      all_goals
        rw [List.cons_append, List.cons.injEq] at h
        have h1 := congrArg BitVec.toNat h.1
        simp only [BitVec.toNat_ofNat] at h1
        try omega
      simp only [List.cons_append, List.cons.injEq] at h
      obtain ⟨-, h5, h6, -⟩ := h
      subst h5 h6
      simp only [BitVec.toNat_ofNat] at h2 h3
      omega
    · repeat' split at h
      all_goals
        rw [List.cons_append, List.cons.injEq] at h
        have h1 := congrArg BitVec.toNat h.1
        simp only [BitVec.toNat_ofNat] at h1
        try omega
      simp only [List.cons_append, List.cons.injEq] at h
      obtain ⟨-, h5, h6, h7, -⟩ := h
      subst h5 h6 h7
      simp only [BitVec.toNat_ofNat] at h2 h3 h4
      omega

end Verif.Ini
