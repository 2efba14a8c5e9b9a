import Verif.Regex.Spec
import Verif.Utf.Props

/-! # Classes: the trie of byte ranges -/

namespace Verif.Regex
open Verif.Utf

/-- Byte strings between `lo` and `hi` in every place. -/
def InBox : List Byte → List Byte → List Byte → Prop
  | [], [], [] => True
  | l :: lo, h :: hi, b :: bs => l ≤ b ∧ b ≤ h ∧ InBox lo hi bs
  | _, _, _ => False

/-- The byte strings of a trie. -/
def TL : List Byte → Trie → Prop
  | [], t => t.fin = true
  | b :: bs, t => ∃ c ∈ t.ch, c.1 ≤ b ∧ b ≤ c.2.1 ∧ TL bs c.2.2

/-- All strings have the same length. -/
def Unif : Nat → Trie → Prop
  | 0, t => t.ch = [] ∧ t.fin = true
  | d + 1, t => t.ch ≠ [] ∧ t.fin = false ∧ ∀ c ∈ t.ch, Unif d c.2.2

/-- The root: the first byte of a child gives the length. -/
def Top (t : Trie) : Prop := t.fin = false ∧ ∀ c ∈ t.ch, Unif (leadLen c.1 - 1) c.2.2

theorem rtinsert_spec (lo : List Byte) : ∀ (hi : List Byte) (t : Trie), lo.length = hi.length →
    ∃ t', rtinsert lo hi t = .ok t' ∧ (∀ bs, TL bs t' ↔ TL bs t ∨ InBox lo hi bs) ∧
      (lo ≠ [] → t'.fin = t.fin ∧ t'.ch ≠ []) := by
  induction lo with
  | nil =>
    intro hi t h
    cases hi with
    | nil =>
      refine ⟨_, rfl, ?_, by simp⟩
      intro bs
      cases bs with
      | nil => simp [TL, InBox, Trie.fin]
      | cons b bs => simp [TL, InBox, Trie.ch]
    | cons _ _ => simp at h
  | cons l lo ih =>
    intro hi t h
    cases hi with
    | nil => simp at h
    | cons x hi =>
      have h' : lo.length = hi.length := by simpa using h
      have new : ∃ t', (do
          let c' ← rtinsert lo hi Trie.empty
          pure (Trie.node (t.ch ++ [(l, x, c')]) t.fin)) = Res.ok t' ∧
          (∀ bs, TL bs t' ↔ TL bs t ∨ InBox (l :: lo) (x :: hi) bs) ∧ (l :: lo ≠ [] → t'.fin = t.fin ∧ t'.ch ≠ []) := by
        obtain ⟨c', e, hl, -⟩ := ih hi Trie.empty h'
        rw [e]
        refine ⟨_, rfl, ?_, by simp [Trie.fin, Trie.ch]⟩
        intro bs
        cases bs with
        | nil => simp [TL, InBox, Trie.fin]
        | cons b bs =>
          simp only [TL, InBox, Trie.ch, List.mem_append, List.mem_singleton]
          constructor
          · rintro ⟨c, hc | rfl, h1, h2, h3⟩
            · exact .inl ⟨c, hc, h1, h2, h3⟩
            · refine .inr ⟨h1, h2, ?_⟩
              rcases (hl bs).mp h3 with h3 | h3
              · cases bs with
                | nil => simp [TL, Trie.empty, Trie.fin] at h3
                | cons _ _ => simp [TL, Trie.empty, Trie.ch] at h3
              · exact h3
          · rintro (⟨c, hc, h1, h2, h3⟩ | ⟨h1, h2, h3⟩)
            · exact ⟨c, .inl hc, h1, h2, h3⟩
            · exact ⟨_, .inr rfl, h1, h2, (hl bs).mpr (.inr h3)⟩
      rw [rtinsert.eq_def]
      simp only
      cases hlast : t.ch.getLast? with
      | none => exact new
      | some p =>
        obtain ⟨a, b, c⟩ := p
        simp only
        split
        · exact new
        · next hne =>
          obtain ⟨rfl, rfl⟩ : a = l ∧ b = x := by
            by_contra hx
            exact hne (by by_contra hy; apply hx; grind)
          obtain ⟨c', e, hl, -⟩ := ih hi c h'
          rw [e]
          have hch : t.ch = t.ch.dropLast ++ [(a, b, c)] := by
            have h2 := List.getLast?_eq_some_iff.mp hlast
            obtain ⟨ys, h2⟩ := h2
            rw [h2]
            simp
          refine ⟨_, rfl, ?_, by simp [Trie.fin, Trie.ch]⟩
          intro bs
          cases bs with
          | nil => simp [TL, InBox, Trie.fin]
          | cons b' bs =>
            simp only [TL, InBox]
            rw [hch]
            simp only [Trie.ch, List.dropLast_concat, List.mem_append, List.mem_singleton]
            constructor
            · rintro ⟨c1, hc | rfl, h1, h2, h3⟩
              · exact .inl ⟨c1, .inl hc, h1, h2, h3⟩
              · rcases (hl bs).mp h3 with h3 | h3
                · exact .inl ⟨_, .inr rfl, h1, h2, h3⟩
                · exact .inr ⟨h1, h2, h3⟩
            · rintro (⟨c1, hc | rfl, h1, h2, h3⟩ | ⟨h1, h2, h3⟩)
              · exact ⟨c1, .inl hc, h1, h2, h3⟩
              · exact ⟨_, .inr rfl, h1, h2, (hl bs).mpr (.inl h3)⟩
              · exact ⟨_, .inr rfl, h1, h2, (hl bs).mpr (.inr h3)⟩

/-- Children of a node after inserting below it. -/
theorem rtinsert_ch (l x : Byte) (lo hi : List Byte) (t t' : Trie) (h : rtinsert (l :: lo) (x :: hi) t = .ok t') :
    t'.fin = t.fin ∧ t'.ch ≠ [] ∧ ∀ c ∈ t'.ch, c ∈ t.ch ∨
      (c.1 = l ∧ ∃ u, rtinsert lo hi u = .ok c.2.2 ∧ (u = Trie.empty ∨ ∃ c0 ∈ t.ch, c0.2.2 = u ∧ c0.1 = l)) := by
  have new : ∀ t', (do
      let c' ← rtinsert lo hi Trie.empty
      pure (Trie.node (t.ch ++ [(l, x, c')]) t.fin)) = Res.ok t' →
      t'.fin = t.fin ∧ t'.ch ≠ [] ∧ ∀ c ∈ t'.ch, c ∈ t.ch ∨
      (c.1 = l ∧ ∃ u, rtinsert lo hi u = .ok c.2.2 ∧ (u = Trie.empty ∨ ∃ c0 ∈ t.ch, c0.2.2 = u ∧ c0.1 = l)) := by
    intro t' h
    obtain ⟨c', e, h⟩ := Res.bind_eq_ok.mp h
    cases h
    refine ⟨rfl, by simp [Trie.ch], ?_⟩
    intro c hc
    simp only [Trie.ch, List.mem_append, List.mem_singleton] at hc
    rcases hc with hc | rfl
    · exact .inl hc
    · exact .inr ⟨rfl, _, e, .inl rfl⟩
  rw [rtinsert.eq_def] at h
  simp only at h
  cases hlast : t.ch.getLast? with
  | none => rw [hlast] at h; exact new t' h
  | some p =>
    obtain ⟨a, b, c⟩ := p
    rw [hlast] at h
    simp only at h
    split at h
    · exact new t' h
    · next hne =>
      obtain ⟨c', e, h⟩ := Res.bind_eq_ok.mp h
      cases h
      have ha : a = l := by
        by_contra hx
        exact hne (.inl hx)
      have hmem : (a, b, c) ∈ t.ch := List.mem_of_getLast? hlast
      refine ⟨rfl, by simp [Trie.ch], ?_⟩
      intro c1 hc
      simp only [Trie.ch, List.mem_append, List.mem_singleton] at hc
      rcases hc with hc | rfl
      · exact .inl ((List.dropLast_sublist _).subset hc)
      · exact .inr ⟨ha, _, e, .inr ⟨_, hmem, rfl, ha⟩⟩

theorem rtinsert_unif (lo : List Byte) : ∀ (hi : List Byte) (t t' : Trie), rtinsert lo hi t = .ok t' →
    (t = Trie.empty ∨ Unif lo.length t) → Unif lo.length t' := by
  induction lo with
  | nil =>
    intro hi t t' h hu
    cases hi with
    | cons _ _ => simp [rtinsert] at h
    | nil =>
      simp only [rtinsert] at h
      cases h
      rcases hu with rfl | hu
      · exact ⟨rfl, rfl⟩
      · exact ⟨hu.1, rfl⟩
  | cons l lo ih =>
    intro hi t t' h hu
    cases hi with
    | nil => simp [rtinsert] at h
    | cons x hi =>
      obtain ⟨hf, hne, hc⟩ := rtinsert_ch l x lo hi t t' h
      refine ⟨hne, ?_, ?_⟩
      · rw [hf]
        rcases hu with rfl | hu
        · rfl
        · exact hu.2.1
      · intro c hc1
        rcases hc c hc1 with h1 | ⟨-, u, e, h1⟩
        · rcases hu with rfl | hu
          · simp [Trie.empty, Trie.ch] at h1
          · exact hu.2.2 c h1
        · refine ih hi u _ e ?_
          rcases h1 with rfl | ⟨c0, h0, rfl, -⟩
          · exact .inl rfl
          · rcases hu with rfl | hu
            · simp [Trie.empty, Trie.ch] at h0
            · exact .inr (hu.2.2 c0 h0)

theorem rtinsert_top (l x : Byte) (lo hi : List Byte) (t t' : Trie) (h : rtinsert (l :: lo) (x :: hi) t = .ok t')
    (hl : lo.length = leadLen l - 1) (ht : Top t) : Top t' := by
  obtain ⟨hf, hne, hc⟩ := rtinsert_ch l x lo hi t t' h
  refine ⟨hf.trans ht.1, ?_⟩
  intro c hc1
  rcases hc c hc1 with h1 | ⟨h1, u, e, h2⟩
  · exact ht.2 c h1
  · rw [h1, ← hl]
    refine rtinsert_unif lo hi u _ e ?_
    rcases h2 with rfl | ⟨c0, h0, rfl, h3⟩
    · exact .inl rfl
    · have := ht.2 c0 h0
      rw [h3, ← hl] at this
      exact .inr this

/-- The boxes of a range, from size `i`. -/
def boxesFrom (hi : List Byte) : Nat → Nat → List Byte → List (List Byte × List Byte)
  | 0, _, lo => [(lo, hi)]
  | n + 1, i, lo => (lo, bound i 0xff) :: boxesFrom hi n (i + 1) (bound (i + 1) 0)

/-- The boxes of a range. -/
def boxes (r : Rng) : List (List Byte × List Byte) :=
  boxesFrom (utf8 r.2.toNat) ((utf8 r.2.toNat).length - (utf8 r.1.toNat).length) (utf8 r.1.toNat).length (utf8 r.1.toNat)

/-- A range of code points in order. -/
def validRng (r : Rng) : Bool := decide (r.1.toNat ≤ r.2.toNat) && decide (r.2.toNat < 0x110000)

/-- What the code makes of a class. -/
def BoxCls (rl : List Rng) (bs : List Byte) : Prop := ∃ r ∈ rl, ∃ b ∈ boxes r, InBox b.1 b.2 bs

theorem utf8_le4 (c : Nat) : (utf8 c).length ≤ 4 := by
  unfold utf8; (repeat' split) <;> simp

theorem encbytes_ok (c : Char32) (h : c.toNat < 0x110000) : encbytes c = .ok (utf8 c.toNat) := by
  have h1 := (encode_utf8 c.toNat h (List.replicate 4 0#8)).2
  rw [Utf.ofNat_toNat, if_pos (by simpa using utf8_le4 c.toNat)] at h1
  unfold encbytes
  rw [h1]
  simp only [Res.bind_ok, Res.pure_eq, Int.toNat_natCast, List.take_left']

theorem utf8_len_mono (a b : Nat) (h : a ≤ b) : (utf8 a).length ≤ (utf8 b).length := by
  unfold utf8; (repeat' split) <;> first | omega | simp

theorem bound_length (n : Nat) (f : Byte) (h : 1 ≤ n) : (bound n f).length = n := by
  unfold bound
  split
  · next h1 => simp [h1]
  · simp; omega

/-- A byte string whose first byte announces its length. -/
def Led (bs : List Byte) : Prop := ∃ l r, bs = l :: r ∧ r.length = leadLen l - 1

theorem utf8_led (c : Nat) (h : c < 0x110000) : Led (utf8 c) := by
  unfold utf8
  split
  · exact ⟨_, _, rfl, by rw [leadLen_nat, byte_ofNat _ (by omega), if_pos (by omega)]; rfl⟩
  split
  · exact ⟨_, _, rfl, by
      rw [leadLen_nat, byte_ofNat _ (by omega), if_neg (by omega), if_neg (by omega), if_pos (by omega)]; rfl⟩
  split
  · exact ⟨_, _, rfl, by
      rw [leadLen_nat, byte_ofNat _ (by omega), if_neg (by omega), if_neg (by omega), if_neg (by omega),
        if_pos (by omega)]; rfl⟩
  · exact ⟨_, _, rfl, by
      rw [leadLen_nat, byte_ofNat _ (by omega), if_neg (by omega), if_neg (by omega), if_neg (by omega),
        if_neg (by omega), if_pos (by omega)]; rfl⟩

theorem bound_led (n : Nat) (h1 : 2 ≤ n) (h2 : n ≤ 4) : Led (bound n 0) := by
  obtain rfl | rfl | rfl : n = 2 ∨ n = 3 ∨ n = 4 := by omega
  all_goals exact ⟨_, _, rfl, by decide⟩

theorem boundloop_spec (hi : List Byte) (n : Nat) : ∀ (i : Nat) (lo : List Byte) (t : Trie), Top t → Led lo →
    lo.length = i → i + n = hi.length → hi.length ≤ 4 →
    ∃ t', boundloop hi n i lo t = .ok t' ∧ Top t' ∧ t'.ch ≠ [] ∧
      ∀ bs, TL bs t' ↔ TL bs t ∨ ∃ b ∈ boxesFrom hi n i lo, InBox b.1 b.2 bs := by
  induction n with
  | zero =>
    intro i lo t ht hl h1 h2 h3
    obtain ⟨l, r, rfl, hr⟩ := hl
    cases hi with
    | nil => simp at h1 h2; omega
    | cons x hi =>
      obtain ⟨t', e, hL, hc⟩ := rtinsert_spec (l :: r) (x :: hi) t (by omega)
      refine ⟨t', e, rtinsert_top _ _ _ _ _ _ e hr ht, (hc (by simp)).2, ?_⟩
      intro bs
      simp [boxesFrom, hL]
  | succ n ih =>
    intro i lo t ht hl h1 h2 h3
    obtain ⟨l, r, rfl, hr⟩ := hl
    have hb : (bound i 0xff).length = i := bound_length _ _ (by simp at h1; omega)
    simp only [boundloop]
    cases hbd : bound i 0xff with
    | nil => rw [hbd] at hb; simp at hb h1; omega
    | cons x hi' =>
      rw [hbd] at hb
      obtain ⟨t1, e, hL, hc⟩ := rtinsert_spec (l :: r) (x :: hi') t (by omega)
      rw [e, Res.bind_ok]
      have hi1 : 1 ≤ i := by simp at h1; omega
      obtain ⟨t', e', hT, hne, hL'⟩ := ih (i + 1) (bound (i + 1) 0) t1 (rtinsert_top _ _ _ _ _ _ e hr ht)
        (bound_led _ (by omega) (by omega)) (bound_length _ _ (by omega)) (by omega) h3
      refine ⟨t', e', hT, hne, ?_⟩
      intro bs
      rw [hL', hL]
      simp only [boxesFrom, List.mem_cons, hbd]
      constructor
      · rintro ((h | h) | ⟨b, hb, h⟩)
        · exact .inl h
        · exact .inr ⟨_, .inl rfl, h⟩
        · exact .inr ⟨b, .inr hb, h⟩
      · rintro (h | ⟨b, rfl | hb, h⟩)
        · exact .inl (.inl h)
        · exact .inl (.inr h)
        · exact .inr ⟨b, hb, h⟩

theorem insertrange_spec (t : Trie) (r : Rng) (ht : Top t) (hr : validRng r = true) :
    ∃ t', insertrange t r = .ok t' ∧ Top t' ∧ t'.ch ≠ [] ∧
      ∀ bs, TL bs t' ↔ TL bs t ∨ ∃ b ∈ boxes r, InBox b.1 b.2 bs := by
  simp only [validRng, Bool.and_eq_true, decide_eq_true_eq] at hr
  unfold insertrange
  rw [encbytes_ok _ (by omega), encbytes_ok _ (by omega)]
  simp only [Res.bind_ok]
  have := utf8_len_mono _ _ hr.1
  exact boundloop_spec _ _ _ _ _ ht (utf8_led _ (by omega)) rfl (by omega) (utf8_le4 _)

theorem insertall_spec (rl : List Rng) : ∀ (t : Trie), Top t → rl.all validRng = true →
    ∃ t', insertall rl t = .ok t' ∧ Top t' ∧ (rl ≠ [] ∨ t.ch ≠ [] → t'.ch ≠ []) ∧
      ∀ bs, TL bs t' ↔ TL bs t ∨ BoxCls rl bs := by
  induction rl with
  | nil =>
    intro t ht _
    exact ⟨t, rfl, ht, by simp, by simp [BoxCls]⟩
  | cons r rl ih =>
    intro t ht h
    simp only [List.all_cons, Bool.and_eq_true] at h
    obtain ⟨t1, e1, ht1, hne, hL1⟩ := insertrange_spec t r ht h.1
    obtain ⟨t', e', ht', hne', hL⟩ := ih t1 ht1 h.2
    refine ⟨t', by simp only [insertall, e1, Res.bind_ok, e'], ht', fun _ => hne' (.inr hne), ?_⟩
    intro bs
    rw [hL, hL1]
    simp only [BoxCls, List.mem_cons]
    constructor
    · rintro ((h | h) | ⟨r', h', h⟩)
      · exact .inl h
      · exact .inr ⟨r, .inl rfl, h⟩
      · exact .inr ⟨r', .inr h', h⟩
    · rintro (h | ⟨r', rfl | h', hx⟩)
      · exact .inl (.inl h)
      · exact .inl (.inr hx)
      · exact .inr ⟨r', h', hx⟩

/-- The trie of a class. -/
theorem trie_spec (rl : List Rng) (hne : rl ≠ []) (h : rl.all validRng = true) :
    ∃ t, insertall rl Trie.empty = .ok t ∧ Top t ∧ t.ch ≠ [] ∧ ∀ bs, TL bs t ↔ BoxCls rl bs := by
  obtain ⟨t, e, ht, hc, hL⟩ := insertall_spec rl Trie.empty ⟨rfl, by simp [Trie.empty, Trie.ch]⟩ h
  refine ⟨t, e, ht, hc (.inl hne), ?_⟩
  intro bs
  rw [hL]
  constructor
  · rintro (h | h)
    · cases bs <;> simp [TL, Trie.empty, Trie.ch, Trie.fin] at h
    · exact h
  · exact .inr

/-! ## Exact ranges -/

theorem le_byte (a b : Nat) (ha : a < 256) (hb : b < 256) : BitVec.ofNat 8 a ≤ BitVec.ofNat 8 b ↔ a ≤ b := by
  rw [BitVec.le_def, byte_ofNat _ ha, byte_ofNat _ hb]

theorem eq_of_le_le (a b : Byte) (h1 : a ≤ b) (h2 : b ≤ a) : b = a := by
  rw [BitVec.le_def] at h1 h2
  exact BitVec.eq_of_toNat_eq (by omega)

theorem inbox_same (a : Byte) (lo hi bs : List Byte) : InBox (a :: lo) (a :: hi) bs ↔ ∃ r, bs = a :: r ∧ InBox lo hi r := by
  cases bs with
  | nil => simp [InBox]
  | cons b bs =>
    simp only [InBox]
    constructor
    · rintro ⟨h1, h2, h3⟩
      exact ⟨bs, by rw [eq_of_le_le a b h1 h2], h3⟩
    · rintro ⟨r, h, h3⟩
      cases h
      exact ⟨BitVec.le_refl _, BitVec.le_refl _, h3⟩

theorem inbox_last (lo hi : Nat) (h1 : hi < 256) (h2 : lo ≤ hi) (bs : List Byte) :
    InBox [BitVec.ofNat 8 lo] [BitVec.ofNat 8 hi] bs ↔ ∃ c, lo ≤ c ∧ c ≤ hi ∧ bs = [BitVec.ofNat 8 c] := by
  constructor
  · intro h
    match bs, h with
    | [b], h =>
      simp only [InBox, BitVec.le_def, byte_ofNat _ h1, byte_ofNat lo (by omega)] at h
      exact ⟨b.toNat, h.1, h.2.1, by simp⟩
  · rintro ⟨c, h3, h4, rfl⟩
    simp only [InBox]
    rw [le_byte _ _ (by omega) (by omega), le_byte _ _ (by omega) (by omega)]
    exact ⟨h3, h4, trivial⟩

theorem exact_rng (r : Rng) (h : okRng r = true) (bs : List Byte) :
    (∃ b ∈ boxes r, InBox b.1 b.2 bs) ↔ ∃ c : Nat, r.1.toNat ≤ c ∧ c ≤ r.2.toNat ∧ bs = utf8 c := by
  simp only [okRng, Bool.and_eq_true, Bool.or_eq_true, decide_eq_true_eq] at h
  obtain ⟨⟨h1, h2⟩, h3⟩ := h
  obtain ⟨lo, hlo⟩ : ∃ lo, lo = r.1.toNat := ⟨_, rfl⟩
  obtain ⟨hi, hhi⟩ : ∃ hi, hi = r.2.toNat := ⟨_, rfl⟩
  unfold boxes
  rw [← hlo, ← hhi]
  rw [← hlo, ← hhi] at h1 h3
  rw [← hhi] at h2
  have hsame : (utf8 hi).length = (utf8 lo).length := by
    unfold utf8
    (repeat' split) <;> first | rfl | omega
  rw [hsame, Nat.sub_self]
  simp only [boxesFrom, List.mem_singleton, exists_eq_left]
  by_cases c1 : hi ≤ 0x7f
  · rw [show utf8 lo = [BitVec.ofNat 8 lo] by unfold utf8; rw [if_pos (by omega)],
      show utf8 hi = [BitVec.ofNat 8 hi] by unfold utf8; rw [if_pos (by omega)], inbox_last _ _ (by omega) h1]
    constructor
    · rintro ⟨c, h4, h5, rfl⟩
      exact ⟨c, h4, h5, by unfold utf8; rw [if_pos (by omega)]⟩
    · rintro ⟨c, h4, h5, rfl⟩
      exact ⟨c, h4, h5, by unfold utf8; rw [if_pos (by omega)]⟩
  have h3 : lo / 64 = hi / 64 ∧ 0x80 ≤ lo := by omega
  have key : ∀ (pre : List Byte), (∀ c, lo ≤ c → c ≤ hi → utf8 c = pre ++ [BitVec.ofNat 8 (0x80 + c % 64)]) →
      (InBox (utf8 lo) (utf8 hi) bs ↔ ∃ c, lo ≤ c ∧ c ≤ hi ∧ bs = utf8 c) := by
    intro pre hp
    rw [hp lo (by omega) (by omega), hp hi (by omega) (by omega)]
    have : ∀ (pre bs : List Byte), InBox (pre ++ [BitVec.ofNat 8 (0x80 + lo % 64)]) (pre ++ [BitVec.ofNat 8 (0x80 + hi % 64)]) bs ↔
        ∃ c, lo ≤ c ∧ c ≤ hi ∧ bs = pre ++ [BitVec.ofNat 8 (0x80 + c % 64)] := by
      intro pre
      induction pre with
      | nil =>
        intro bs
        rw [List.nil_append, List.nil_append, inbox_last _ _ (by omega) (by omega)]
        constructor
        · rintro ⟨c, h4, h5, rfl⟩
          refine ⟨lo / 64 * 64 + (c - 128), by omega, by omega, ?_⟩
          rw [show 0x80 + (lo / 64 * 64 + (c - 128)) % 64 = c by omega]
          rfl
        · rintro ⟨c, h4, h5, rfl⟩
          exact ⟨0x80 + c % 64, by omega, by omega, rfl⟩
      | cons a pre ih =>
        intro bs
        rw [List.cons_append, List.cons_append, inbox_same]
        constructor
        · rintro ⟨r, rfl, h4⟩
          obtain ⟨c, h5, h6, rfl⟩ := (ih r).mp h4
          exact ⟨c, h5, h6, rfl⟩
        · rintro ⟨c, h5, h6, rfl⟩
          exact ⟨_, rfl, (ih _).mpr ⟨c, h5, h6, rfl⟩⟩
    rw [this]
    constructor
    · rintro ⟨c, h4, h5, rfl⟩
      exact ⟨c, h4, h5, (hp c h4 h5).symm⟩
    · rintro ⟨c, h4, h5, rfl⟩
      exact ⟨c, h4, h5, hp c h4 h5⟩
  by_cases c2 : hi ≤ 0x7ff
  · refine key [BitVec.ofNat 8 (0xc0 + lo / 64)] ?_
    intro c h4 h5
    unfold utf8
    rw [if_neg (by omega), if_pos (by omega), show c / 64 = lo / 64 by omega]
    rfl
  by_cases c3 : hi ≤ 0xffff
  · refine key [BitVec.ofNat 8 (0xe0 + lo / 4096), BitVec.ofNat 8 (0x80 + lo / 64 % 64)] ?_
    intro c h4 h5
    unfold utf8
    rw [if_neg (by omega), if_neg (by omega), if_pos (by omega), show c / 64 = lo / 64 by omega,
      show c / 4096 = lo / 4096 by omega]
    rfl
  · refine key [BitVec.ofNat 8 (0xf0 + lo / 262144), BitVec.ofNat 8 (0x80 + lo / 4096 % 64), BitVec.ofNat 8 (0x80 + lo / 64 % 64)] ?_
    intro c h4 h5
    unfold utf8
    rw [if_neg (by omega), if_neg (by omega), if_neg (by omega), show c / 64 = lo / 64 by omega,
      show c / 4096 = lo / 4096 by omega, show c / 262144 = lo / 262144 by omega]
    rfl

theorem boxcls_exact (rl : List Rng) (h : rl.all okRng = true) (bs : List Byte) : BoxCls rl bs ↔ InRanges rl bs := by
  unfold BoxCls InRanges
  constructor
  · rintro ⟨r, hr, hb⟩
    exact ⟨r, hr, (exact_rng r (List.all_eq_true.mp h r hr) bs).mp hb⟩
  · rintro ⟨r, hr, hb⟩
    exact ⟨r, hr, (exact_rng r (List.all_eq_true.mp h r hr) bs).mpr hb⟩

end Verif.Regex
