import Verif.Regex.Fuel
import Verif.Regex.Props

/-! # Theorems about patterns: compiling (C73), bracket expressions (C51), escaped text (C31) -/

namespace Verif.Regex
open Verif.Utf

/-! ## C73: compiling always answers -/

/-- C73: for every byte string the compiler ends, with a program or an error. -/
def CompileAnswers : Prop := ∀ tabs pat, ∃ N, ∀ fuel, N ≤ fuel → ∃ r, compile tabs fuel pat = .ok r

/-- C73 does not hold: `[` makes the parser read behind the end of the pattern. -/
theorem compile_answers_violated : ¬ CompileAnswers := by
  intro h
  obtain ⟨N, hN⟩ := h noTabs [91]
  obtain ⟨r, hr⟩ := hN (N + 60) (by omega)
  rw [show compile noTabs (N + 60) [91] = .ub from rfl] at hr
  cases hr

/-- A pattern of 16 groups compiles, and then each use of it is stopped by an index out of range. -/
example : (match (compile noTabs 120 ((List.replicate 16 [40, 97, 41]).flatten) >>= fun r => match r with
    | .ok p => iexec p 60 .fresh []
    | .error _ => .ub) with
  | .abort => true
  | _ => false) = true := by decide +kernel

/-- `\>` stops the program on the empty text. -/
example : compile noTabs 60 [92, 62] >>= (fun r => match r with
    | .ok p => iexec p 60 .fresh []
    | .error _ => .ub) = .abort := by rfl

/-- C73, what is true: compiling ends for every byte string, and with a program for the patterns of the grammar;
limits as in `exec_ends_partial`. Missing: no undefined behaviour and no abort, which does not hold. -/
theorem compile_answers_partial (tabs : List Byte → Option (List Rng)) :
    (∀ pat, ∃ N, ∀ fuel, N ≤ fuel → compile tabs fuel pat ≠ .spin) ∧
    (∀ cs t n, CodePoints cs → Gr .alt cs t 1 n → Ok (fun _ => true) t = true → n ≤ 16 →
      ∃ N, ∀ fuel, N ≤ fuel → ∃ p, compile tabs fuel (enc cs) = .ok (.ok p) ∧ p.nmatch = n) := by
  refine ⟨compile_ends tabs, fun cs t n hcs h hok hn => ?_⟩
  obtain ⟨N, hN⟩ := run_gr tabs hcs h hok hn
  refine ⟨N, fun fuel hf => ?_⟩
  obtain ⟨p, e1, e2, -⟩ := hN fuel hf
  exact ⟨p, e1, e2⟩

/-- Errors are answers: `a**`. -/
example : compile noTabs 60 [97, 42, 42] = .ok (.error (.badrep 42)) := by rfl

/-! ## C51: bracket expressions -/

/-- How a bracket expression is written. -/
def clsText (neg : Bool) (items : List Item) : List Char32 :=
  91#32 :: ((if neg then [94#32] else []) ++ items.flatMap Item.chars ++ [93#32])

/-- `c` is one of the characters of the items. -/
def InItems (items : List Item) (c : Nat) : Prop := ∃ it ∈ items, it.lo ≤ c ∧ c ≤ it.hi

/-- C51: a bracket expression of items that can be written one after the other matches the characters of the items,
or the others. -/
def ClassMatches : Prop := ∀ tabs neg items, items ≠ [] → (∀ it ∈ items, it.fst.toNat ∉ [93, 45, 94]) → CodePoints (clsText neg items) →
  ∃ N, ∀ fuel, N ≤ fuel → ∃ p, compile tabs fuel (enc (clsText neg items)) = .ok (.ok p) ∧
    ∀ c : Char32, c.toNat < 0x110000 → ∃ M, ∀ f, M ≤ f → ∃ r o, iexec p f .fresh (utf8 c.toNat) = .ok (r, o) ∧
      (r.isSome = true ↔ if neg then ¬ InItems items c.toNat else InItems items c.toNat)

/-- C51 does not hold: `[a-zb]` does not match "c", because `merge` cuts `a-z` off at `b`. -/
theorem class_matches_violated : ¬ ClassMatches := by
  intro h
  obtain ⟨N, hN⟩ := h noTabs false [⟨97#32, some 122#32⟩, ⟨98#32, none⟩] (by simp)
    (by intro it hit; simp only [List.mem_cons, List.not_mem_nil, or_false] at hit; rcases hit with rfl | rfl <;> decide)
    (by
      intro c hc
      simp only [clsText, Bool.false_eq_true, if_false, List.flatMap_cons, List.flatMap_nil, Item.chars, List.nil_append, List.cons_append,
        List.append_nil, List.mem_cons, List.not_mem_nil, or_false] at hc
      rcases hc with rfl | rfl | rfl | rfl | rfl | rfl <;> decide)
  obtain ⟨p, hp, hc⟩ := hN (N + 60) (by omega)
  obtain ⟨M, hM⟩ := hc 99#32 (by decide)
  obtain ⟨r, o, h1, h2⟩ := hM (M + 60) (by omega)
  have e : enc (clsText false [⟨97#32, some 122#32⟩, ⟨98#32, none⟩]) = [91, 97, 45, 122, 98, 93] := rfl
  have e2 : compile noTabs (N + 60) [91, 97, 45, 122, 98, 93] =
      .ok (.ok { code := [.lbra 0, .range 97 98, .jmp 3, .rbra 0, .mtch 0].map encinst, nmatch := 1 }) := by rfl
  rw [e, e2] at hp
  cases hp
  have e3 : iexec { code := [Inst.lbra 0, .range 97 98, .jmp 3, .rbra 0, .mtch 0].map encinst, nmatch := 1 } (M + 60) .fresh (utf8 (99#32).toNat) =
      .ok (none, .fresh) := by rfl
  rw [e3] at h1
  cases h1
  simp only [Option.isSome_none, Bool.false_eq_true, if_false, false_iff] at h2
  exact h2 ⟨_, List.mem_cons_self, by decide, by decide⟩

/-- What a class matches, by itself. -/
theorem matches_ranges {rl : List Rng} {c : Nat} (hc : c < 0x110000) (hrl : ∀ x, Mem rl x → x < 0x110000) :
    (∃ g, Matches (utf8 c) (.ranges rl) 0 (utf8 c).length g) ↔ Mem rl c := by
  constructor
  · rintro ⟨g, h⟩
    cases h with
    | cap h =>
      generalize hj : (utf8 c).length = j at h
      cases h with
      | ranges h1 h2 =>
        obtain ⟨r, hr, c', h3, h4, rfl⟩ := h1
        have hc' := hrl c' ⟨r, hr, h3, h4⟩
        have : c' = c := utf8_prefix_free _ _ hc' hc h2
        subst this
        exact ⟨r, hr, h3, h4⟩
  · rintro ⟨r, hr, h1, h2⟩
    have : Parse InRanges (utf8 c) (.ranges rl) 0 (opened .none 0 0) (0 + (utf8 c).length) (opened .none 0 0) :=
      .ranges ⟨r, hr, c, h1, h2, rfl⟩ (by unfold Has; exact List.prefix_refl _)
    rw [Nat.zero_add] at this
    exact ⟨_, .cap this⟩

theorem bmp_utf8 {c : Char32} (h : c.toNat < 0x10000) : Bmp (utf8 c.toNat) :=
  ⟨[c], by simp [enc], by intro x hx; simp at hx; subst hx; exact h⟩

/-- C51 for ASCII items of which none lies inside another one, for negated ones without NUL and DEL, and for
characters below U+10000. Missing: the other items (`class_matches_violated`) and larger characters. -/
theorem class_matches_partial (tabs : List Byte → Option (List Rng)) (neg : Bool) {items : List Item} (hne : items ≠ [])
    (hi : ∀ it ∈ items, it.ok ∧ (neg = true → 0 < it.lo ∧ it.hi < 0x7f)) (hp : items.Pairwise Item.apart) :
    ∃ N, ∀ fuel, N ≤ fuel → ∃ p, compile tabs fuel (enc (clsText neg items)) = .ok (.ok p) ∧
      (p.code.length ≤ 2 ^ 30 → ∀ c : Char32, c.toNat < 0x10000 → ∃ M, ∀ f, M ≤ f → ∃ r o, iexec p f .fresh (utf8 c.toNat) = .ok (r, o) ∧
        (r.isSome = true ↔ if neg then ¬ InItems items c.toNat else InItems items c.toNat)) := by
  have hcp : CodePoints (clsText neg items) := by
    intro c hc
    simp only [clsText, List.mem_cons, List.mem_append, List.not_mem_nil, or_false, List.mem_flatMap] at hc
    rcases hc with rfl | (hc | ⟨it, hit, hc⟩) | rfl
    · decide
    · cases neg
      · simp at hc
      · simp at hc; subst hc; decide
    · have := (hi it hit).1.1
      unfold Item.hi at this
      unfold Item.chars at hc
      cases hs : it.snd with
      | none => rw [hs] at this hc; simp at this hc; subst hc; omega
      | some d =>
        rw [hs] at this hc
        simp at this hc
        rcases hc with rfl | rfl | rfl
        · omega
        · decide
        · omega
    · decide
  obtain ⟨rl, hgr, hmem, hlt, hemp⟩ : ∃ rl, Gr .alt (clsText neg items) (.ranges rl) 1 1 ∧
      (∀ c, c < 0x110000 → (Mem rl c ↔ if neg then ¬ InItems items c else InItems items c)) ∧ (∀ x, Mem rl x → x < 0x110000) ∧ rl ≠ [] := by
    cases neg
    · have hle : ∀ it ∈ items, it.lo ≤ it.hi ∧ it.hi < 0x80 := by
        intro it hit
        refine ⟨?_, (hi it hit).1.1⟩
        unfold Item.lo Item.hi
        cases it.snd with
        | none => exact Nat.le_refl _
        | some d => simp only; omega
      have hm : ∀ c, Mem (items.map fun it => ((BitVec.ofNat 32 it.lo, BitVec.ofNat 32 it.hi) : Rng)) c ↔ InItems items c := by
        intro c
        unfold Mem InItems
        constructor
        · rintro ⟨r, hr, h1, h2⟩
          obtain ⟨it, hit, rfl⟩ := List.mem_map.mp hr
          have := hle it hit
          rw [BitVec.toNat_ofNat, Nat.mod_eq_of_lt (by omega)] at h1 h2
          exact ⟨it, hit, h1, h2⟩
        · rintro ⟨it, hit, h1, h2⟩
          have := hle it hit
          refine ⟨_, List.mem_map.mpr ⟨it, hit, rfl⟩, ?_, ?_⟩
          · simp only
            rw [BitVec.toNat_ofNat, Nat.mod_eq_of_lt (by omega)]; exact h1
          · simp only
            rw [BitVec.toNat_ofNat, Nat.mod_eq_of_lt (by omega)]; exact h2
      refine ⟨_, .only (.last (.one (.cls hne (fun it hit => (hi it hit).1) hp hm))), fun c _ => by simpa using hm c, fun x hx => ?_, by simpa using hne⟩
      obtain ⟨it, hit, h1, h2⟩ := (hm x).mp hx
      have := hle it hit
      omega
    · classical
      have hm : ∀ c, Mem (((List.range 0x110000).filter fun c => decide (¬ InItems items c)).map
          fun c => ((BitVec.ofNat 32 c, BitVec.ofNat 32 c) : Rng)) c ↔ c < 0x110000 ∧ ¬ InItems items c := by
        intro c
        unfold Mem
        constructor
        · rintro ⟨r, hr, h1, h2⟩
          obtain ⟨x, hx, rfl⟩ := List.mem_map.mp hr
          obtain ⟨h3, h4⟩ := List.mem_filter.mp hx
          have h3 := List.mem_range.mp h3
          simp only at h1 h2
          rw [BitVec.toNat_ofNat, Nat.mod_eq_of_lt (by omega)] at h1 h2
          obtain rfl : x = c := by omega
          exact ⟨h3, by simpa using h4⟩
        · rintro ⟨h1, h2⟩
          refine ⟨_, List.mem_map.mpr ⟨c, List.mem_filter.mpr ⟨List.mem_range.mpr h1, by simpa using h2⟩, rfl⟩, ?_, ?_⟩
          · simp only
            rw [BitVec.toNat_ofNat, Nat.mod_eq_of_lt (by omega)]
          · simp only
            rw [BitVec.toNat_ofNat, Nat.mod_eq_of_lt (by omega)]
      refine ⟨_, .only (.last (.one (.neg hne (fun it hit => ⟨(hi it hit).1, (hi it hit).2 rfl⟩) hp hm))), fun c hc => ?_, fun x hx => ((hm x).mp hx).1, ?_⟩
      · rw [hm c]
        simp [hc]
      · intro he
        have := (hm 0x7f).mpr ⟨by decide, ?_⟩
        · rw [he] at this
          obtain ⟨_, h, _⟩ := this
          cases h
        · rintro ⟨it, hit, -, h2⟩
          have := ((hi it hit).2 rfl).2
          omega
  obtain ⟨N, hN⟩ := exec_decides_partial tabs hcp hgr (by simp [Ok, hemp]) (by decide)
  refine ⟨N, fun fuel hf => ?_⟩
  obtain ⟨p, e1, e2⟩ := hN fuel hf
  refine ⟨p, e1, fun hl c hc => ?_⟩
  obtain ⟨M, hM⟩ := e2 hl (utf8 c.toNat) (bmp_utf8 hc)
  refine ⟨M, fun f hf => ?_⟩
  obtain ⟨r, h1, h2⟩ := hM f hf
  refine ⟨r, _, h1, ?_⟩
  rw [← hmem c.toNat (by omega), ← matches_ranges (by omega) hlt]
  rcases h2 with ⟨rfl, hno⟩ | ⟨g, rfl, hg⟩
  · simp only [Option.isSome_none, Bool.false_eq_true, false_iff]
    rintro ⟨g, hg⟩
    exact hno g hg
  · exact ⟨fun _ => ⟨g, hg⟩, fun _ => rfl⟩

/-- `[a-df]` and `[^a-df]`. -/
example : (∀ neg : Bool, ∀ it ∈ ([⟨97#32, some 100#32⟩, ⟨102#32, none⟩] : List Item), it.ok ∧ (neg = true → 0 < it.lo ∧ it.hi < 0x7f)) ∧
    ([⟨97#32, some 100#32⟩, ⟨102#32, none⟩] : List Item).Pairwise Item.apart := by
  constructor
  · intro neg it hit
    simp only [List.mem_cons, List.not_mem_nil, or_false] at hit
    rcases hit with rfl | rfl
    · exact ⟨⟨by decide, by decide⟩, fun _ => by decide⟩
    · exact ⟨⟨by decide, by decide⟩, fun _ => by decide⟩
  · rw [List.pairwise_cons]
    refine ⟨?_, List.pairwise_singleton _ _⟩
    intro it hit
    simp only [List.mem_cons, List.not_mem_nil, or_false] at hit
    subst hit
    exact ⟨by decide, by decide⟩

/-! ## C31: escaped text as a pattern -/

/-- C31 for regular expressions: the escaped text compiles, and matches the text and nothing else. -/
def ReEscapes : Prop := ∀ tabs cs, CodePoints cs → ∃ out, Esc.refmt (enc cs) = .ok out ∧
  ∃ N, ∀ fuel, N ≤ fuel → ∃ p, compile tabs fuel out = .ok (.ok p) ∧
    ∀ s ds, CodePoints ds → s = enc ds → ∃ M, ∀ f, M ≤ f → ∃ r o, iexec p f .fresh s = .ok (r, o) ∧ (r.isSome = true ↔ s = enc cs)

/-- C31 does not hold: a backslash becomes `\.`, which matches a dot. -/
theorem re_escapes_violated : ¬ ReEscapes := by
  intro h
  obtain ⟨out, h1, N, hN⟩ := h noTabs [92#32] (by intro c hc; simp at hc; subst hc; decide)
  have e1 : Esc.refmt (enc [92#32]) = .ok [92, 46] := by rfl
  rw [e1] at h1
  cases h1
  obtain ⟨p, hp, hs⟩ := hN (N + 60) (by omega)
  have e2 : compile noTabs (N + 60) [92, 46] = .ok (.ok { code := [.lbra 0, .byte 46, .rbra 0, .mtch 0].map encinst, nmatch := 1 }) := by rfl
  rw [e2] at hp
  cases hp
  obtain ⟨M, hM⟩ := hs [92] [92#32] (by intro c hc; simp at hc; subst hc; decide) rfl
  obtain ⟨r, o, h3, h4⟩ := hM (M + 60) (by omega)
  have e3 : iexec { code := [Inst.lbra 0, .byte 46, .rbra 0, .mtch 0].map encinst, nmatch := 1 } (M + 60) .fresh [92] =
      .ok (none, .fresh) := by rfl
  rw [e3] at h3
  cases h3
  have := h4.mpr rfl
  cases this

/-- An escaped `(` is not a pattern. -/
example : Esc.refmt [40] = .ok [92, 40] ∧ compile noTabs 60 [92, 40] = .ok (.error (.badescape 40)) := ⟨by rfl, by rfl⟩

/-- The empty text is not a pattern. -/
example : Esc.refmt [] = .ok [] ∧ compile noTabs 60 [] = .ok (.error .incomplete) := ⟨by rfl, by rfl⟩

/-- The tree of a text. -/
def chain : List Char32 → Ast
  | [] => .bol
  | [c] => .chr c
  | c :: cs => .cat (.chr c) (chain cs)

/-- How a character is escaped. -/
def esc1 (c : Char32) : List Char32 := if c.toNat ∈ [42, 43, 63, 94, 36, 46, 41] then [92#32, c] else [c]

/-- A character that the escape and the parser agree about. -/
def agreed (c : Char32) : Prop := c.toNat < 0x10000 ∧ c.toNat ∉ [124, 91, 93, 40, 92]

theorem gr_esc1 {c : Char32} (h : agreed c) (n : Nat) : Gr .base (esc1 c) (.chr c) n n := by
  unfold esc1
  split
  · next hc =>
    have hc' : c = BitVec.ofNat 32 c.toNat := by simp
    simp only [List.mem_cons, List.not_mem_nil, or_false] at hc
    rcases hc with e | e | e | e | e | e | e
    all_goals (rw [e] at hc'; subst hc'; exact .esc (by simp [escapes]))
  · next hc =>
    refine .chr ⟨by have := h.1; omega, ?_⟩
    have := h.2
    simp only [List.mem_cons, List.not_mem_nil, or_false] at hc this ⊢
    omega

theorem gr_chain (n : Nat) : ∀ {cs : List Char32}, cs ≠ [] → (∀ c ∈ cs, agreed c) → Gr .cat (cs.flatMap esc1) (chain cs) n n
  | [], h, _ => absurd rfl h
  | [c], _, h => by
    rw [List.flatMap_cons, List.flatMap_nil, List.append_nil]
    exact .last (.one (gr_esc1 (h c (by simp)) n))
  | c :: d :: cs, _, h => by
    rw [List.flatMap_cons]
    exact .cat (.one (gr_esc1 (h c (by simp)) n)) (gr_chain n (by simp) fun x hx => h x (List.mem_cons_of_mem _ hx))

theorem chain_ok : ∀ {cs : List Char32}, (∀ c ∈ cs, agreed c) → Ok (fun _ => true) (chain cs) = true
  | [], _ => rfl
  | [c], h => by simpa [chain, Ok, okChr] using (h c (by simp)).1
  | c :: d :: cs, h => by
    have := chain_ok fun x hx => h x (List.mem_cons_of_mem c hx)
    have h1 := (h c (by simp)).1
    simp only [chain, Ok, okChr, Bool.and_eq_true, decide_eq_true_eq] at this ⊢
    exact ⟨h1, this⟩

theorem has_append {s a b : List Byte} {i : Nat} : Has s i (a ++ b) ↔ Has s i a ∧ Has s (i + a.length) b := by
  unfold Has
  rw [← List.drop_drop]
  constructor
  · rintro ⟨t, ht⟩
    rw [← ht]
    refine ⟨⟨b ++ t, by simp⟩, ⟨t, ?_⟩⟩
    rw [List.append_assoc, List.drop_left]
  · rintro ⟨⟨t, ht⟩, ⟨u, hu⟩⟩
    rw [← ht, List.drop_left] at hu
    exact ⟨u, by rw [← ht, ← hu, List.append_assoc]⟩

theorem parse_chain {s : List Byte} : ∀ {cs : List Char32} {i j : Nat} {g g' : Groups}, cs ≠ [] →
    (Parse InRanges s (chain cs) i g j g' ↔ j = i + (enc cs).length ∧ Has s i (enc cs) ∧ g' = g)
  | [], _, _, _, _, h => absurd rfl h
  | [c], i, j, g, g', _ => by
    have e : enc [c] = utf8 c.toNat := by simp [enc]
    rw [e, chain]
    constructor
    · intro h; cases h with | chr h => exact ⟨rfl, h, rfl⟩
    · rintro ⟨rfl, h, rfl⟩; exact .chr h
  | c :: d :: cs, i, j, g, g', _ => by
    have e : enc (c :: d :: cs) = utf8 c.toNat ++ enc (d :: cs) := by simp [enc]
    rw [e, chain, has_append, List.length_append]
    · constructor
      · intro h
        cases h with
        | cat h1 h2 =>
          cases h1 with
          | chr h1 =>
            obtain ⟨rfl, h3, rfl⟩ := (parse_chain (by simp)).mp h2
            exact ⟨by omega, ⟨h1, h3⟩, rfl⟩
      · rintro ⟨rfl, ⟨h1, h2⟩, rfl⟩
        exact .cat (.chr h1) ((parse_chain (by simp)).mpr ⟨by omega, h2, rfl⟩)
    · simp

theorem matches_chain {s : List Byte} {cs : List Char32} (h : cs ≠ []) : (∃ g, Matches s (chain cs) 0 s.length g) ↔ s = enc cs := by
  unfold Matches
  constructor
  · rintro ⟨g, h1⟩
    generalize hj : s.length = j at h1
    cases h1 with
    | cap h1 =>
      obtain ⟨h2, h3, -⟩ := (parse_chain h).mp h1
      have h3 : enc cs <+: s := by simpa [Has] using h3
      exact (h3.eq_of_length (by omega)).symm
  · intro e
    exact ⟨_, .cap ((parse_chain h).mpr ⟨by rw [← e]; omega, by rw [← e]; simp [Has], rfl⟩)⟩

theorem rechar_ok {c : Char32} (h : agreed c) : Esc.rechar c = .ok (enc (esc1 c)) := by
  have n : ∀ k : Nat, k < 2 ^ 32 → c.toNat ≠ k → c ≠ BitVec.ofNat 32 k := by
    rintro k hk h1 rfl
    rw [BitVec.toNat_ofNat, Nat.mod_eq_of_lt hk] at h1
    exact h1 rfl
  have h2 := h.2
  simp only [List.mem_cons, List.not_mem_nil, or_false, not_or] at h2
  unfold Esc.rechar esc1
  rw [if_neg (n 124 (by decide) h2.1)]
  by_cases hc : c.toNat ∈ [42, 43, 63, 94, 36, 46, 41]
  · rw [if_pos hc]
    have hc' : c = BitVec.ofNat 32 c.toNat := by simp
    simp only [List.mem_cons, List.not_mem_nil, or_false] at hc
    rcases hc with e | e | e | e | e | e | e
    all_goals (rw [e] at hc'; subst hc'; rfl)
  · rw [if_neg hc]
    simp only [List.mem_cons, List.not_mem_nil, or_false, not_or] at hc
    rw [if_neg (n 42 (by decide) (by omega)), if_neg (n 43 (by decide) (by omega)), if_neg (n 63 (by decide) (by omega)),
      if_neg (n 91 (by decide) (by omega)), if_neg (n 93 (by decide) (by omega)), if_neg (n 94 (by decide) (by omega)),
      if_neg (n 36 (by decide) (by omega)), if_neg (n 46 (by decide) (by omega)), if_neg (n 92 (by decide) (by omega)),
      if_neg (n 40 (by decide) (by omega)), if_neg (n 41 (by decide) (by omega)), Esc.putc_utf8 c (by have := h.1; omega)]
    simp [enc]

/-- C31 for regular expressions, for texts that are not empty, of characters below U+10000 other than `|`, `[`, `]`,
`(` and `\`. Missing: those, for which the claim is false. -/
theorem re_escapes_partial (tabs : List Byte → Option (List Rng)) {cs : List Char32} (hne : cs ≠ []) (h : ∀ c ∈ cs, agreed c) :
    ∃ out, Esc.refmt (enc cs) = .ok out ∧ ∃ N, ∀ fuel, N ≤ fuel → ∃ p, compile tabs fuel out = .ok (.ok p) ∧
      (p.code.length ≤ 2 ^ 30 → ∀ s, Bmp s → ∃ M, ∀ f, M ≤ f → ∃ r, iexec p f .fresh s = .ok (r, .fresh) ∧ (r.isSome = true ↔ s = enc cs)) := by
  have hcp : CodePoints cs := fun c hc => by have := (h c hc).1; omega
  have hcp' : CodePoints (cs.flatMap esc1) := by
    intro c hc
    obtain ⟨d, hd, hc⟩ := List.mem_flatMap.mp hc
    unfold esc1 at hc
    split at hc
    · simp only [List.mem_cons, List.not_mem_nil, or_false] at hc
      rcases hc with rfl | rfl
      · decide
      · exact hcp _ hd
    · simp only [List.mem_cons, List.not_mem_nil, or_false] at hc
      subst hc; exact hcp _ hd
  refine ⟨enc (cs.flatMap esc1), ?_, ?_⟩
  · rw [Esc.refmt, bychar_enc cs hcp, Res.bind_ok, Esc.each_ok fun c hc => rechar_ok (h c hc)]
    simp only [enc, List.flatMap_assoc]
  · obtain ⟨N, hN⟩ := exec_decides_partial tabs hcp' (.only (gr_chain 1 hne h)) (chain_ok h) (by decide)
    refine ⟨N, fun fuel hf => ?_⟩
    obtain ⟨p, e1, e2⟩ := hN fuel hf
    refine ⟨p, e1, fun hl s hs => ?_⟩
    obtain ⟨M, hM⟩ := e2 hl s hs
    refine ⟨M, fun f hf => ?_⟩
    obtain ⟨r, h1, h2⟩ := hM f hf
    refine ⟨r, h1, ?_⟩
    rw [← matches_chain hne]
    rcases h2 with ⟨rfl, hno⟩ | ⟨g, rfl, hg⟩
    · simp only [Option.isSome_none, Bool.false_eq_true, false_iff]
      rintro ⟨g, hg⟩
      exact hno g hg
    · exact ⟨fun _ => ⟨g, hg⟩, fun _ => rfl⟩

/-- "a.b*" -/
example : Esc.refmt [97, 46, 98, 42] = .ok [97, 92, 46, 98, 92, 42] ∧ ∀ c ∈ ([97#32, 46#32, 98#32, 42#32] : List Char32), agreed c := by
  refine ⟨by rfl, fun c hc => ?_⟩
  simp only [List.mem_cons, List.not_mem_nil, or_false] at hc
  rcases hc with rfl | rfl | rfl | rfl <;> exact ⟨by decide, by decide⟩

end Verif.Regex
