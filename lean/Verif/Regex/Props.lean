import Verif.Regex.Core
import Verif.Esc.Props

/-!
# Theorems about matching (C50, C70, C71)

Every function is given a number of rounds; `Res.spin` means that they were not enough. "For every number of
rounds from some number on" is the meaning of a result of the code, and `Res.spin` for every number of rounds
means that the code does not end.
-/

namespace Verif.Regex
open Verif.Utf

/-- No Unicode tables: the patterns below use none. -/
def noTabs : List Byte → Option (List Rng) := fun _ => none

/-! ## C50: matching ends -/

/-- C50. -/
def ExecEnds : Prop := ∀ tabs fuel pat p, compile tabs fuel pat = .ok (.ok p) →
  ∀ s, ∃ N, ∀ f, N ≤ f → iexec p f .fresh s ≠ .spin

/-- `(a*b*)*` compiles. -/
theorem loop_compiles : compile noTabs 60 [40, 97, 42, 98, 42, 41, 42] = .ok (.ok { code := loopP.map encinst, nmatch := 2 }) := by
  rfl

/-- C50 does not hold: `(a*b*)*` on the empty string runs forever. -/
theorem exec_ends_violated : ¬ ExecEnds := by
  intro h
  obtain ⟨N, hN⟩ := h noTabs 60 _ _ loop_compiles []
  refine hN N (by omega) ?_
  unfold iexec
  rw [run_loop true N 2 (by decide)]
  rfl

/-- The other end: the empty repetition `(a*)*` is caught by the test in `step`. -/
example : ∃ o, compile noTabs 60 [40, 97, 42, 41, 42] >>= (fun r => match r with
    | .ok p => iexec p 60 .fresh [97, 97]
    | .error _ => .abort) = .ok (some [(0, 2), (0, 2)], o) := ⟨_, rfl⟩

/-- C50 for the patterns of the grammar in which nothing that can match the empty string is repeated: `exec`
ends on every byte string. The limits: characters below U+10000, at most 15 groups, no `\<` and `\>`, at most
2^30 instructions. Missing: the other patterns, for which see `exec_ends_violated`. -/
theorem exec_ends_partial (tabs : List Byte → Option (List Rng)) {cs : List Char32} {t : Ast} {n : Nat} (hcs : CodePoints cs)
    (h : Gr .alt cs t 1 n) (hok : Ok (fun _ => true) t = true) (hn : n ≤ 16) :
    ∃ N, ∀ fuel, N ≤ fuel → ∃ p, compile tabs fuel (enc cs) = .ok (.ok p) ∧
      (p.code.length ≤ 2 ^ 30 → ∀ s, ∃ M, ∀ f, M ≤ f → ∃ r, iexec p f .fresh s = .ok r) := by
  obtain ⟨N, hN⟩ := run_gr tabs hcs h hok hn
  refine ⟨N, fun fuel hf => ?_⟩
  obtain ⟨p, e1, e2, e3⟩ := hN fuel hf
  refine ⟨p, e1, fun hl s => ?_⟩
  obtain ⟨M, hM⟩ := e3 hl s true
  refine ⟨M, fun f hf => ?_⟩
  obtain ⟨vm, h1, -⟩ := hM f hf
  unfold iexec
  rw [h1]
  simp only [Res.bind_ok]
  cases vm.best with
  | none => exact ⟨_, rfl⟩
  | some t => exact ⟨_, rfl⟩

/-- The pattern `(a|b)+c` and its tree. -/
theorem sample_gr : Gr .alt [40#32, 97#32, 124#32, 98#32, 41#32, 43#32, 99#32]
    (.cat (.plus (.cap 1 (.alt (.chr 97#32) (.chr 98#32))) false) (.chr 99#32)) 1 2 := by
  have a : Gr .cat [97#32] (.chr 97#32) 2 2 := .last (.one (.chr ⟨by decide, by decide⟩))
  have b : Gr .alt [98#32] (.chr 98#32) 2 2 := .only (.last (.one (.chr ⟨by decide, by decide⟩)))
  have ab : Gr .base [40#32, 97#32, 124#32, 98#32, 41#32] (.cap 1 (.alt (.chr 97#32) (.chr 98#32))) 1 2 := .cap (.alt a b)
  exact .only (.cat (.plus ab) (.last (.one (.chr ⟨by decide, by decide⟩))))

example : CodePoints [40#32, 97#32, 124#32, 98#32, 41#32, 43#32, 99#32] ∧
    Ok (fun _ => true) (.cat (.plus (.cap 1 (.alt (.chr 97#32) (.chr 98#32))) false) (.chr 99#32)) = true := by
  constructor
  · intro c hc
    simp only [List.mem_cons, List.not_mem_nil, or_false] at hc
    rcases hc with rfl | rfl | rfl | rfl | rfl | rfl | rfl <;> decide
  · decide

/-! ## C70: `exec` decides whether the whole text matches -/

/-- What `exec` and `iexec` should say about `s`, for a pattern with the tree `t` and `n` groups: whether `t`
matches all of `s`, and if so the groups of such a match. -/
def Decides (t : Ast) (n : Nat) (s : List Byte) (r : Option Groups) : Prop :=
  (r = none ∧ ∀ g, ¬ Matches s t 0 s.length g) ∨ ∃ g, r = some (g.take n) ∧ Matches s t 0 s.length g

/-- C70: for every pattern and every text. -/
def ExecDecides : Prop := ∀ tabs cs t n, CodePoints cs → Gr .alt cs t 1 n →
  ∃ N, ∀ fuel, N ≤ fuel → ∃ p, compile tabs fuel (enc cs) = .ok (.ok p) ∧
    ∀ s ds, CodePoints ds → s = enc ds → ∃ M, ∀ f, M ≤ f → ∃ r o, iexec p f .fresh s = .ok (r, o) ∧ Decides t n s r

/-- C70 does not hold: a literal above U+FFFF stops the compiler (the assertion in `genchar`). -/
theorem exec_decides_violated : ¬ ExecDecides := by
  intro h
  obtain ⟨N, hN⟩ := h noTabs [0x1f600#32] (.chr 0x1f600#32) 1 (by intro c hc; simp at hc; subst hc; decide)
    (.only (.last (.one (.chr ⟨by decide, by decide⟩))))
  obtain ⟨p, hp, -⟩ := hN (N + 60) (by omega)
  have : compile noTabs (N + 60) (enc [0x1f600#32]) = .abort := by rfl
  rw [this] at hp
  cases hp

/-- `.` does not match U+1F600 although it should. -/
example : ∃ o, compile noTabs 60 [46] >>= (fun r => match r with
    | .ok p => iexec p 60 .fresh [0xf0, 0x9f, 0x98, 0x80]
    | .error _ => .abort) = .ok (none, o) := ⟨_, rfl⟩

/-- C70, with the limits of `exec_ends_partial`, for texts of characters below U+10000; and the regex can be
used again. Missing: larger characters, repetitions of the empty string, word boundaries, `\p{…}` and `\u{…}`. -/
theorem exec_decides_partial (tabs : List Byte → Option (List Rng)) {cs : List Char32} {t : Ast} {n : Nat} (hcs : CodePoints cs)
    (h : Gr .alt cs t 1 n) (hok : Ok (fun _ => true) t = true) (hn : n ≤ 16) :
    ∃ N, ∀ fuel, N ≤ fuel → ∃ p, compile tabs fuel (enc cs) = .ok (.ok p) ∧
      (p.code.length ≤ 2 ^ 30 → ∀ s, Bmp s → ∃ M, ∀ f, M ≤ f → ∃ r, iexec p f .fresh s = .ok (r, .fresh) ∧ Decides t n s r) := by
  obtain ⟨N, hN⟩ := run_gr tabs hcs h hok hn
  refine ⟨N, fun fuel hf => ?_⟩
  obtain ⟨p, e1, e2, e3⟩ := hN fuel hf
  refine ⟨p, e1, fun hl s hs => ?_⟩
  obtain ⟨M, hM⟩ := e3 hl s true
  refine ⟨M, fun f hf => ?_⟩
  obtain ⟨vm, h1, h2, h3, h4⟩ := hM f hf
  unfold iexec
  rw [h1]
  simp only [Res.bind_ok]
  rcases h3 (.inl hs) with ⟨hb, hno⟩ | ⟨u, jb, hb, hw, hT, -⟩
  · rw [hb]
    refine ⟨none, ?_, .inl ⟨rfl, fun g => hno _ _ (fun _ => rfl)⟩⟩
    rw [h2, h4 hb]
    rfl
  · rw [hb]
    refine ⟨some (u.mg.take n), ?_, .inr ⟨u.mg, rfl, ?_⟩⟩
    · simp only [cleanup, h2, e2]
      rfl
    · have : jb = s.length := hw rfl
      rw [← this]
      exact hT

/-- `(a|b)+c` on "abc": the groups are the whole and the last repetition. -/
example : Decides (.cat (.plus (.cap 1 (.alt (.chr 97#32) (.chr 98#32))) false) (.chr 99#32)) 2 [97, 98, 99]
      (some [(0, 3), (1, 2)]) ∧
    ∃ o, compile noTabs 60 [40, 97, 124, 98, 41, 43, 99] >>= (fun r => match r with
      | .ok p => iexec p 60 .fresh [97, 98, 99]
      | .error _ => .abort) = .ok (some [(0, 3), (1, 2)], o) := by
  refine ⟨.inr ⟨(0, 3) :: (1, 2) :: List.replicate 14 (-1, -1), rfl, ?_⟩, _, rfl⟩
  have h1 : Parse InRanges [97, 98, 99] (.cap 1 (.alt (.chr 97#32) (.chr 98#32))) 0 (opened .none 0 0) 1
      (closed (opened (opened .none 0 0) 1 0) 1 1) := .cap (.altl (.chr ⟨[98, 99], rfl⟩))
  have h2 : Parse InRanges [97, 98, 99] (.cap 1 (.alt (.chr 97#32) (.chr 98#32))) 1 (closed (opened (opened .none 0 0) 1 0) 1 1) 2
      (closed (opened (closed (opened (opened .none 0 0) 1 0) 1 1) 1 1) 1 2) := .cap (.altr (.chr ⟨[99], rfl⟩))
  have h3 := Parse.cat (Parse.plus (r := false) h1 (Parse.star1 h2 .star0))
    (Parse.chr (c := 99#32) (s := [97, 98, 99]) (i := 2) ⟨[], rfl⟩)
  exact .cap h3

/-- The groups reported: the first is the whole text, every other one is unset or a part of the text. -/
theorem groups_ok {t : Ast} {n : Nat} {s : List Byte} {cs : List Char32} {gs : Groups} (hgr : Gr .alt cs t 1 n) (hn : n ≤ 16)
    (h : Decides t n s (some gs)) :
    gs.length = n ∧ gs[0]? = some (0, (s.length : Int)) ∧
      ∀ p ∈ gs, p = (-1, -1) ∨ (0 ≤ p.1 ∧ p.1 ≤ p.2 ∧ p.2 ≤ s.length) := by
  rcases h with ⟨h, -⟩ | ⟨g, h, hm⟩
  · cases h
  cases h
  obtain ⟨hle, hc⟩ := gr_caps hgr
  obtain ⟨-, h2, h3, h4⟩ := matches_groups hm hc
  refine ⟨by simp [h2]; omega, ?_, fun p hp => ?_⟩
  · rw [List.getElem?_take, if_pos (by omega), h3]
    rfl
  · obtain ⟨m, hm⟩ := List.mem_iff_getElem?.mp (List.mem_of_mem_take hp)
    have := h4 m p hm
    simpa [Closed] using this

/-- `exec`, which reports strings: what they should be for groups `g`, `none` for a group that is unset. -/
def strings (s : List Byte) (g : Groups) : List (Option (List Byte)) :=
  g.map fun p => if p = (-1, -1) then none else some ((s.take p.2.toNat).drop p.1.toNat)

theorem getmatches_ok (s : List Byte) (g : Groups) (h : ∀ p ∈ g, p = (-1, -1) ∨ (0 ≤ p.1 ∧ p.1 ≤ p.2 ∧ p.2 ≤ s.length)) :
    getmatches s g = .ok (strings s g) := by
  induction g with
  | nil => rfl
  | cons p g ih =>
    have ih := ih (fun q hq => h q (List.mem_cons_of_mem _ hq))
    rw [getmatches, ih]
    simp only [strings, List.map_cons]
    rcases h p (by simp) with rfl | ⟨h1, h2, h3⟩
    · simp
    · have hne : p.1 ≠ -1 ∧ p.2 ≠ -1 := by omega
      rw [if_pos hne, slice_ok (by omega) (by omega), if_neg (by rintro rfl; omega)]
      simp only [Res.bind_ok, Res.pure_eq]

/-- `exec` is `iexec` with strings. -/
theorem exec_strings {t : Ast} {n : Nat} {s : List Byte} {cs : List Char32} {r : Option Groups} {p : Prog} {f : Nat} {o o' : Obj}
    (hgr : Gr .alt cs t 1 n) (hn : n ≤ 16) (hd : Decides t n s r) (h : iexec p f o s = .ok (r, o')) :
    exec p f o s = .ok (r.map (strings s), o') := by
  unfold exec
  rw [h]
  simp only [Res.bind_ok]
  cases r with
  | none => rfl
  | some gs =>
    simp only
    rw [getmatches_ok s gs (groups_ok hgr hn hd).2.2]
    rfl

/-- An unset group: the element of the result is memory that was never written. -/
example : ∃ o, compile noTabs 60 [40, 97, 41, 124, 98] >>= (fun r => match r with
    | .ok p => exec p 60 .fresh [98]
    | .error _ => .abort) = .ok (some [some [98], none], o) := ⟨_, rfl⟩

/-! ## C71: `search` finds the leftmost longest match -/

/-- What `isearch` should say: nothing if there is no match anywhere, otherwise the groups of a match that
starts as early as possible and is as long as possible there. -/
def Finds (t : Ast) (n : Nat) (s : List Byte) (r : Option Groups) : Prop :=
  (r = none ∧ ∀ i j g, i ≤ s.length → ¬ Matches s t i j g) ∨
  ∃ i j g, r = some (g.take n) ∧ i ≤ s.length ∧ Matches s t i j g ∧ (∀ i' j' g', i' < i → ¬ Matches s t i' j' g') ∧
    ∀ j' g', Matches s t i j' g' → j' ≤ j

/-- C71. -/
def SearchFinds : Prop := ∀ tabs cs t n, CodePoints cs → Gr .alt cs t 1 n → Ok (fun _ => true) t = true → n ≤ 16 →
  ∃ N, ∀ fuel, N ≤ fuel → ∃ p, compile tabs fuel (enc cs) = .ok (.ok p) ∧
    (p.code.length ≤ 2 ^ 30 → ∀ s, Bmp s → ∃ M, ∀ f, M ≤ f → ∃ r o, isearch p f .fresh s = .ok (r, o) ∧ Finds t n s r)

/-- The program of the pattern `a`. -/
theorem compile_a (N : Nat) : compile noTabs (N + 60) [97] = .ok (.ok { code := [.lbra 0, .byte 97, .rbra 0, .mtch 0].map encinst, nmatch := 1 }) := by
  rfl

theorem gr_a : Gr .alt [97#32] (.chr 97#32) 1 1 := .only (.last (.one (.chr ⟨by decide, by decide⟩)))

/-- C71 does not hold: the positions are counted from the start of the match, not of the text: `a` in "xa". -/
theorem search_finds_violated : ¬ SearchFinds := by
  intro h
  obtain ⟨N, hN⟩ := h noTabs [97#32] (.chr 97#32) 1 (by intro c hc; simp at hc; subst hc; decide) gr_a (by decide) (by decide)
  obtain ⟨p, hp, hs⟩ := hN (N + 60) (by omega)
  rw [show enc [97#32] = [97] from rfl, compile_a] at hp
  cases hp
  obtain ⟨M, hM⟩ := hs (by decide) [120, 97] ⟨[120#32, 97#32], rfl, by intro c hc; simp at hc; rcases hc with rfl | rfl <;> decide⟩
  obtain ⟨r, o, h1, h2⟩ := hM (M + 60) (by omega)
  have e : isearch { code := [Inst.lbra 0, .byte 97, .rbra 0, .mtch 0].map encinst, nmatch := 1 } (M + 60) .fresh [120, 97] =
      .ok (some [(0, 1)], .fresh) := by rfl
  rw [e] at h1
  cases h1
  rcases h2 with ⟨h, -⟩ | ⟨i, j, g, hr, -, hm, -⟩
  · cases h
  · have h0 := (matches_groups hm (b := 1) trivial).2.2.1
    have : (g.take 1)[0]? = some ((i : Int), (j : Int)) := by rw [List.getElem?_take, if_pos (by decide), h0]
    rw [← Option.some.inj hr] at this
    simp only [List.getElem?_cons_zero, Option.some.injEq, Prod.mk.injEq] at this
    obtain ⟨hi, hj⟩ := this
    cases hm with
    | cap hm =>
      cases hm with
      | chr hh =>
        obtain rfl : i = 0 := by omega
        exact absurd hh (by unfold Has; decide)

/-- `a*` does not find the empty match at the end: here, in the empty text. -/
example : ∃ o, compile noTabs 60 [97, 42] >>= (fun r => match r with
    | .ok p => isearch p 60 .fresh []
    | .error _ => .abort) = .ok (none, o) := ⟨_, rfl⟩

/-- `^a` is found in "xa": each position counts as a start. -/
example : ∃ o, compile noTabs 60 [94, 97] >>= (fun r => match r with
    | .ok p => isearch p 60 .fresh [120, 97]
    | .error _ => .abort) = .ok (some [(0, 1)], o) := ⟨_, rfl⟩

/-- No `^`. -/
def noBol : Ast → Bool
  | .cat a b => noBol a && noBol b
  | .alt a b => noBol a && noBol b
  | .star a _ => noBol a
  | .plus a _ => noBol a
  | .quest a => noBol a
  | .cap _ a => noBol a
  | .bol => false
  | _ => true

theorem has_drop {s : List Byte} {i a : Nat} {bs : List Byte} : Has (s.drop i) a bs ↔ Has s (i + a) bs := by
  unfold Has; rw [List.drop_drop]

theorem eol_drop {s : List Byte} {i a : Nat} (hi : i ≤ s.length) : AtEol (s.drop i) a ↔ AtEol s (i + a) := by
  unfold AtEol
  rw [List.getElem?_drop, List.length_drop]
  constructor
  · rintro (h | h)
    · left; omega
    · exact .inr h
  · rintro (h | h)
    · left; omega
    · exact .inr h

theorem parse_undrop {cls : List Rng → List Byte → Prop} {s : List Byte} {i : Nat} (hi : i ≤ s.length) {t : Ast} {a b : Nat} {g g' : Groups}
    (h : Parse cls (s.drop i) t a g b g') : noBol t = true → ∀ G, ∃ G', Parse cls s t (i + a) G (i + b) G' := by
  induction h with
  | chr h => intro _ G; rw [← Nat.add_assoc]; exact ⟨_, .chr (has_drop.mp h)⟩
  | ranges h1 h2 => intro _ G; rw [← Nat.add_assoc]; exact ⟨_, .ranges h1 (has_drop.mp h2)⟩
  | cat _ _ ih1 ih2 =>
    intro hb G
    simp only [noBol, Bool.and_eq_true] at hb
    obtain ⟨G1, p1⟩ := ih1 hb.1 G
    obtain ⟨G2, p2⟩ := ih2 hb.2 G1
    exact ⟨G2, .cat p1 p2⟩
  | altl _ ih => intro hb G; simp only [noBol, Bool.and_eq_true] at hb; obtain ⟨G1, p1⟩ := ih hb.1 G; exact ⟨G1, .altl p1⟩
  | altr _ ih => intro hb G; simp only [noBol, Bool.and_eq_true] at hb; obtain ⟨G1, p1⟩ := ih hb.2 G; exact ⟨G1, .altr p1⟩
  | star0 => intro _ G; exact ⟨G, .star0⟩
  | star1 _ _ ih1 ih2 => intro hb G; obtain ⟨G1, p1⟩ := ih1 hb G; obtain ⟨G2, p2⟩ := ih2 hb G1; exact ⟨G2, .star1 p1 p2⟩
  | plus _ _ ih1 ih2 => intro hb G; obtain ⟨G1, p1⟩ := ih1 hb G; obtain ⟨G2, p2⟩ := ih2 hb G1; exact ⟨G2, .plus p1 p2⟩
  | quest0 => intro _ G; exact ⟨G, .quest0⟩
  | quest1 _ ih => intro hb G; obtain ⟨G1, p1⟩ := ih hb G; exact ⟨G1, .quest1 p1⟩
  | cap _ ih => intro hb G; obtain ⟨G1, p1⟩ := ih hb _; exact ⟨_, .cap p1⟩
  | bol _ => intro hb; exact absurd hb Bool.false_ne_true
  | eol h => intro _ G; exact ⟨G, .eol ((eol_drop hi).mp h)⟩

theorem parse_drop {cls : List Rng → List Byte → Prop} {s : List Byte} {i : Nat} (hi : i ≤ s.length) {t : Ast} {a b : Nat} {g g' : Groups}
    (h : Parse cls s t a g b g') : noBol t = true → ∀ x, a = i + x → ∀ G, ∃ y G', b = i + y ∧ Parse cls (s.drop i) t x G y G' := by
  induction h with
  | chr h => rintro _ x rfl G; exact ⟨_, _, Nat.add_assoc _ _ _, .chr (has_drop.mpr h)⟩
  | ranges h1 h2 => rintro _ x rfl G; exact ⟨_, _, Nat.add_assoc _ _ _, .ranges h1 (has_drop.mpr h2)⟩
  | cat _ _ ih1 ih2 =>
    intro hb x hx G
    simp only [noBol, Bool.and_eq_true] at hb
    obtain ⟨y1, G1, e1, p1⟩ := ih1 hb.1 x hx G
    obtain ⟨y2, G2, e2, p2⟩ := ih2 hb.2 y1 e1 G1
    exact ⟨y2, G2, e2, .cat p1 p2⟩
  | altl _ ih =>
    intro hb x hx G; simp only [noBol, Bool.and_eq_true] at hb
    obtain ⟨y1, G1, e1, p1⟩ := ih hb.1 x hx G; exact ⟨y1, G1, e1, .altl p1⟩
  | altr _ ih =>
    intro hb x hx G; simp only [noBol, Bool.and_eq_true] at hb
    obtain ⟨y1, G1, e1, p1⟩ := ih hb.2 x hx G; exact ⟨y1, G1, e1, .altr p1⟩
  | star0 => intro _ x hx G; exact ⟨x, G, hx, .star0⟩
  | star1 _ _ ih1 ih2 =>
    intro hb x hx G
    obtain ⟨y1, G1, e1, p1⟩ := ih1 hb x hx G
    obtain ⟨y2, G2, e2, p2⟩ := ih2 hb y1 e1 G1
    exact ⟨y2, G2, e2, .star1 p1 p2⟩
  | plus _ _ ih1 ih2 =>
    intro hb x hx G
    obtain ⟨y1, G1, e1, p1⟩ := ih1 hb x hx G
    obtain ⟨y2, G2, e2, p2⟩ := ih2 hb y1 e1 G1
    exact ⟨y2, G2, e2, .plus p1 p2⟩
  | quest0 => intro _ x hx G; exact ⟨x, G, hx, .quest0⟩
  | quest1 _ ih => intro hb x hx G; obtain ⟨y1, G1, e1, p1⟩ := ih hb x hx G; exact ⟨y1, G1, e1, .quest1 p1⟩
  | cap _ ih => intro hb x hx G; obtain ⟨y1, G1, e1, p1⟩ := ih hb x hx _; exact ⟨y1, _, e1, .cap p1⟩
  | bol _ => intro hb; exact absurd hb Bool.false_ne_true
  | eol h => rintro _ x rfl G; exact ⟨x, G, rfl, .eol ((eol_drop hi).mpr h)⟩

/-- A match in the rest of the text is a match in the text, but for the groups. -/
theorem matches_drop {s : List Byte} {t : Ast} (ht : noBol t = true) {i : Nat} (hi : i ≤ s.length) (j : Nat) :
    (∃ g, Matches (s.drop i) t 0 j g) ↔ ∃ g, Matches s t i (i + j) g := by
  constructor
  · rintro ⟨g, h⟩
    exact parse_undrop hi h ht _
  · rintro ⟨g, h⟩
    obtain ⟨y, G, e, p⟩ := parse_drop hi h ht 0 (by omega) Groups.none
    obtain rfl : j = y := by omega
    exact ⟨G, p⟩

/-- What the loop of `search` finds, from `i` on: the rest of the text from the place found, and the groups there. -/
def Found (t : Ast) (n : Nat) (s : List Byte) (i : Nat) (r : Option (List Byte × Groups)) : Prop :=
  (r = none ∧ ∀ k j g, i ≤ k → k < s.length → ¬ Matches (s.drop k) t 0 j g) ∨
  ∃ k j g, r = some (s.drop k, g.take n) ∧ i ≤ k ∧ k < s.length ∧ Matches (s.drop k) t 0 j g ∧
    (∀ k' j' g', i ≤ k' → k' < k → ¬ Matches (s.drop k') t 0 j' g') ∧ ∀ j' g', Matches (s.drop k) t 0 j' g' → j' ≤ j

theorem findloop_spec {p : Prog} {t : Ast} {n : Nat} (hn : p.nmatch = n)
    (hrun : ∀ s whole, ∃ M, ∀ f, M ≤ f → ∃ vm, run p f .fresh s whole = .ok vm ∧ vm.tail = .nil ∧
        (End s → Answer s (fun j g => Matches s t 0 j g) whole vm.best) ∧ (vm.best = none → vm.nthr = 0))
    {s : List Byte} (hs : Bmp s) (k : Nat) : ∀ i, s.length - i < k →
      ∃ M, ∀ f, M ≤ f → ∃ r, findloop p f s k i .fresh = .ok (r, .fresh) ∧ Found t n s i r := by
  induction k with
  | zero => intro i h; omega
  | succ k ih =>
    intro i hk
    by_cases hi : i < s.length
    · obtain ⟨M1, h1⟩ := hrun (s.drop i) false
      obtain ⟨M2, h2⟩ := ih (i + 1) (by omega)
      refine ⟨max M1 M2, fun f hf => ?_⟩
      obtain ⟨vm, e1, e2, e3, e4⟩ := h1 f (by omega)
      have e3 := e3 (end_drop hs i)
      rw [findloop, if_pos hi, slice_suffix (by omega)]
      simp only [Res.bind_ok]
      rw [e1]
      simp only [Res.bind_ok]
      rcases e3 with ⟨hb, hno⟩ | ⟨u, jb, hb, -, hT, hmax⟩
      · obtain ⟨r, e5, e6⟩ := h2 f (by omega)
        rw [hb]
        simp only
        rw [e2, e4 hb]
        refine ⟨r, e5, ?_⟩
        have here : ∀ j g, ¬ Matches (s.drop i) t 0 j g := fun j g => hno j g (by simp [Want])
        rcases e6 with ⟨hr, hall⟩ | ⟨k', j, g, hr, h3, h4, h5, h6, h7⟩
        · refine .inl ⟨hr, fun k' j g h3 h4 => ?_⟩
          by_cases hk' : k' = i
          · rw [hk']; exact here j g
          · exact hall k' j g (by omega) h4
        · refine .inr ⟨k', j, g, hr, by omega, h4, h5, fun k2 j' g' h8 h9 => ?_, h7⟩
          by_cases hk' : k2 = i
          · rw [hk']; exact here j' g'
          · exact h6 k2 j' g' (by omega) h9
      · rw [hb]
        refine ⟨some (s.drop i, u.mg.take n), ?_, .inr ⟨i, jb, u.mg, rfl, by omega, hi, hT, fun k' j' g' h8 h9 => by omega,
          fun j' g' hm => hmax j' g' (by simp [Want]) hm⟩⟩
        simp only [cleanup, e2, hn]
        rfl
    · refine ⟨0, fun f _ => ⟨none, ?_, .inl ⟨rfl, fun k' j g h3 h4 => by omega⟩⟩⟩
      rw [findloop, if_neg hi]
      rfl

/-- What is true of `search`: it reports nothing if nothing matches at a position before the end, and otherwise
the strings of the groups of the first longest match, the first one being the match. -/
def FindsStr (t : Ast) (s : List Byte) (r : Option (List (Option (List Byte)))) : Prop :=
  (r = none ∧ ∀ i j g, i < s.length → ¬ Matches s t i j g) ∨
  ∃ i j l, r = some (some ((s.take j).drop i) :: l) ∧ i < s.length ∧ (∃ g, Matches s t i j g) ∧
    (∀ i' j' g', i' < i → ¬ Matches s t i' j' g') ∧ ∀ j' g', Matches s t i j' g' → j' ≤ j

/-- C71 for `search`, patterns without `^`, and positions before the end; limits as in `exec_decides_partial`.
Missing: `^`, matches at the end of the text, and the positions reported by `isearch`. -/
theorem search_finds_partial (tabs : List Byte → Option (List Rng)) {cs : List Char32} {t : Ast} {n : Nat} (hcs : CodePoints cs)
    (h : Gr .alt cs t 1 n) (hok : Ok (fun _ => true) t = true) (hn : n ≤ 16) (hb : noBol t = true) :
    ∃ N, ∀ fuel, N ≤ fuel → ∃ p, compile tabs fuel (enc cs) = .ok (.ok p) ∧
      (p.code.length ≤ 2 ^ 30 → ∀ s, Bmp s → ∃ M, ∀ f, M ≤ f → ∃ r, search p f .fresh s = .ok (r, .fresh) ∧ FindsStr t s r) := by
  obtain ⟨N, hN⟩ := run_gr tabs hcs h hok hn
  refine ⟨N, fun fuel hf => ?_⟩
  obtain ⟨p, e1, e2, e3⟩ := hN fuel hf
  refine ⟨p, e1, fun hl s hs => ?_⟩
  obtain ⟨M, hM⟩ := findloop_spec e2 (e3 hl) hs (s.length + 1) 0 (by omega)
  refine ⟨M, fun f hf => ?_⟩
  obtain ⟨r, h1, h2⟩ := hM f hf
  unfold search
  rw [h1]
  simp only [Res.bind_ok]
  have len : ∀ i j g, i ≤ s.length → Matches s t i j g → i ≤ j := fun i j g _ hm =>
    (matches_groups hm (gr_caps h).2).1
  have down : ∀ i j g, i ≤ s.length → Matches s t i j g → ∃ g, Matches (s.drop i) t 0 (j - i) g := by
    intro i j g hi hm
    refine (matches_drop hb hi (j - i)).mpr ?_
    rw [Nat.add_sub_cancel' (len i j g hi hm)]
    exact ⟨g, hm⟩
  rcases h2 with ⟨rfl, hall⟩ | ⟨k, j, g, rfl, -, hk, hm, hfst, hmax⟩
  · refine ⟨none, rfl, .inl ⟨rfl, fun i j g hi hm => ?_⟩⟩
    obtain ⟨g', hm'⟩ := down i j g (by omega) hm
    exact hall i _ g' (by omega) hi hm'
  · obtain ⟨h3, h4, h5, h6⟩ := matches_groups hm (gr_caps h).2
    have hjl := parse_le hm (by omega)
    simp only
    rw [getmatches_ok (s.drop k) (g.take n) (fun p hp => by
      obtain ⟨m, hm⟩ := List.mem_iff_getElem?.mp (List.mem_of_mem_take hp)
      have := h6 m p hm
      unfold Closed at this
      rcases this with h | h
      · exact .inl h
      · exact .inr ⟨by omega, h.2.1, by omega⟩)]
    have hn1 : 1 ≤ n := (gr_caps h).1
    obtain ⟨g0, gs, hg⟩ : ∃ g0 gs, g = g0 :: gs := by
      cases g with
      | nil => simp at h4
      | cons a b => exact ⟨a, b, rfl⟩
    subst hg
    simp only [List.getElem?_cons_zero, Option.some.injEq] at h5
    subst h5
    obtain ⟨n', rfl⟩ : ∃ n', n = n' + 1 := ⟨n - 1, by omega⟩
    refine ⟨_, rfl, .inr ⟨k, k + j, strings (s.drop k) (gs.take n'), ?_, hk, (matches_drop hb (by omega) j).mp ⟨_, hm⟩,
      fun i' j' g' hi hm' => ?_, fun j' g' hm' => ?_⟩⟩
    · simp only [strings, List.take_succ_cons, List.map_cons]
      rw [if_neg (by intro e; simp only [Prod.mk.injEq] at e; omega)]
      have : ((s.drop k).take j).drop 0 = (s.take (k + j)).drop k := by
        rw [List.drop_zero, List.take_drop]
      simp [this]
    · obtain ⟨g2, hm2⟩ := down i' j' g' (by omega) hm'
      exact hfst i' _ g2 (by omega) hi hm2
    · obtain ⟨g2, hm2⟩ := down k j' g' (by omega) hm'
      have := hmax _ g2 hm2
      have := len k j' g' (by omega) hm'
      omega

/-- `(a|b)+c` in "xabca". -/
example : noBol (.cat (.plus (.cap 1 (.alt (.chr 97#32) (.chr 98#32))) false) (.chr 99#32)) = true ∧
    ∃ o, compile noTabs 60 [40, 97, 124, 98, 41, 43, 99] >>= (fun r => match r with
      | .ok p => search p 60 .fresh [120, 97, 98, 99, 97]
      | .error _ => .abort) = .ok (some [some [97, 98, 99], some [98]], o) := ⟨rfl, _, rfl⟩

end Verif.Regex
