import Verif.Str.Lemmas

/-!
# C07, C08, C60, C61: searching, splitting, joining, tokenising, stripping, replacing
-/

namespace Verif.Str
open Verif.Utf (Char32 decode charlen charstep)

/-! ### C08 -/

/-- **C08, first occurrence.** -/
theorem strfind_spec (h n : List Byte) : ∃ r, strfind h n = .ok r ∧
    (∀ i, r = some i ↔ OccursAt n h i ∧ ∀ k, OccursAt n h k → i ≤ k) ∧ (r = none ↔ ¬ Occurs n h) := by
  rcases strfind_cases h n with ⟨j, h1, h2, h3⟩ | ⟨h1, h2⟩
  · refine ⟨_, h1, ?_, by simp; exact ⟨j, h2⟩⟩
    intro i
    constructor
    · intro e
      injection e with e
      subst e
      exact ⟨h2, fun k hk => by by_contra hlt; exact h3 k (by omega) hk⟩
    · rintro ⟨a, b⟩
      have := b j h2
      congr 1
      by_contra hne
      exact h3 i (by omega) a
  · exact ⟨_, h1, fun i => by simp; intro a; exact absurd a (h2 i), by simp [Occurs]; exact h2⟩

/-- **C08, last occurrence.** -/
theorem strrfind_spec (h n : List Byte) : ∃ r, strrfind h n = .ok r ∧
    (∀ i, r = some i ↔ OccursAt n h i ∧ ∀ k, OccursAt n h k → k ≤ i) ∧ (r = none ↔ ¬ Occurs n h) := by
  have key : (∃ j, strrfind h n = .ok (some j) ∧ OccursAt n h j ∧ ∀ k, j < k → ¬ OccursAt n h k) ∨
      (strrfind h n = .ok none ∧ ∀ k, ¬ OccursAt n h k) := by
    unfold strrfind
    split
    · next hl => exact Or.inr ⟨rfl, fun k e => by have := occursAt_le e; omega⟩
    · split
      · next hz =>
        left
        have h1 := List.length_eq_zero_iff.1 hz.1
        have h2 := List.length_eq_zero_iff.1 hz.2
        subst h1 h2
        exact ⟨0, rfl, ⟨[], [], rfl, rfl⟩, fun k hk e => by have := occursAt_le e; simp at this; omega⟩
      · rcases rfindLoop_spec h n (h.length - n.length) (by omega) with ⟨j, h1, -, h3, h4⟩ | ⟨h1, h2⟩
        · exact Or.inl ⟨j, h1, h3, fun k hk e => h4 k hk (by have := occursAt_le e; omega) e⟩
        · exact Or.inr ⟨h1, fun k e => h2 k (by have := occursAt_le e; omega) e⟩
  rcases key with ⟨j, h1, h2, h3⟩ | ⟨h1, h2⟩
  · refine ⟨_, h1, ?_, by simp; exact ⟨j, h2⟩⟩
    intro i
    constructor
    · intro e
      injection e with e
      subst e
      exact ⟨h2, fun k hk => by by_contra hlt; exact h3 k (by omega) hk⟩
    · rintro ⟨a, b⟩
      have := b j h2
      congr 1
      by_contra hne
      exact h3 i (by omega) a
  · exact ⟨_, h1, fun i => by simp; intro a; exact absurd a (h2 i), by simp [Occurs]; exact h2⟩

/-- **C08, containment.** -/
theorem strhas_iff (h n : List Byte) : ∃ b, strhas h n = .ok b ∧ (b = true ↔ Occurs n h) := by
  unfold strhas
  rcases strfind_cases h n with ⟨j, h1, h2, -⟩ | ⟨h1, h2⟩
  · rw [h1]; exact ⟨true, rfl, by simp; exact ⟨j, h2⟩⟩
  · rw [h1]; exact ⟨false, rfl, by simp [Occurs]; exact h2⟩

/-- "abab" in "aababab". -/
example : strfind [1, 1, 2, 1, 2, 1, 2] [1, 2, 1, 2] = .ok (some 1) ∧
    strrfind [1, 1, 2, 1, 2, 1, 2] [1, 2, 1, 2] = .ok (some 3) := by
  constructor <;> decide +kernel

/-! ### C07 -/

theorem join_cons (d x : List Byte) {xs : List (List Byte)} (h : xs ≠ []) :
    join d (x :: xs) = x ++ d ++ join d xs := by
  cases xs with
  | nil => exact absurd rfl h
  | cons y ys => rfl

theorem cut_cons (d x : List Byte) {xs : List (List Byte)} (h : xs ≠ []) :
    CutLeftmost d (x :: xs) ↔ (∀ k, OccursAt d (x ++ d) k → k = x.length) ∧ CutLeftmost d xs := by
  cases xs with
  | nil => exact absurd rfl h
  | cons y ys => rfl

theorem leftmost_iff {d p : List Byte} (h : ∀ k, k < p.length → ¬ OccursAt d (p ++ d) k) :
    ∀ k, OccursAt d (p ++ d) k → k = p.length := by
  intro k e
  have := occursAt_le e
  simp at this
  by_contra hne
  exact h k (by omega) e

theorem splitLoop_spec (d : List Byte) (hd : d ≠ []) (fuel : Nat) : ∀ s, s.length < fuel →
    ∃ ps, splitLoop d fuel s = .ok ps ∧ ps ≠ [] ∧ join d ps = s ∧ CutLeftmost d ps := by
  induction fuel with
  | zero => intro s h; omega
  | succ n ih =>
    intro s h
    unfold splitLoop
    rcases strfind_split s d hd with ⟨p, t, h1, h2, h3, h4, h5, h6⟩ | ⟨h1, h2⟩
    · obtain ⟨ps, g1, g2, g3, g4⟩ := ih t (by omega)
      refine ⟨p :: ps, ?_, by simp, ?_, ?_⟩
      · rw [h1, Res.bind_ok]
        simp only
        rw [h3, Res.bind_ok, h4, Res.bind_ok, g1]; rfl
      · rw [join_cons _ _ g2, g3, h2]
      · rw [cut_cons _ _ g2]
        exact ⟨leftmost_iff h6, g4⟩
    · exact ⟨[s], by rw [h1]; rfl, by simp, rfl, h2⟩

theorem no_occurs_of_cut {d : List Byte} (hd : d ≠ []) {ps : List (List Byte)} (h : CutLeftmost d ps) :
    ∀ p ∈ ps, ¬ Occurs d p := by
  induction ps with
  | nil => exact absurd h id
  | cons x xs ih =>
    intro p hp
    by_cases hx : xs = []
    · subst hx; simp at hp; subst hp; exact h
    · rw [cut_cons _ _ hx] at h
      rcases List.mem_cons.1 hp with rfl | hp
      · exact not_occurs_of_leftmost hd fun k hk e => by have := h.1 k e; omega
      · exact ih h.2 p hp

/-- **C07, splitting.**  For a non-empty delimiter `strsplit` returns; the pieces
joined give the text back, they are the leftmost cut, and none contains the
delimiter. -/
theorem strsplit_spec (s d : List Byte) (hd : d ≠ []) :
    ∃ ps, strsplit (s.length + 1) s d = .ok ps ∧ join d ps = s ∧ (∀ p ∈ ps, ¬ Occurs d p) ∧
      (s ≠ [] → CutLeftmost d ps) := by
  unfold strsplit
  split
  · next h =>
    have := List.length_eq_zero_iff.1 h
    subst this
    exact ⟨[], rfl, rfl, by simp, by simp⟩
  · obtain ⟨ps, h1, -, h3, h4⟩ := splitLoop_spec d hd (s.length + 1) s (by omega)
    exact ⟨ps, h1, h3, no_occurs_of_cut hd h4, fun _ => h4⟩

/-- "a,,b," at ",", and a self-overlapping delimiter. -/
example : strsplit 9 [97, 44, 44, 98, 44] [44] = .ok [[97], [], [98], []] ∧
    strsplit 9 [97, 97, 97] [97, 97] = .ok [[], [97]] := by
  constructor <;> decide +kernel

theorem blit_spec (pre mid post src : List Byte) (h : mid.length = src.length) :
    blit (pre ++ mid ++ post) pre.length src = .ok (pre ++ src ++ post) := by
  unfold blit
  rw [if_neg (by simp; omega)]
  have e1 : (pre ++ mid ++ post).take pre.length = pre := by rw [List.append_assoc, List.take_left]
  have e2 : (pre ++ mid ++ post).drop (pre.length + src.length) = post := by
    rw [← h, ← List.length_append, List.drop_left]
  rw [e1, e2]

theorem joinLoop_spec (d : List Byte) (xs : List (List Byte)) : ∀ (pre rest : List Byte),
    rest.length = (join d xs).length → joinLoop d xs (pre ++ rest) pre.length = .ok (pre ++ join d xs) := by
  induction xs with
  | nil =>
    intro pre rest h
    have : rest = [] := List.length_eq_zero_iff.1 (by simpa [join] using h)
    subst this; simp [joinLoop, join]
  | cons x xs ih =>
    intro pre rest h
    unfold joinLoop
    by_cases hx : xs = []
    · subst hx
      have := blit_spec pre rest [] x (by simpa [join] using h)
      rw [List.append_nil, List.append_nil] at this
      rw [this, Res.bind_ok, if_pos rfl]
      rfl
    · rw [join_cons _ _ hx] at h ⊢
      simp only [List.length_append] at h
      have h1 : (rest.take x.length).length = x.length := by rw [List.length_take]; omega
      have hr : rest = rest.take x.length ++ rest.drop x.length := (List.take_append_drop _ _).symm
      have hdl : (rest.drop x.length).length = d.length + (join d xs).length := by
        rw [List.length_drop]; omega
      have := blit_spec pre (rest.take x.length) (rest.drop x.length) x h1
      rw [List.append_assoc, ← hr] at this
      rw [this, Res.bind_ok, if_neg hx]
      generalize rest.drop x.length = r2 at hdl
      have h2 : (r2.take d.length).length = d.length := by rw [List.length_take]; omega
      have := blit_spec (pre ++ x) (r2.take d.length) (r2.drop d.length) d h2
      rw [List.append_assoc (pre ++ x), List.take_append_drop, List.length_append] at this
      rw [this, Res.bind_ok]
      have := ih (pre ++ x ++ d) (r2.drop d.length) (by rw [List.length_drop]; omega)
      rw [List.length_append, List.length_append] at this
      rw [this]
      simp

theorem foldl_add (l : List Nat) (a : Nat) : l.foldl (· + ·) a = a + l.sum := by
  induction l generalizing a with
  | nil => simp
  | cons x xs ih => simp [ih, Nat.add_assoc]

theorem joinLen_eq (xs : List (List Byte)) (d : List Byte) : joinLen xs d = (join d xs).length := by
  unfold joinLen
  rw [foldl_add, Nat.zero_add]
  induction xs with
  | nil => simp [join]
  | cons x xs ih =>
    by_cases hx : xs = []
    · subst hx; simp [join]
    · have hp : 0 < xs.length := List.length_pos_iff.2 hx
      rw [join_cons _ _ hx]
      simp only [List.length_append, ← ih, List.map_cons, List.sum_cons, List.length_cons]
      rw [if_pos (by omega), if_pos (by omega)]
      have : (xs.length + 1 - 1) * d.length = (xs.length - 1) * d.length + d.length := by
        rw [show xs.length + 1 - 1 = (xs.length - 1) + 1 by omega, Nat.add_mul]; omega
      omega

/-- **C07, joining.**  `strjoin` computes the concatenation with delimiters, whatever
the fresh buffer contained, without writing outside of it. -/
theorem strjoin_spec (junk : Nat → List Byte) (hj : ∀ n, (junk n).length = n) (xs : List (List Byte))
    (d : List Byte) : strjoin junk xs d = .ok (join d xs) := by
  unfold strjoin
  have := joinLoop_spec d xs [] (junk (joinLen xs d)) (by rw [hj, joinLen_eq])
  simpa using this

example : strjoin (fun n => List.replicate n 0) [[1], [], [2, 3]] [9, 9] = .ok [1, 9, 9, 9, 9, 2, 3] := by
  decide +kernel

/-- **C07.**  Splitting and then joining gives the text back. -/
theorem split_join (junk : Nat → List Byte) (hj : ∀ n, (junk n).length = n) (s d : List Byte) (hd : d ≠ []) :
    (strsplit (s.length + 1) s d >>= fun ps => strjoin junk ps d) = .ok s := by
  obtain ⟨ps, h1, h2, -⟩ := strsplit_spec s d hd
  rw [h1, Res.bind_ok, strjoin_spec junk hj, h2]

/-- The part of C07 about `bysplit`. -/
def BysplitClaim : Prop := ∀ s d : List Byte, d ≠ [] →
  bysplit d (s.length + 2) s = strsplit (s.length + 1) s d

/-- What `bysplit` yields: the pieces of `strsplit` without a final empty piece. -/
theorem bysplit_partial (s d : List Byte) (hd : d ≠ []) :
    ∃ ps, strsplit (s.length + 1) s d = .ok ps ∧
      bysplit d (s.length + 2) s = .ok (if ps.getLast? = some [] then ps.dropLast else ps) := by
  have gen : ∀ (fuel : Nat) (s : List Byte), s.length < fuel → ∃ ps, splitLoop d fuel s = .ok ps ∧ ps ≠ [] ∧
      bysplit d (fuel + 1) s = .ok (if ps.getLast? = some [] then ps.dropLast else ps) := by
    intro fuel
    induction fuel with
    | zero => intro s h; omega
    | succ n ih =>
      intro s h
      unfold splitLoop bysplit
      rcases strfind_split s d hd with ⟨p, t, h1, h2, h3, h4, h5, h6⟩ | ⟨h1, h2⟩
      · obtain ⟨ps, g1, g2, g3⟩ := ih t (by omega)
        refine ⟨p :: ps, ?_, by simp, ?_⟩
        · rw [h1, Res.bind_ok]
          simp only
          rw [h3, Res.bind_ok, h4, Res.bind_ok, g1]; rfl
        · rw [h1, Res.bind_ok]
          simp only
          rw [h3, Res.bind_ok, h4, Res.bind_ok, g3, Res.bind_ok]
          obtain ⟨y, ys, rfl⟩ := List.exists_cons_of_ne_nil g2
          rw [List.getLast?_cons_cons, List.dropLast_cons_cons]
          split <;> rfl
      · refine ⟨[s], by rw [h1]; rfl, by simp, ?_⟩
        rw [h1, Res.bind_ok]
        simp only
        by_cases hs : s = []
        · subst hs; simp
        · rw [if_pos (List.length_pos_iff.2 hs)]
          unfold bysplit
          have : strfind [] d = .ok none := by
            unfold strfind
            rw [if_pos (by simpa using List.length_pos_iff.2 hd)]
          rw [this]
          simp [hs]
  unfold strsplit
  split
  · next h =>
    have := List.length_eq_zero_iff.1 h
    subst this
    refine ⟨[], rfl, ?_⟩
    obtain ⟨ps, g1, g2, g3⟩ := gen 1 [] (by simp)
    have : strfind [] d = .ok none := by
      unfold strfind
      rw [if_pos (by simpa using List.length_pos_iff.2 hd)]
    unfold splitLoop at g1
    rw [this, Res.bind_ok] at g1
    simp only [Res.pure_eq, Res.ok.injEq] at g1
    subst g1
    exact g3
  · obtain ⟨ps, g1, g2, g3⟩ := gen (s.length + 1) s (by omega)
    exact ⟨ps, g1, g3⟩

/-- The claim about `bysplit` is false: "a," yields ["a"] instead of ["a", ""]. -/
theorem bysplit_violated : ¬ BysplitClaim := by
  intro h
  have := h [97, 44] [44] (by simp)
  revert this
  decide +kernel

/-- With an empty delimiter `strsplit` never returns on a non-empty text. -/
theorem strsplit_empty_delim (s : List Byte) (hs : s ≠ []) (fuel : Nat) : strsplit fuel s [] = .spin := by
  unfold strsplit
  rw [if_neg (by simpa using hs)]
  induction fuel with
  | zero => rfl
  | succ n ih =>
    unfold splitLoop
    have : strfind s [] = .ok (some 0) := by
      rcases strfind_cases s [] with ⟨j, h1, h2, h3⟩ | ⟨h1, h2⟩
      · cases j with
        | zero => exact h1
        | succ j => exact absurd ⟨[], s, rfl, rfl⟩ (h3 0 (by omega))
      · exact absurd ⟨[], s, rfl, rfl⟩ (h2 0)
    rw [this, Res.bind_ok]
    simp only
    rw [slice_prefix (by omega), Res.bind_ok, List.length_nil, slice_suffix (by omega), Res.bind_ok,
      List.drop_zero, ih]
    rfl

/-- **C07, bounded splitting.**  `bstrsplit` into `k ≥ 1` entries returns at most `k`
pieces that join to the text; all but the last are `strsplit`'s. -/
theorem bstrsplit_spec (s d : List Byte) (hd : d ≠ []) (k : Nat) (hk : 1 ≤ k) :
    ∃ ps qs, bstrsplit (s.length + 1) k s d = .ok ps ∧ strsplit (s.length + 1) s d = .ok qs ∧
      ps.length = min k qs.length ∧ join d ps = s ∧ (∀ i, i + 1 < k → ps[i]? = qs[i]?) := by
  have gen : ∀ (fuel : Nat) (s : List Byte) (k : Nat), s.length < fuel → 1 ≤ k →
      ∃ ps qs, bsplitLoop d fuel k s = .ok ps ∧ splitLoop d fuel s = .ok qs ∧ ps ≠ [] ∧
      ps.length = min k qs.length ∧ join d ps = s ∧ (∀ i, i + 1 < k → ps[i]? = qs[i]?) := by
    intro fuel
    induction fuel with
    | zero => intro s k h; omega
    | succ n ih =>
      intro s k h hk
      unfold bsplitLoop
      rcases strfind_split s d hd with ⟨p, t, h1, h2, h3, h4, h5, h6⟩ | ⟨h1, h2⟩
      · obtain ⟨qs', q1, q2, -⟩ := splitLoop_spec d hd n t (by omega)
        have hq : splitLoop d (n + 1) s = .ok (p :: qs') := by
          unfold splitLoop
          rw [h1, Res.bind_ok]
          simp only
          rw [h3, Res.bind_ok, h4, Res.bind_ok, q1]; rfl
        rw [h1]
        simp only [Res.bind_ok]
        by_cases hk1 : 1 < k
        · rw [if_pos hk1]
          obtain ⟨ps, qs, g1, g2, g3, g4, g5, g6⟩ := ih t (k - 1) (by omega) (by omega)
          rw [q1, Res.ok.injEq] at g2
          subst g2
          refine ⟨p :: ps, p :: qs', ?_, hq, by simp, ?_, ?_, ?_⟩
          · rw [h3, Res.bind_ok, h4, Res.bind_ok, g1]; rfl
          · simp only [List.length_cons, g4]; omega
          · rw [join_cons _ _ g3, g5, h2]
          · intro i hi
            cases i with
            | zero => rfl
            | succ i => simpa using g6 i (by omega)
        · rw [if_neg hk1, if_neg (by omega)]
          have : 0 < qs'.length := List.length_pos_iff.2 q2
          exact ⟨[s], p :: qs', rfl, hq, by simp, by simp; omega, rfl, fun i hi => by omega⟩
      · have hq : splitLoop d (n + 1) s = .ok [s] := by unfold splitLoop; rw [h1]; rfl
        rw [h1]
        simp only [Res.bind_ok]
        rw [if_neg (by omega)]
        exact ⟨[s], [s], rfl, hq, by simp, by simp; omega, rfl, fun i hi => rfl⟩
  unfold bstrsplit strsplit
  split
  · next h =>
    have := List.length_eq_zero_iff.1 h
    subst this
    exact ⟨[], [], rfl, rfl, by simp, rfl, fun i hi => rfl⟩
  · obtain ⟨ps, qs, h1, h2, -, h4, h5, h6⟩ := gen (s.length + 1) s k (by omega) hk
    exact ⟨ps, qs, h1, h2, h4, h5, h6⟩

example : bstrsplit 9 2 [97, 44, 98, 44, 99] [44] = .ok [[97], [98, 44, 99]] := by decide +kernel

/-- Without room `bstrsplit` aborts. -/
theorem bstrsplit_no_room : bstrsplit 9 0 [97] [44] = .abort := by decide +kernel

/-- **C61, replacing.**  `strreplace` replaces exactly the leftmost non-overlapping
occurrences: the result is `strsplit`'s pieces joined by the replacement. -/
theorem strreplace_spec (h n repl : List Byte) (hn : n ≠ []) :
    ∃ ps, CutLeftmost n ps ∧ join n ps = h ∧ strreplace (h.length + 1) h n repl = .ok (join repl ps) := by
  have gen : ∀ (fuel : Nat) (h ret : List Byte), h.length < fuel →
      ∃ ps, ps ≠ [] ∧ CutLeftmost n ps ∧ join n ps = h ∧ replLoop n repl fuel ret h = .ok (ret ++ join repl ps) := by
    intro fuel
    induction fuel with
    | zero => intro s _ h; omega
    | succ k ih =>
      intro s ret hs
      unfold replLoop
      rcases strfind_split s n hn with ⟨p, t, h1, h2, h3, h4, h5, h6⟩ | ⟨h1, h2⟩
      · obtain ⟨ps, g1, g2, g3, g4⟩ := ih t (ret ++ p ++ repl) (by omega)
        refine ⟨p :: ps, by simp, (cut_cons _ _ g1).2 ⟨leftmost_iff h6, g2⟩, ?_, ?_⟩
        · rw [join_cons _ _ g1, g3, h2]
        · rw [h1, Res.bind_ok]
          simp only
          rw [h3, Res.bind_ok, h4, Res.bind_ok, g4, join_cons _ _ g1]
          simp
      · exact ⟨[s], by simp, h2, rfl, by rw [h1]; rfl⟩
  unfold strreplace
  rw [if_pos (List.length_pos_iff.2 hn)]
  obtain ⟨ps, h1, h2, h3, h4⟩ := gen (h.length + 1) h [] (by omega)
  exact ⟨ps, h2, h3, by simpa using h4⟩

/-- The leftmost cut is unique, so the theorems above determine the results. -/
theorem cut_unique (d : List Byte) (hd : d ≠ []) (ps qs : List (List Byte)) (hp : CutLeftmost d ps)
    (hq : CutLeftmost d qs) (h : join d ps = join d qs) : ps = qs := by
  induction ps generalizing qs with
  | nil => exact absurd hp id
  | cons x xs ih =>
    cases qs with
    | nil => exact absurd hq id
    | cons y ys =>
      have hdl : 0 < d.length := List.length_pos_iff.2 hd
      by_cases hx : xs = []
      · subst hx
        by_cases hy : ys = []
        · subst hy; simp only [join] at h; rw [h]
        · rw [join_cons _ _ hy] at h
          exact absurd ⟨y.length, y, join d ys, h, rfl⟩ hp
      · rw [join_cons _ _ hx, cut_cons _ _ hx] at *
        by_cases hy : ys = []
        · subst hy
          exact absurd ⟨x.length, x, join d xs, h.symm, rfl⟩ hq
        · rw [join_cons _ _ hy, cut_cons _ _ hy] at *
          have hlen : x.length = y.length := by
            rcases Nat.lt_trichotomy x.length y.length with hlt | he | hlt
            · exfalso
              have := hq.1 x.length ((occursAt_iff _ _ _).2 ⟨by simp; omega, ?_⟩)
              · omega
              · have h1 : d <+: (x ++ d ++ join d xs).drop x.length := by simp
                rw [h, List.append_assoc] at h1
                have h2 : (y ++ d).drop x.length <+: (y ++ (d ++ join d ys)).drop x.length := by
                  rw [List.drop_append_of_le_length (by omega), List.drop_append_of_le_length (by omega),
                    ← List.append_assoc]
                  exact List.prefix_append _ _
                exact List.prefix_of_prefix_length_le h1 h2 (by simp; omega)
            · exact he
            · exfalso
              have := hp.1 y.length ((occursAt_iff _ _ _).2 ⟨by simp; omega, ?_⟩)
              · omega
              · have h1 : d <+: (y ++ d ++ join d ys).drop y.length := by simp
                rw [← h, List.append_assoc] at h1
                have h2 : (x ++ d).drop y.length <+: (x ++ (d ++ join d xs)).drop y.length := by
                  rw [List.drop_append_of_le_length (by omega), List.drop_append_of_le_length (by omega),
                    ← List.append_assoc]
                  exact List.prefix_append _ _
                exact List.prefix_of_prefix_length_le h1 h2 (by simp; omega)
          rw [List.append_assoc, List.append_assoc] at h
          obtain ⟨e1, e2⟩ := List.append_inj h hlen
          obtain ⟨-, e3⟩ := List.append_inj e2 rfl
          rw [e1, ih ys hp.2 hq.2 e3]

example : strreplace 9 [97, 97, 97] [97, 97] [98] = .ok [98, 97] := by decide +kernel

/-! ### C60: tokens and stripping -/

theorem isspaceB_eq (c : Char32) : Chartype.isspace c.toNat = .ok (isspaceB c) := by
  obtain ⟨b, h, -⟩ := Chartype.isspace_iff c.toNat
  simp [isspaceB, h]

theorem isblankB_eq (c : Char32) : Chartype.isblank c.toNat = .ok (isblankB c) := by
  obtain ⟨b, h, -⟩ := Chartype.isblank_iff c.toNat
  simp [isblankB, h]

/-- **C60, `bytok`.**  The tokens of an encoded text are its words. -/
theorem bytok_words (cs : List Char32) (h : Utf.CodePoints cs) :
    Utf.bytok isspaceB (Utf.enc cs) ((Utf.enc cs).length + 1) 0 =
      .ok ((Utf.words isspaceB cs).map Utf.enc) := by
  have := bytok_enc isspaceB cs.length cs [] ((Utf.enc cs).length + 1) (Nat.le_refl _) h (by omega)
  simpa using this

/-- The claim of C60 about `strtok`. -/
def StrtokClaim : Prop := ∀ cs, Utf.CodePoints cs →
  strtok isspaceB (Utf.enc cs) ((Utf.enc cs).length + 1) 0 = .ok ((Utf.words isspaceB cs).map Utf.enc)

/-- **C60, `strtok`, part.**  Missing: texts with multi-byte white space. -/
theorem strtok_words_partial (cs : List Char32) (h : Utf.CodePoints cs)
    (hasc : ∀ c ∈ cs, isspaceB c = true → c.toNat < 0x80) :
    strtok isspaceB (Utf.enc cs) ((Utf.enc cs).length + 1) 0 = .ok ((Utf.words isspaceB cs).map Utf.enc) := by
  have := strtok_enc isspaceB (by decide +kernel) cs.length cs [] ((Utf.enc cs).length + 1) (Nat.le_refl _)
    hasc h (by omega)
  simpa using this

/-- " ab  é". -/
example : strtok isspaceB (Utf.enc [32, 97, 98, 32, 32, 0xe9]) 20 0 = .ok [[97, 98], [0xc3, 0xa9]] := by
  decide +kernel

/-- The claim is false: with U+2003 (em space) between "a" and "b" the second token
starts with the last two bytes of the space. -/
theorem strtok_violated : ¬ StrtokClaim := by
  intro h
  have := h [97, 0x2003, 98] (by intro c hc; simp at hc; rcases hc with rfl | rfl | rfl <;> decide)
  revert this
  decide +kernel

/-- **C60, left stripping** removes exactly the leading blanks. -/
theorem strfstrip_enc (cs : List Char32) (h : Utf.CodePoints cs) :
    strfstrip isblankB ((Utf.enc cs).length + 1) (Utf.enc cs) = .ok (Utf.enc (cs.dropWhile isblankB)) := by
  have gen : ∀ (cs : List Char32) (fuel : Nat), Utf.CodePoints cs → (Utf.enc cs).length < fuel →
      strfstrip isblankB fuel (Utf.enc cs) = .ok (Utf.enc (cs.dropWhile isblankB)) := by
    intro cs
    induction cs with
    | nil =>
      intro fuel _ hf
      cases fuel with
      | zero => omega
      | succ n =>
        have hb : isblankB Utf.Badchar = false := by decide +kernel
        simp [strfstrip, Utf.enc, decode, charstep, hb]
    | cons c cs ih =>
      intro fuel hcp hf
      obtain ⟨hc, hcs⟩ := codePoints_cons hcp
      cases fuel with
      | zero => omega
      | succ n =>
        have hp := Utf.utf8_pos c.toNat
        rw [Utf.enc_cons] at hf ⊢
        unfold strfstrip
        rw [decode_utf8 c hc, Res.bind_ok]
        cases hb : isblankB c with
        | true =>
          rw [if_pos rfl, charlen_utf8 c hc, slice_suffix (by simp), Res.bind_ok, List.drop_left,
            ih n hcs (by simp at hf; omega), List.dropWhile_cons_of_pos hb]
        | false =>
          rw [if_neg (by simp), List.dropWhile_cons_of_neg (by simp [hb]), Utf.enc_cons]
          rfl
  exact gen cs _ h (by omega)

/-- `strfstrip` returns on every byte string. -/
theorem strfstrip_total (s : List Byte) : ∃ t, strfstrip isblankB (s.length + 1) s = .ok t ∧ t <:+ s := by
  have gen : ∀ (fuel : Nat) (s : List Byte), s.length < fuel →
      ∃ t, strfstrip isblankB fuel s = .ok t ∧ t <:+ s := by
    intro fuel
    induction fuel with
    | zero => intro s h; omega
    | succ n ih =>
      intro s h
      unfold strfstrip
      by_cases hs : s = []
      · subst hs
        have hb : isblankB Utf.Badchar = false := by decide +kernel
        exact ⟨[], by simp [decode, charstep, hb], List.suffix_refl _⟩
      · obtain ⟨c, h1, h2, h3⟩ := Utf.decode_total s hs
        rw [h1, Res.bind_ok]
        split
        · rw [slice_suffix h3, Res.bind_ok]
          obtain ⟨t, g1, g2⟩ := ih (s.drop (charlen c)) (by simp; omega)
          exact ⟨t, g1, g2.trans (List.drop_suffix _ _)⟩
        · exact ⟨s, rfl, List.suffix_refl _⟩
  exact gen _ s (by omega)

theorem rstrip_conts (sp : Char32 → Bool) (conts : List Byte) : ∀ (pre post : List Byte) (e : Nat),
    (∀ x ∈ conts, Cont x) →
    rstripLoop sp (pre ++ conts ++ post) (pre.length + conts.length) e =
      rstripLoop sp (pre ++ conts ++ post) pre.length e := by
  induction conts with
  | nil => intro pre post e _; simp
  | cons b conts ih =>
    intro pre post e h
    have := ih (pre ++ [b]) post e (fun x hx => h x (by simp [hx]))
    simp only [List.append_assoc, List.nil_append, List.length_append, List.length_singleton,
      List.cons_append] at this ⊢
    rw [List.length_cons, ← Nat.add_assoc, Nat.add_right_comm, this]
    rw [rstripLoop]
    have hr : rdChk (pre ++ b :: (conts ++ post)) pre.length = .ok b := by
      rw [rdChk_ok (by simp)]
      simp
    have hc := h b (by simp)
    rw [hr, Res.bind_ok, if_neg (by rw [cont_test]; exact fun hn => hn hc)]

/-- **C60, right stripping** removes exactly the trailing white space. -/
theorem strrstrip_enc (cs : List Char32) (h : Utf.CodePoints cs) :
    strrstrip isspaceB (Utf.enc cs) = .ok (Utf.enc ((cs.reverse.dropWhile isspaceB).reverse)) := by
  have gen : ∀ (n : Nat) (rs : List Char32) (post : List Byte), rs.length = n → Utf.CodePoints rs →
      rstripLoop isspaceB (Utf.enc rs.reverse ++ post) (Utf.enc rs.reverse).length (Utf.enc rs.reverse).length =
        .ok (Utf.enc (rs.dropWhile isspaceB).reverse).length := by
    intro n rs
    induction rs generalizing n with
    | nil => intro post _ _; simp [Utf.enc, rstripLoop]
    | cons c rs ih =>
      intro post _ hcp
      obtain ⟨hc, hcs⟩ := codePoints_cons hcp
      obtain ⟨b, conts, hu, hb, hcont, -⟩ := utf8_shape c.toNat hc
      have e1 : Utf.enc (c :: rs).reverse = Utf.enc rs.reverse ++ b :: conts := by
        rw [List.reverse_cons, Utf.enc_append]
        congr 1
        simp [Utf.enc, hu]
      have hdec : decode (b :: (conts ++ post)) = .ok c := by
        have := decode_utf8 c hc post
        rwa [hu] at this
      rw [e1]
      have := rstrip_conts isspaceB conts (Utf.enc rs.reverse ++ [b]) post
        (Utf.enc rs.reverse ++ b :: conts).length hcont
      simp only [List.append_assoc, List.nil_append, List.length_append, List.length_nil, Nat.zero_add,
        List.cons_append, List.length_cons] at this ⊢
      rw [show (Utf.enc rs.reverse).length + (conts.length + 1) =
        (Utf.enc rs.reverse).length + 1 + conts.length by omega] at this ⊢
      rw [this, rstripLoop]
      have hr : rdChk (Utf.enc rs.reverse ++ b :: (conts ++ post)) (Utf.enc rs.reverse).length = .ok b := by
        rw [rdChk_ok (by simp)]
        simp
      rw [hr, Res.bind_ok, if_pos ((cont_test b).2 hb), drop_pre, Res.bind_ok, hdec, Res.bind_ok]
      cases hs : isspaceB c with
      | true =>
        rw [if_pos rfl, List.dropWhile_cons_of_pos hs]
        exact ih rs.length _ rfl hcs
      | false =>
        rw [if_neg (by simp), List.dropWhile_cons_of_neg (by simp [hs]), e1]
        simp
        omega
  unfold strrstrip
  have := gen cs.length cs.reverse [] (by simp) (fun c hc => h c (by simpa using hc))
  rw [List.reverse_reverse, List.append_nil] at this
  rw [this, Res.bind_ok]
  have hsplit : Utf.enc cs = Utf.enc (cs.reverse.dropWhile isspaceB).reverse ++
      Utf.enc (cs.reverse.takeWhile isspaceB).reverse := by
    rw [← Utf.enc_append, ← List.reverse_append, List.takeWhile_append_dropWhile, List.reverse_reverse]
  rw [slice_prefix (by rw [hsplit]; simp), hsplit, List.take_left]

example : strrstrip isspaceB (Utf.enc [97, 0x2003, 0xe9, 0x2003, 32, 10]) =
    .ok (Utf.enc [97, 0x2003, 0xe9]) := by decide +kernel

/-- **C60, suffix test.** -/
theorem hassuffix_iff (s suff : List Byte) : ∃ b, hassuffix s suff = .ok b ∧ (b = true ↔ suff <:+ s) := by
  unfold hassuffix
  split
  · next h =>
    rw [slice_suffix (by omega), Res.bind_ok]
    refine ⟨_, rfl, ?_⟩
    rw [decide_eq_true_eq]
    constructor
    · intro e; rw [← e]; exact List.drop_suffix _ _
    · rintro ⟨t, rfl⟩
      simp
  · next h =>
    refine ⟨false, rfl, ?_⟩
    simp only [Bool.false_eq_true, false_iff]
    intro e; exact h e.length_le

example : hassuffix [1, 2, 3] [2, 3] = .ok true ∧ hassuffix [1, 2, 3] [1, 2] = .ok false := by
  constructor <;> decide

end Verif.Str
