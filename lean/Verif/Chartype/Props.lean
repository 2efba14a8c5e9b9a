import Verif.Chartype.Lemmas

/-!
# C56: character classification follows its tables

Specification: a table of width `w` *lists a range* around `c` if some row `i` has
`row[0] ≤ c ≤ row[1]`, and *lists `c` singly* if some row has `row[0] = c`.

`isnum`, `isblank`, `isspace`, `cellwidth` and `totitle` are proved to decide exactly this.
`islower`, `isupper`, `isalpha`, `tolower`, `toupper` look at the table of single
characters only for characters below the whole range table, so all single
entries but a few are dead: the claim is refuted for them, and what they compute
is stated exactly.
-/

namespace Verif.Chartype

/-- Some row of `tab` is a range holding `c` (specification). -/
def InRange (tab : List Nat) (w c : Nat) : Prop :=
  ∃ i, i < tab.length / w ∧ tab.getD (i * w) 0 ≤ c ∧ c ≤ tab.getD (i * w + 1) 0

/-- Some row of `tab` starts with `c` (specification). -/
def Single (tab : List Nat) (w c : Nat) : Prop :=
  ∃ i, i < tab.length / w ∧ c = tab.getD (i * w) 0

theorem inRanges_iff (tab : List Nat) (hs : Sorted tab 2) (hd : Disj tab 2) (hn : 1 ≤ tab.length / 2)
    (c : Nat) : ∃ b, inRanges c tab = .ok b ∧ (b = true ↔ InRange tab 2 c) := by
  unfold inRanges
  rcases range_lookup c 2 (by omega) tab hs hd hn with ⟨h0, hf⟩ | ⟨h0, k, hk, hf, hr, hk1, hu⟩
  · rw [hf, Res.bind_ok]
    refine ⟨false, rfl, ?_⟩
    simp only [Bool.false_eq_true, false_iff]
    rintro ⟨i, hi, h1, -⟩
    have := sorted_le hs (i := 0) (j := i) (by omega) hi
    unfold start at *
    omega
  · rw [hf, Res.bind_ok]
    simp only
    rw [hr]
    refine ⟨_, rfl, ?_⟩
    rw [decide_eq_true_eq]
    constructor
    · rintro ⟨h1, h2⟩; exact ⟨k, hk, h1, h2⟩
    · rintro ⟨i, hi, h1, h2⟩
      have := hu i hi h1 h2
      subst this
      exact ⟨h1, h2⟩

/-- **C56, digits.** -/
theorem isnum_iff (c : Nat) : ∃ b, isnum c = .ok b ∧ (b = true ↔ InRange rnums 2 c) :=
  inRanges_iff rnums sorted_rnums disj_rnums (by decide +kernel) c

/-- **C56, blanks.** -/
theorem isblank_iff (c : Nat) : ∃ b, isblank c = .ok b ∧ (b = true ↔ InRange rspace2 2 c) :=
  inRanges_iff rspace2 sorted_rspace2 disj_rspace2 (by decide +kernel) c

/-- **C56, spaces**: the blanks and the newline. -/
theorem isspace_iff (c : Nat) : ∃ b, isspace c = .ok b ∧ (b = true ↔ c = 10 ∨ InRange rspace2 2 c) := by
  unfold isspace
  obtain ⟨b, h1, h2⟩ := isblank_iff c
  split
  · next h => exact ⟨true, rfl, by simp [h]⟩
  · next h => exact ⟨b, h1, by simp [h, h2]⟩

example : isspace 0x2003 = .ok true ∧ isspace 0x41 = .ok false ∧ isnum 0x665 = .ok true := by
  refine ⟨?_, ?_, ?_⟩ <;> decide +kernel

/-- **C56, cell width**: the first of these rules that applies. -/
theorem cellwidth_spec (c : Nat) :
    (c = 0 → cellwidth c = .ok 0) ∧
    (c ≠ 0 → (c = 2 ^ 32 - 1 ∨ c < 0x20 ∨ 0x7f ≤ c ∧ c ≤ 0x9f) → cellwidth c = .ok (-1)) ∧
    (0x20 ≤ c → ¬ (0x7f ≤ c ∧ c ≤ 0x9f) → c ≠ 2 ^ 32 - 1 → InRange width0 2 c → cellwidth c = .ok 0) ∧
    (0x20 ≤ c → ¬ (0x7f ≤ c ∧ c ≤ 0x9f) → c ≠ 2 ^ 32 - 1 → ¬ InRange width0 2 c → InRange width2 2 c →
      cellwidth c = .ok 2) ∧
    (0x20 ≤ c → ¬ (0x7f ≤ c ∧ c ≤ 0x9f) → c ≠ 2 ^ 32 - 1 → ¬ InRange width0 2 c → ¬ InRange width2 2 c →
      cellwidth c = .ok 1) := by
  obtain ⟨b0, h1, h2⟩ := inRanges_iff width0 sorted_width0 disj_width0 (by decide +kernel) c
  obtain ⟨b2, h3, h4⟩ := inRanges_iff width2 sorted_width2 disj_width2 (by decide +kernel) c
  unfold cellwidth
  rw [h1, h3]
  simp only [Res.bind_ok]
  refine ⟨fun h => by rw [if_pos h]; rfl, fun h h' => by rw [if_neg h, if_pos (by omega)]; rfl, ?_, ?_, ?_⟩
  · intro a b d e
    rw [if_neg (by omega), if_neg (by omega), if_pos (h2.2 e)]; rfl
  · intro a b d e f
    rw [if_neg (by omega), if_neg (by omega), if_neg (by rw [h2]; exact e), if_pos (h4.2 f)]; rfl
  · intro a b d e f
    rw [if_neg (by omega), if_neg (by omega), if_neg (by rw [h2]; exact e), if_neg (by rw [h4]; exact f)]; rfl

example : cellwidth 0x301 = .ok 0 ∧ cellwidth 0x4e00 = .ok 2 ∧ cellwidth 0x41 = .ok 1 ∧ cellwidth 7 = .ok (-1) := by
  refine ⟨?_, ?_, ?_, ?_⟩ <;> decide +kernel

/-- What the two-table lookup decides. -/
theorem twoTables_iff (tab2 tab1 : List Nat) (w2 w1 : Nat) (hw2 : 1 < w2) (hw1 : 0 < w1)
    (hs : Sorted tab2 w2) (hd : Disj tab2 w2) (hn : 1 ≤ tab2.length / w2)
    (hs1 : Sorted tab1 w1) (hn1 : 1 ≤ tab1.length / w1) (c : Nat) :
    ∃ b, twoTables c tab2 w2 tab1 w1 = .ok b ∧
      (b = true ↔ InRange tab2 w2 c ∨ (c < tab2.getD 0 0 ∧ Single tab1 w1 c)) := by
  unfold twoTables
  have e0 : start tab2 w2 0 = tab2.getD 0 0 := by simp [start]
  rcases range_lookup c w2 hw2 tab2 hs hd hn with ⟨h0, hf⟩ | ⟨h0, k, hk, hf, hr, hk1, hu⟩
  · have hno : ¬ InRange tab2 w2 c := by
      rintro ⟨i, hi, h1, -⟩
      have := sorted_le hs (i := 0) (j := i) (by omega) hi
      unfold start at *
      omega
    rw [hf, Res.bind_ok]
    simp only
    rcases single_lookup c w1 hw1 tab1 hs1 hn1 with ⟨g0, gf⟩ | ⟨g0, k, hk, gf, gr, gu⟩
    · rw [gf, Res.bind_ok]
      refine ⟨false, rfl, ?_⟩
      simp only [Bool.false_eq_true, false_iff]
      rintro (h | ⟨-, i, hi, h⟩)
      · exact hno h
      · have := sorted_le hs1 (i := 0) (j := i) (by omega) hi
        unfold start at *
        omega
    · rw [gf, Res.bind_ok]
      simp only
      rw [gr]
      refine ⟨_, rfl, ?_⟩
      rw [decide_eq_true_eq]
      constructor
      · intro h; exact Or.inr ⟨by omega, k, hk, h⟩
      · rintro (h | ⟨-, i, hi, h⟩)
        · exact absurd h hno
        · have := gu i hi h
          subst this; exact h
  · rw [hf, Res.bind_ok]
    simp only
    rw [hr]
    refine ⟨_, rfl, ?_⟩
    rw [decide_eq_true_eq]
    constructor
    · rintro ⟨h1, h2⟩; exact Or.inl ⟨k, hk, h1, h2⟩
    · rintro (⟨i, hi, h1, h2⟩ | ⟨h, -⟩)
      · have := hu i hi h1 h2
        subst this
        exact ⟨h1, h2⟩
      · omega

theorem no_single (tab : List Nat) (w c d : Nat) (hs : Sorted tab w) (hd : d ≤ tab.getD 0 0) (hc : c < d) :
    ¬ Single tab w c := by
  rintro ⟨i, hi, h⟩
  have := sorted_le hs (i := 0) (j := i) (by omega) hi
  simp only [start, Nat.zero_mul] at this
  omega

/-- The full claim of C56 for `islower`. -/
def LowerClaim : Prop := ∀ c, ∃ b, islower c = .ok b ∧
  (b = true ↔ InRange rtoupper2 3 c ∨ Single rtoupper1 2 c)

/-- The full claim of C56 for `isupper`. -/
def UpperClaim : Prop := ∀ c, ∃ b, isupper c = .ok b ∧
  (b = true ↔ InRange rtolower2 3 c ∨ Single rtolower1 2 c)

/-- `islower` decides the range table only.  Missing from C56: the 340 single
entries, none of which is ever found. -/
theorem islower_partial (c : Nat) : ∃ b, islower c = .ok b ∧ (b = true ↔ InRange rtoupper2 3 c) := by
  obtain ⟨b, h1, h2⟩ := twoTables_iff rtoupper2 rtoupper1 3 2 (by omega) (by omega) sorted_rtoupper2
    disj_rtoupper2 (by decide +kernel) sorted_rtoupper1 (by decide +kernel) c
  refine ⟨b, h1, h2.trans ?_⟩
  constructor
  · rintro (h | ⟨h, h'⟩)
    · exact h
    · exact absurd h' (no_single rtoupper1 2 c (rtoupper2.getD 0 0) sorted_rtoupper1 (by decide +kernel) h)
  · exact Or.inl

/-- `isupper` decides the range table only.  Missing from C56: the 333 single
entries, none of which is ever found. -/
theorem isupper_partial (c : Nat) : ∃ b, isupper c = .ok b ∧ (b = true ↔ InRange rtolower2 3 c) := by
  obtain ⟨b, h1, h2⟩ := twoTables_iff rtolower2 rtolower1 3 2 (by omega) (by omega) sorted_rtolower2
    disj_rtolower2 (by decide +kernel) sorted_rtolower1 (by decide +kernel) c
  refine ⟨b, h1, h2.trans ?_⟩
  constructor
  · rintro (h | ⟨h, h'⟩)
    · exact h
    · exact absurd h' (no_single rtolower1 2 c (rtolower2.getD 0 0) sorted_rtolower1 (by decide +kernel) h)
  · exact Or.inl

/-- `isalpha` decides the range tables and, below U+00D8, the single letters.
Missing from C56: single letters above and the single upper/lower-case letters. -/
theorem isalpha_partial (c : Nat) : ∃ b, isalpha c = .ok b ∧
    (b = true ↔ InRange rtolower2 3 c ∨ InRange rtoupper2 3 c ∨ InRange ralpha2 2 c ∨
      (c < 0xd8 ∧ Single ralpha1 1 c)) := by
  obtain ⟨b1, h1, h2⟩ := isupper_partial c
  obtain ⟨b2, h3, h4⟩ := islower_partial c
  obtain ⟨b3, h5, h6⟩ := twoTables_iff ralpha2 ralpha1 2 1 (by omega) (by omega) sorted_ralpha2
    disj_ralpha2 (by decide +kernel) sorted_ralpha1 (by decide +kernel) c
  unfold isalpha
  rw [h1, Res.bind_ok]
  cases b1 with
  | true => exact ⟨true, by simp, by simp [h2.1 rfl]⟩
  | false =>
    have n1 : ¬ InRange rtolower2 3 c := fun h => by simpa using h2.2 h
    rw [if_neg (by simp), h3, Res.bind_ok]
    cases b2 with
    | true => exact ⟨true, by simp, by simp [h4.1 rfl]⟩
    | false =>
      have n2 : ¬ InRange rtoupper2 3 c := fun h => by simpa using h4.2 h
      rw [if_neg (by simp), h5]
      refine ⟨b3, rfl, h6.trans ?_⟩
      have : ralpha2.getD 0 0 = 0xd8 := by decide +kernel
      rw [this]
      simp [n1, n2]

/-- The claim is false: U+0101 is in the lower-case table but `islower` denies it. -/
theorem islower_violated : ¬ LowerClaim := by
  intro h
  obtain ⟨b, h1, h2⟩ := h 0x101
  have : b = true := h2.2 (Or.inr ⟨1, by decide +kernel, by decide +kernel⟩)
  subst this
  revert h1
  decide +kernel

/-- The claim is false: U+0100 is in the upper-case table but `isupper` denies it. -/
theorem isupper_violated : ¬ UpperClaim := by
  intro h
  obtain ⟨b, h1, h2⟩ := h 0x100
  have : b = true := h2.2 (Or.inr ⟨0, by decide +kernel, by decide +kernel⟩)
  subst this
  revert h1
  decide +kernel

example : islower 0x61 = .ok true ∧ islower 0x41 = .ok false ∧ isupper 0x416 = .ok true ∧
    isalpha 0xaa = .ok true ∧ isalpha 0x2102 = .ok false := by
  refine ⟨?_, ?_, ?_, ?_, ?_⟩ <;> decide +kernel

/-! ### Case conversion -/

/-- `c` lies in a range row of `tab` with conversion offset `d` (specification). -/
def Maps (tab : List Nat) (c d : Nat) : Prop :=
  ∃ i, i < tab.length / 3 ∧ tab.getD (i * 3) 0 ≤ c ∧ c ≤ tab.getD (i * 3 + 1) 0 ∧ d = tab.getD (i * 3 + 2) 0

theorem convert_spec (tab2 tab1 : List Nat) (hs : Sorted tab2 3) (hd : Disj tab2 3)
    (hn : 1 ≤ tab2.length / 3) (hs1 : Sorted tab1 2) (hn1 : 1 ≤ tab1.length / 2)
    (hlow : tab2.getD 0 0 ≤ tab1.getD 0 0) (c : Nat) :
    (∀ d, Maps tab2 c d → convert c tab2 tab1 = .ok ((c + d + (2 ^ 32 - 500)) % 2 ^ 32)) ∧
    ((∀ d, ¬ Maps tab2 c d) → convert c tab2 tab1 = .ok c) := by
  unfold convert
  have e0 : start tab2 3 0 = tab2.getD 0 0 := by simp [start]
  rcases range_lookup c 3 (by omega) tab2 hs hd hn with ⟨h0, hf⟩ | ⟨h0, k, hk, hf, hr, hk1, hu⟩
  · rw [hf, Res.bind_ok]
    simp only
    constructor
    · rintro d ⟨i, hi, h1, -⟩
      have := sorted_le hs (i := 0) (j := i) (by omega) hi
      unfold start at *
      omega
    · intro _
      rcases single_lookup c 2 (by omega) tab1 hs1 hn1 with ⟨g0, gf⟩ | ⟨g0, -⟩
      · rw [gf]; rfl
      · simp only [start, Nat.zero_mul] at g0
        omega
  · rw [hf, Res.bind_ok]
    simp only
    rw [hr, Res.bind_ok]
    constructor
    · rintro d ⟨i, hi, h1, h2, rfl⟩
      have := hu i hi h1 h2
      subst this
      rw [if_pos (by simp [start]; simp at h1 h2; exact ⟨h1, h2⟩), rdChk_drop (row_lt hk (by omega))]
      rfl
    · intro hno
      rw [if_neg]
      · rfl
      · intro h
        simp only [decide_eq_true_eq] at h
        exact hno _ ⟨k, hk, h.1, h.2, rfl⟩

/-- **C56, `tolower`, part**: range rows convert by their offset, everything else is
kept.  Missing: the single entries, which are never reached. -/
theorem tolower_partial (c : Nat) (hc : c < 0x110000) :
    (∀ d, Maps rtolower2 c d → tolower c = .ok (c + d - 500)) ∧
    ((∀ d, ¬ Maps rtolower2 c d) → tolower c = .ok c) := by
  obtain ⟨h1, h2⟩ := convert_spec rtolower2 rtolower1 sorted_rtolower2 disj_rtolower2 (by decide +kernel)
    sorted_rtolower1 (by decide +kernel) (by decide +kernel) c
  refine ⟨fun d hd => ?_, h2⟩
  have := h1 d hd
  have hpos : ∀ i, i < rtolower2.length / 3 → 500 ≤ rtolower2.getD (i * 3) 0 + rtolower2.getD (i * 3 + 2) 0 ∧
      rtolower2.getD (i * 3 + 2) 0 < 1000 := by decide +kernel
  obtain ⟨i, hi, a1, a2, hd⟩ := hd
  have hp := hpos i hi
  rw [← hd] at hp
  unfold tolower
  rw [this]
  have e : (c + d + (2 ^ 32 - 500)) % 2 ^ 32 = c + d - 500 := by omega
  rw [e]

/-- **C56, `toupper`, part**: likewise. -/
theorem toupper_partial (c : Nat) (hc : c < 0x110000) :
    (∀ d, Maps rtoupper2 c d → toupper c = .ok (c + d - 500)) ∧
    ((∀ d, ¬ Maps rtoupper2 c d) → toupper c = .ok c) := by
  obtain ⟨h1, h2⟩ := convert_spec rtoupper2 rtoupper1 sorted_rtoupper2 disj_rtoupper2 (by decide +kernel)
    sorted_rtoupper1 (by decide +kernel) (by decide +kernel) c
  refine ⟨fun d hd => ?_, h2⟩
  have := h1 d hd
  have hpos : ∀ i, i < rtoupper2.length / 3 → 500 ≤ rtoupper2.getD (i * 3) 0 + rtoupper2.getD (i * 3 + 2) 0 ∧
      rtoupper2.getD (i * 3 + 2) 0 < 1000 := by decide +kernel
  obtain ⟨i, hi, a1, a2, hd⟩ := hd
  have hp := hpos i hi
  rw [← hd] at hp
  unfold toupper
  rw [this]
  have e : (c + d + (2 ^ 32 - 500)) % 2 ^ 32 = c + d - 500 := by omega
  rw [e]

/-- The listed conversion U+0100 → U+0101 is not performed. -/
theorem tolower_violated : tolower 0x100 = .ok 0x100 ∧ rtolower1.take 2 = [0x100, 501] := by
  constructor <;> decide +kernel

example : tolower 0x41 = .ok 0x61 ∧ toupper 0x3b1 = .ok 0x391 ∧ tolower 0x61 = .ok 0x61 := by
  refine ⟨?_, ?_, ?_⟩ <;> decide +kernel

/-- Lower-casing is idempotent on all code points. -/
theorem tolower_idem (c : Nat) (hc : c < 0x110000) : ∃ l, tolower c = .ok l ∧ tolower l = .ok l := by
  by_cases h : ∃ d, Maps rtolower2 c d
  · obtain ⟨d, hd⟩ := h
    refine ⟨_, (tolower_partial c hc).1 d hd, ?_⟩
    obtain ⟨i, hi, a1, a2, rfl⟩ := hd
    have key : ∀ i, i < rtolower2.length / 3 → ∀ j, j < rtolower2.length / 3 →
        (rtolower2.getD (i * 3 + 1) 0 + rtolower2.getD (i * 3 + 2) 0 < rtolower2.getD (j * 3) 0 + 500 ∨
        rtolower2.getD (j * 3 + 1) 0 + 500 < rtolower2.getD (i * 3) 0 + rtolower2.getD (i * 3 + 2) 0) ∧
        500 ≤ rtolower2.getD (i * 3) 0 + rtolower2.getD (i * 3 + 2) 0 ∧
        rtolower2.getD (i * 3 + 1) 0 + rtolower2.getD (i * 3 + 2) 0 - 500 < 0x110000 := by decide +kernel
    have k0 := key i hi i hi
    refine (tolower_partial _ (by omega)).2 ?_
    rintro d ⟨j, hj, b1, b2, -⟩
    have := key i hi j hj
    omega
  · have h' : ∀ d, ¬ Maps rtolower2 c d := fun d hd => h ⟨d, hd⟩
    exact ⟨c, (tolower_partial c hc).2 h', (tolower_partial c hc).2 h'⟩

/-- Upper-casing is idempotent on all code points. -/
theorem toupper_idem (c : Nat) (hc : c < 0x110000) : ∃ l, toupper c = .ok l ∧ toupper l = .ok l := by
  by_cases h : ∃ d, Maps rtoupper2 c d
  · obtain ⟨d, hd⟩ := h
    refine ⟨_, (toupper_partial c hc).1 d hd, ?_⟩
    obtain ⟨i, hi, a1, a2, rfl⟩ := hd
    have key : ∀ i, i < rtoupper2.length / 3 → ∀ j, j < rtoupper2.length / 3 →
        (rtoupper2.getD (i * 3 + 1) 0 + rtoupper2.getD (i * 3 + 2) 0 < rtoupper2.getD (j * 3) 0 + 500 ∨
        rtoupper2.getD (j * 3 + 1) 0 + 500 < rtoupper2.getD (i * 3) 0 + rtoupper2.getD (i * 3 + 2) 0) ∧
        500 ≤ rtoupper2.getD (i * 3) 0 + rtoupper2.getD (i * 3 + 2) 0 ∧
        rtoupper2.getD (i * 3 + 1) 0 + rtoupper2.getD (i * 3 + 2) 0 - 500 < 0x110000 := by decide +kernel
    have k0 := key i hi i hi
    refine (toupper_partial _ (by omega)).2 ?_
    rintro d ⟨j, hj, b1, b2, -⟩
    have := key i hi j hj
    omega
  · have h' : ∀ d, ¬ Maps rtoupper2 c d := fun d hd => h ⟨d, hd⟩
    exact ⟨c, (toupper_partial c hc).2 h', (toupper_partial c hc).2 h'⟩

/-- **C56, `totitle`**: exactly the listed characters are converted. -/
theorem totitle_spec (c : Nat) (hc : c < 0x110000) :
    (∀ i, i < rtotitle1.length / 2 → c = rtotitle1.getD (i * 2) 0 →
      totitle c = .ok (c + rtotitle1.getD (i * 2 + 1) 0 - 500)) ∧
    (¬ Single rtotitle1 2 c → totitle c = .ok c) := by
  have hpos : ∀ i, i < rtotitle1.length / 2 → 500 ≤ rtotitle1.getD (i * 2) 0 + rtotitle1.getD (i * 2 + 1) 0 ∧
      rtotitle1.getD (i * 2 + 1) 0 < 1000 := by decide +kernel
  have hs : Sorted rtotitle1 2 := sorted_rtotitle1
  unfold totitle
  rcases single_lookup c 2 (by omega) rtotitle1 hs (by decide) with ⟨g0, gf⟩ | ⟨g0, k, hk, gf, gr, gu⟩
  · rw [gf, Res.bind_ok]
    refine ⟨?_, fun _ => rfl⟩
    intro i hi h
    have := sorted_le hs (i := 0) (j := i) (by omega) hi
    unfold start at *
    omega
  · rw [gf, Res.bind_ok]
    simp only
    rw [gr, Res.bind_ok]
    constructor
    · intro i hi h
      have := gu i hi h
      subst this
      rw [if_pos (by simpa [start] using h), rdChk_drop (row_lt hk (by omega)), Res.bind_ok]
      have hp := hpos i hi
      generalize rtotitle1.getD (i * 2 + 1) 0 = d at hp ⊢
      have e : (c + d + (2 ^ 32 - 500)) % 2 ^ 32 = c + d - 500 := by omega
      rw [e]
      rfl
    · intro hno
      rw [if_neg]
      · rfl
      · intro h
        simp only [decide_eq_true_eq] at h
        exact hno ⟨k, hk, h⟩

example : totitle 0x1c4 = .ok 0x1c5 ∧ totitle 0x41 = .ok 0x41 := by
  constructor <;> decide +kernel

end Verif.Chartype
