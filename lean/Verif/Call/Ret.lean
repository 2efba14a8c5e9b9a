import Verif.Call.Place

/-!
# Returned values go into the variable for them (C92)
-/

namespace Verif.Call

open Verif.Layout

/-! ## Local variables -/

theorem forcelocal_room (stksz size : Nat) : stksz + size ≤ forcelocal stksz size := le_calign _ _

theorem locals_ge : ∀ (sizes : List Nat) (stksz : Nat), ∀ d ∈ locals stksz sizes, stksz ≤ d
  | [], _, d, h => by simp [locals] at h
  | size :: rest, stksz, d, h => by
    rw [locals, List.mem_cons] at h
    have := forcelocal_room stksz size
    rcases h with rfl | h
    · omega
    · have := locals_ge rest _ d h
      omega

/-- Variables on the stack do not overlap: a later one ends where an earlier one begins, or below.
(The `i`th one is in the `sizes[i]` bytes from `locals[i]` below the frame pointer on.) -/
theorem locals_apart : ∀ (sizes : List Nat) (stksz : Nat),
    (List.zip (locals stksz sizes) sizes).Pairwise (fun a b => a.1 + b.2 ≤ b.1) ∧
    ∀ x ∈ List.zip (locals stksz sizes) sizes, stksz + x.2 ≤ x.1
  | [], _ => by simp [locals]
  | size :: rest, stksz => by
    obtain ⟨h1, h2⟩ := locals_apart rest (forcelocal stksz size)
    have hr := forcelocal_room stksz size
    rw [locals, List.zip_cons_cons, List.pairwise_cons]
    refine ⟨⟨fun x hx => ?_, h1⟩, fun x hx => ?_⟩
    · exact h2 x hx
    · rw [List.mem_cons] at hx
      rcases hx with rfl | hx
      · exact hr
      · have := h2 x hx
        omega

/-- They are aligned as their types need. -/
theorem local_aligned (stksz : Nat) (t : Ty) (h : 0 < tysize t) : tyalign t ∣ forcelocal stksz (tysize t) := by
  have hd := size_dvd t
  have hp := tyalign_pow t
  generalize tysize t = sz at *
  generalize tyalign t = a at *
  unfold forcelocal
  by_cases h8 : 8 ≤ sz
  · rw [Nat.min_eq_right h8]
    exact Nat.dvd_trans (pow_dvd hp (by unfold Layout.Pow; omega) (by unfold Layout.Pow at hp; omega)) (calign8 _)
  · rw [Nat.min_eq_left (by omega)]
    unfold calign
    rw [if_neg (by omega)]
    generalize stksz + sz + sz - 1 = y
    have m2 : ∀ m, m % 2 = 1 → 2 ∣ y - (y &&& m) := by
      intro m hm
      have h1 := @Nat.and_mod_two_pow y m 1
      have h2 : (y &&& m) ≤ y := Nat.and_le_left
      rw [Nat.pow_one, hm] at h1
      have h3 : y % 2 &&& 1 = y % 2 := by
        rw [Nat.and_one_is_mod]; omega
      omega
    have m4 : 4 ∣ y - (y &&& 3) := by
      rw [show (3 : Nat) = 2 ^ 2 - 1 from rfl, Nat.and_two_pow_sub_one_eq_mod]
      omega
    rcases hp with rfl | rfl | rfl | rfl
    · exact Nat.one_dvd _
    · exact m2 _ (by omega)
    · have : sz = 4 := by omega
      subst this
      exact m4
    · omega

/-! ## Stores -/

/-- The full claim: the stores of a returned value stay within the bytes of its type. -/
def RetFull : Prop := ∀ t l, retstores t = .ok l → ∀ x ∈ l, x.1 + x.2 ≤ tysize t

/-- The class of a small aggregate. -/
def ArgType.Small (a : ArgType) : Prop := a ≠ .void ∧ a ≠ .reg ∧ a ≠ .big

theorem part_width (t : Ty) (f : Bool) (d : Nat) (h1 : d < tysize t) (h2 : tysize t ≤ d + 8) :
    tysize t ≤ d + (tymodepart t f d).width := by
  unfold tymodepart
  cases f <;> simp only [Bool.false_eq_true, if_false, if_true]
  · split
    · simp only [Mode.width]; omega
    · split
      · simp only [Mode.width]; omega
      · split <;> simp only [Mode.width] <;> omega
  · split <;> simp only [Mode.width] <;> omega

theorem big_first (t : Ty) (f : Bool) (h : 8 < tysize t) : (tymodepart t f 0).width = 8 := by
  unfold tymodepart
  cases f <;> simp only [Bool.false_eq_true, if_false, if_true]
  · rw [if_neg (by omega), if_neg (by omega), if_neg (by omega)]; rfl
  · rw [if_neg (by omega)]; rfl

/-- The class of two registers needs more than eight bytes: what `decideArg` makes of them. -/
theorem decideArg_two (p : Pi) (sz : Nat) (a : ArgType) (h : decideArg p sz = .ok a)
    (ha : a = .aggrII ∨ a = .aggrFI ∨ a = .aggrIF ∨ a = .aggrFF) : 8 < sz := by
  obtain ⟨x, y⟩ := p
  unfold decideArg at h
  by_cases h8 : sz ≤ 8
  · exfalso
    cases x <;> cases y <;> simp_all <;> rcases ha with rfl | rfl | rfl | rfl <;> simp_all
  · omega

theorem classify_two (t : Ty) (a : ArgType) (h : classify t = .ok a)
    (ha : a = .aggrII ∨ a = .aggrFI ∨ a = .aggrIF ∨ a = .aggrFF) : 8 < tysize t := by
  unfold classify at h
  split at h
  · cases h; simp at ha
  · split at h
    · split at h
      · rename_i hs
        rw [Bool.and_eq_true, decide_eq_true_eq] at hs
        obtain ⟨q, h1, _⟩ := cls_top t hs.2
        rw [h1, Res.bind_ok] at h
        exact decideArg_two _ _ a h ha
      · cases h; simp at ha
    · cases h; simp at ha

/-- The stores of a small aggregate are the parts of one or of two registers. -/
theorem ret_shape (t : Ty) (a : ArgType) (h : classify t = .ok a) (hs : a.Small) :
    (∃ f, retstores t = .ok [(0, (tymodepart t f 0).width)] ∧ tysize t ≤ 8 ∧ (f = true → a = .aggrF)) ∨
    (∃ f g, retstores t = .ok [(0, (tymodepart t f 0).width), (8, (tymodepart t g 8).width)] ∧
      8 < tysize t ∧ tysize t ≤ 16 ∧ (g = true → a = .aggrIF ∨ a = .aggrFF)) := by
  obtain ⟨hf, _⟩ := classify_fits t a h
  have h2 := classify_two t a h
  unfold retstores
  rw [h, Res.bind_ok]
  obtain ⟨n1, n2, n3⟩ := hs
  cases a
  · exact absurd rfl n1
  · exact absurd rfl n2
  · exact Or.inl ⟨false, rfl, hf, by simp⟩
  · exact Or.inl ⟨true, rfl, hf, by simp⟩
  · exact Or.inr ⟨false, false, rfl, h2 (by simp), hf, by simp⟩
  · exact Or.inr ⟨true, false, rfl, h2 (by simp), hf, by simp⟩
  · exact Or.inr ⟨false, true, rfl, h2 (by simp), hf, by simp⟩
  · exact Or.inr ⟨true, true, rfl, h2 (by simp), hf, by simp⟩
  · exact absurd rfl n3

/-- Every byte of a returned small aggregate is written. -/
theorem ret_covers (t : Ty) (a : ArgType) (h : classify t = .ok a) (hs : a.Small) :
    ∃ l, retstores t = .ok l ∧ ∀ i < tysize t, ∃ x ∈ l, x.1 ≤ i ∧ i < x.1 + x.2 := by
  rcases ret_shape t a h hs with ⟨f, h1, h2, _⟩ | ⟨f, g, h1, h2, h3, _⟩
  · refine ⟨_, h1, fun i hi => ⟨_, List.mem_cons_self, Nat.zero_le _, ?_⟩⟩
    have := part_width t f 0 (by omega) (by omega)
    show i < 0 + _
    omega
  · refine ⟨_, h1, fun i hi => ?_⟩
    by_cases h8 : i < 8
    · refine ⟨_, List.mem_cons_self, Nat.zero_le _, ?_⟩
      have := big_first t f h2
      show i < 0 + _
      omega
    · refine ⟨_, List.mem_cons_of_mem _ List.mem_cons_self, by show 8 ≤ i; omega, ?_⟩
      have := part_width t g 8 (by omega) (by omega)
      show i < 8 + _
      omega

/-- The stores stay within the value if its size is a multiple of four, or if its last part is passed
as an integer and has one or two bytes.  (Missing from `RetFull`: the other sizes, see `ret_overrun`.) -/
theorem ret_partial (t : Ty) (a : ArgType) (h : classify t = .ok a) (hs : a.Small) (h0 : 0 < tysize t)
    (hz : 4 ∣ tysize t ∨ ((a = .aggrI ∨ a = .aggrII ∨ a = .aggrFI) ∧
      (tysize t = 1 ∨ tysize t = 2 ∨ tysize t = 9 ∨ tysize t = 10))) :
    ∃ l, retstores t = .ok l ∧ ∀ x ∈ l, x.1 + x.2 ≤ tysize t := by
  have key : ∀ f d, d < tysize t → tysize t ≤ d + 8 → (d = 0 ∨ d = 8) →
      (4 ∣ tysize t ∨ (f = false ∧ (tysize t = 1 ∨ tysize t = 2 ∨ tysize t = 9 ∨ tysize t = 10))) →
      d + (tymodepart t f d).width ≤ tysize t := by
    intro f d k1 k2 k3 k4
    unfold tymodepart
    cases f <;> simp only [Bool.false_eq_true, if_false, if_true]
    · split
      · simp only [Mode.width]; omega
      · split
        · simp only [Mode.width]; omega
        · split <;> simp only [Mode.width] <;> omega
    · simp only [Bool.true_eq_false, false_and, or_false] at k4
      split <;> simp only [Mode.width] <;> omega
  rcases ret_shape t a h hs with ⟨f, h1, h2, h3⟩ | ⟨f, g, h1, h2, h3, h4⟩
  · refine ⟨_, h1, fun x hx => ?_⟩
    rw [List.mem_singleton] at hx
    subst hx
    refine key f 0 h0 (by omega) (Or.inl rfl) (hz.imp_right fun hz => ⟨?_, hz.2⟩)
    cases f
    · rfl
    · have := h3 rfl
      subst this
      simp at hz
  · refine ⟨_, h1, fun x hx => ?_⟩
    rw [List.mem_cons, List.mem_singleton] at hx
    rcases hx with rfl | rfl
    · have := big_first t f h2
      show 0 + _ ≤ _
      omega
    · refine key g 8 h2 (by omega) (Or.inr rfl) (hz.imp_right fun hz => ⟨?_, hz.2⟩)
      cases g
      · rfl
      · rcases h4 rfl with rfl | rfl <;> simp at hz

/-- For the other sizes a store reaches beyond the value, whatever its class. -/
theorem ret_overrun (t : Ty) (a : ArgType) (h : classify t = .ok a) (hs : a.Small) (h4 : ¬ 4 ∣ tysize t)
    (h1 : tysize t % 8 ≠ 1) (h2 : tysize t % 8 ≠ 2) :
    ∃ l, retstores t = .ok l ∧ ∃ x ∈ l, tysize t < x.1 + x.2 := by
  have key : ∀ f d, d < tysize t → tysize t ≤ d + 8 → (d = 0 ∨ d = 8) →
      tysize t < d + (tymodepart t f d).width := by
    intro f d k1 k2 k3
    unfold tymodepart
    cases f <;> simp only [Bool.false_eq_true, if_false, if_true]
    · rw [if_neg (by omega), if_neg (by omega), if_neg (by omega)]
      simp only [Mode.width]; omega
    · rw [if_neg (by omega)]
      simp only [Mode.width]; omega
  rcases ret_shape t a h hs with ⟨f, k1, k2, _⟩ | ⟨f, g, k1, k2, k3, _⟩
  · exact ⟨_, k1, _, List.mem_cons_self, key f 0 (by omega) (by omega) (Or.inl rfl)⟩
  · exact ⟨_, k1, _, List.mem_cons_of_mem _ List.mem_cons_self, key g 8 (by omega) (by omega) (Or.inr rfl)⟩

/-- `byte[3]`. -/
def threeBytes : Ty := .array (some 3) .int8

/-- Three bytes are stored with a move of eight. -/
theorem ret_violated : ¬ RetFull := by
  intro h
  have := h threeBytes [(0, 8)] (by decide +kernel) (0, 8) (by decide)
  exact absurd this (by decide +kernel)

/-- What that does: with a variable of 16 bytes and then one of type `byte[3]`, the latter begins 21
bytes below the frame pointer and the former 16 bytes below it; the store of eight bytes ends 13 bytes
below it, so that it changes the first three bytes of the former. -/
theorem ret_clobbers : locals 0 [16, tysize threeBytes] = [16, 21] ∧
    retstores threeBytes = .ok [(0, 8)] ∧ (21 : Nat) - 8 = 16 - 3 := by decide +kernel

/-- Cases of `ret_partial`, `ret_covers` and `ret_overrun`. -/
example : let t : Ty := .struct (.cons 0 .int64 (.cons 1 .flt32 .nil))
    classify t = .ok .aggrIF ∧ tysize t = 16 ∧ retstores t = .ok [(0, 8), (8, 8)] := by decide +kernel
example : let t : Ty := .struct (.cons 0 .flt32 (.cons 1 .int32 (.cons 2 .int32 .nil)))
    classify t = .ok .aggrII ∧ tysize t = 12 ∧ retstores t = .ok [(0, 8), (8, 4)] := by decide +kernel
example : let t : Ty := .array (some 10) .int8
    classify t = .ok .aggrII ∧ retstores t = .ok [(0, 8), (8, 2)] := by decide +kernel
example : classify threeBytes = .ok .aggrI ∧ tysize threeBytes % 8 = 3 := by decide +kernel
example : locals 4 [8, 1, 12] = [16, 17, 32] := by decide +kernel

end Verif.Call
