import Verif.Big.Spec

/-!
# Digits, comparison, addition and subtraction
-/

namespace Verif.Bigint

/-- The value of digits. -/
def V (l : List Nat) : Nat := Nat.ofDigits Base l
/-- Digits are below the base. -/
def Small (l : List Nat) : Prop := ∀ d ∈ l, d < Base

theorem V_nil : V [] = 0 := rfl
theorem V_cons (d : Nat) (l : List Nat) : V (d :: l) = d + Base * V l := Nat.ofDigits_cons
theorem V_append (a b : List Nat) : V (a ++ b) = V a + Base ^ a.length * V b := Nat.ofDigits_append
theorem V_single (d : Nat) : V [d] = d := by rw [V_cons, V_nil]; omega
theorem V_zeros (n : Nat) : V (List.replicate n 0) = 0 := Nat.ofDigits_replicate_zero
theorem V_lt {l : List Nat} (h : Small l) : V l < Base ^ l.length := Nat.ofDigits_lt_base_pow_length (by decide) h

theorem Small.nil : Small [] := by intro d h; cases h
theorem Small.cons {d : Nat} {l : List Nat} : Small (d :: l) ↔ d < Base ∧ Small l := by simp [Small]
theorem Small.append {a b : List Nat} : Small (a ++ b) ↔ Small a ∧ Small b := by
  simp only [Small, List.mem_append]
  exact ⟨fun h => ⟨fun d hd => h d (.inl hd), fun d hd => h d (.inr hd)⟩, fun h d hd => hd.elim (h.1 d) (h.2 d)⟩
theorem Small.zeros (n : Nat) : Small (List.replicate n 0) := by
  intro d h
  rw [List.eq_of_mem_replicate h]
  decide

theorem trimdig_snoc (l : List Nat) (d : Nat) : trimdig (l ++ [d]) = if d = 0 then trimdig l else l ++ [d] := by
  unfold trimdig
  rw [List.reverse_append]
  simp only [List.reverse_cons, List.reverse_nil, List.nil_append, List.singleton_append, List.dropWhile_cons, beq_iff_eq]
  split <;> simp

theorem trimdig_nil : trimdig [] = [] := rfl

theorem trimdig_V (l : List Nat) : V (trimdig l) = V l := by
  induction l using List.reverseRecOn with
  | nil => rfl
  | append_singleton l d ih =>
    rw [trimdig_snoc]
    split
    · rename_i h
      rw [ih, V_append, h, V_single]
      simp
    · rfl

theorem trimdig_small {l : List Nat} (h : Small l) : Small (trimdig l) := by
  induction l using List.reverseRecOn with
  | nil => exact h
  | append_singleton l d ih =>
    rw [trimdig_snoc]
    split
    · exact ih (Small.append.1 h).1
    · exact h

theorem trimdig_last (l : List Nat) (h : trimdig l ≠ []) : (trimdig l).getLast h ≠ 0 := by
  induction l using List.reverseRecOn with
  | nil => exact absurd rfl h
  | append_singleton l d ih =>
    revert h
    rw [trimdig_snoc]
    split
    · exact ih
    · rename_i hd
      intro h
      simpa using hd

theorem trimdig_digits {l : List Nat} (h : Small l) : trimdig l = Nat.digits Base (V l) := by
  rw [← trimdig_V]
  exact (Nat.digits_ofDigits Base (by decide) _ (trimdig_small h) (trimdig_last l)).symm

theorem digits_small (n : Nat) : Small (Nat.digits Base n) := fun _ h => Nat.digits_lt_base (by decide) h
theorem V_digits (n : Nat) : V (Nat.digits Base n) = n := Nat.ofDigits_digits _ _

theorem Rep.small {x : Big} {z : Int} (h : Rep x z) : Small x.dig := by
  rw [h.1]
  exact digits_small _
theorem Rep.V {x : Big} {z : Int} (h : Rep x z) : V x.dig = z.natAbs := by
  rw [h.1]
  exact V_digits _
theorem Rep.val {x : Big} {z : Int} (h : Rep x z) : x.sign * (Bigint.V x.dig : Int) = z := by
  rw [h.V, h.2]
  exact Int.sign_mul_natAbs z

theorem rep_ofInt (z : Int) : Rep (ofInt z) z := ⟨rfl, rfl⟩
theorem Rep.unique {x y : Big} {z : Int} (h : Rep x z) (h' : Rep y z) : x = y := by
  cases x; cases y
  simp only [Rep] at h h'
  simp [h, h']
theorem Rep.inj {x : Big} {z z' : Int} (h : Rep x z) (h' : Rep x z') : z = z' := by rw [← h.val, ← h'.val]
theorem rep_zero : Rep ⟨[], 0⟩ 0 := ⟨rfl, rfl⟩
theorem Rep.nil_iff {x : Big} {z : Int} (h : Rep x z) : x.dig = [] ↔ z = 0 := by
  rw [h.1, Nat.digits_eq_nil_iff_eq_zero, Int.natAbs_eq_zero]
theorem Rep.sign_zero {x : Big} {z : Int} (h : Rep x z) : x.sign = 0 ↔ z = 0 := by
  rw [h.2, Int.sign_eq_zero_iff_zero]

/-- What `trim` makes of any digits. -/
theorem trim_rep {l : List Nat} (h : Small l) {s : Int} (hs : s = 1 ∨ s = -1 ∨ V l = 0) : Rep (trim ⟨l, s⟩) (s * V l) := by
  have hd := trimdig_digits h
  by_cases h0 : V l = 0
  · have : trimdig l = [] := by rw [hd, h0]; rfl
    simp only [trim, this, Rep, h0]
    simp
  · have hne : (trimdig l).isEmpty = false := by
      rw [hd, List.isEmpty_eq_false_iff]
      exact Nat.digits_ne_nil_iff_ne_zero.2 h0
    refine ⟨?_, ?_⟩
    · simp only [trim, hd]
      congr 1
      rcases hs with rfl | rfl | k
      · simp
      · simp
      · exact absurd k h0
    · simp only [trim, hne, Bool.false_eq_true, if_false]
      have hp : (0 : Int) < (V l : Int) := by exact_mod_cast Nat.pos_of_ne_zero h0
      rcases hs with rfl | rfl | k
      · simp [Int.sign_eq_one_of_pos hp]
      · rw [Int.neg_one_mul, Int.sign_neg, Int.sign_eq_one_of_pos hp]
      · exact absurd k h0

theorem trim_rep' {l : List Nat} (h : Small l) {s : Int} (hs : s = 1 ∨ s = -1 ∨ V l = 0) {z : Int} (hz : z = s * V l) : Rep (trim ⟨l, s⟩) z := by
  rw [hz]
  exact trim_rep h hs

/-! ## Comparison -/

theorem cmptop_spec : ∀ (a b : List Nat), a.length = b.length → Small a → Small b →
    (cmptop a b < 0 ↔ V a.reverse < V b.reverse) ∧ (cmptop a b = 0 ↔ V a.reverse = V b.reverse)
  | [], [], _, _, _ => by simp [cmptop]
  | [], _ :: _, h, _, _ => by simp at h
  | _ :: _, [], h, _, _ => by simp at h
  | x :: xs, y :: ys, h, ha, hb => by
    have hl : xs.length = ys.length := by simpa using h
    obtain ⟨hx, hxs⟩ := Small.cons.1 ha
    obtain ⟨hy, hys⟩ := Small.cons.1 hb
    have h1 : V xs.reverse < Base ^ xs.length := by
      have := V_lt (l := xs.reverse) (by intro d hd; exact hxs d (by simpa using hd))
      simpa using this
    have h2 : V ys.reverse < Base ^ xs.length := by
      have := V_lt (l := ys.reverse) (by intro d hd; exact hys d (by simpa using hd))
      rw [hl]
      simpa using this
    simp only [List.reverse_cons, V_append, V_single, List.length_reverse, ← hl, cmptop]
    by_cases e : x = y
    · subst e
      rw [if_pos rfl]
      have ih := cmptop_spec xs ys hl hxs hys
      constructor
      · rw [ih.1]; omega
      · rw [ih.2]; omega
    · rw [if_neg e]
      generalize Base ^ xs.length = P at *
      rcases Nat.lt_or_gt_of_ne e with k | k
      · have : P * x + P ≤ P * y := by rw [← Nat.mul_succ]; exact Nat.mul_le_mul_left _ k
        omega
      · have : P * y + P ≤ P * x := by rw [← Nat.mul_succ]; exact Nat.mul_le_mul_left _ k
        omega

/-- Magnitudes of digits which may have leading zeros, of the same length. -/
theorem cmptop_eq {a b : List Nat} (h : a.length = b.length) (ha : Small a) (hb : Small b) : signedorder (cmptop a.reverse b.reverse) = compare (V a) (V b) := by
  have := cmptop_spec a.reverse b.reverse (by simpa using h) (by intro d hd; exact ha d (by simpa using hd)) (by intro d hd; exact hb d (by simpa using hd))
  rw [List.reverse_reverse, List.reverse_reverse] at this
  unfold signedorder
  split
  · rename_i k
    exact (Nat.compare_eq_lt.2 (this.1.1 k)).symm
  · split
    · rename_i k
      exact (Nat.compare_eq_eq.2 (this.2.1 k)).symm
    · rename_i k k'
      rw [this.1] at k
      rw [this.2] at k'
      exact (Nat.compare_eq_gt.2 (by omega)).symm

theorem V_ge {l : List Nat} (h : ∀ k : l ≠ [], l.getLast k ≠ 0) (hne : l ≠ []) : Base ^ (l.length - 1) ≤ V l := by
  rcases List.eq_nil_or_concat l with rfl | ⟨k, d, rfl⟩
  · exact absurd rfl hne
  · have := h hne
    simp only [List.concat_eq_append] at this ⊢
    rw [V_append, V_single]
    simp only [List.length_append, List.length_cons, List.length_nil, Nat.zero_add, Nat.add_sub_cancel]
    have hd : 1 ≤ d := by
      rcases Nat.eq_zero_or_pos d with e | e
      · subst e; simp at this
      · exact e
    have : Base ^ k.length * 1 ≤ Base ^ k.length * d := Nat.mul_le_mul_left _ hd
    omega

/-- No leading zeros. -/
def Tight (l : List Nat) : Prop := ∀ k : l ≠ [], l.getLast k ≠ 0

theorem tight_digits (n : Nat) : Tight (Nat.digits Base n) := by
  have := trimdig_last (Nat.digits Base n)
  rw [trimdig_digits (digits_small n), V_digits] at this
  exact this

theorem Rep.tight {x : Big} {z : Int} (h : Rep x z) : Tight x.dig := by
  rw [h.1]
  exact tight_digits _

theorem V_len_lt {a b : List Nat} (ha : Small a) (hb : Tight b) (h : a.length < b.length) : V a < V b := by
  have h1 := V_lt ha
  have h2 := V_ge hb (by intro e; subst e; simp at h)
  have h3 : Base ^ a.length ≤ Base ^ (b.length - 1) := Nat.pow_le_pow_right (by decide) (by omega)
  omega

theorem bigcmpabs_eq {a b : Big} (ha : Small a.dig) (hb : Small b.dig) (ta : Tight a.dig ∨ a.dig.length ≤ b.dig.length) (tb : Tight b.dig ∨ b.dig.length ≤ a.dig.length) :
    bigcmpabs a b = compare (V a.dig) (V b.dig) := by
  unfold bigcmpabs
  split
  · rename_i h
    exact (Nat.compare_eq_lt.2 (V_len_lt ha (tb.resolve_right (by omega)) h)).symm
  · split
    · rename_i h
      exact (Nat.compare_eq_gt.2 (V_len_lt hb (ta.resolve_right (by omega)) h)).symm
    · exact cmptop_eq (by omega) ha hb

/-! ## Addition -/

theorem addloop_spec : ∀ (a b : List Nat) (c : Nat), b.length ≤ a.length → Small a → Small b → c ≤ 1 →
    V (addloop a b c).1 + Base ^ a.length * (addloop a b c).2 = V a + V b + c ∧ Small (addloop a b c).1 ∧ (addloop a b c).1.length = a.length ∧ (addloop a b c).2 ≤ 1
  | [], b, c, h, _, _, hc => by
    have : b = [] := List.length_eq_zero_iff.1 (by simpa using h)
    subst this
    simp only [addloop, V_nil]
    exact ⟨by simp, Small.nil, by simp, hc⟩
  | x :: xs, b, c, h, ha, hb, hc => by
    obtain ⟨hx, hxs⟩ := Small.cons.1 ha
    have key : ∀ (y : Nat) (ys : List Nat), y < Base → ys.length ≤ xs.length → Small ys → V b = y + Base * V ys → b.headD 0 = y → b.tail = ys →
        V (addloop (x :: xs) b c).1 + Base ^ (x :: xs).length * (addloop (x :: xs) b c).2 = V (x :: xs) + V b + c ∧ Small (addloop (x :: xs) b c).1 ∧
        (addloop (x :: xs) b c).1.length = (x :: xs).length ∧ (addloop (x :: xs) b c).2 ≤ 1 := by
      intro y ys hy hys hsy hV h1 h2
      simp only [addloop, h1, h2]
      have hv : (x + c + y) % W64 = x + c + y := Nat.mod_eq_of_lt (by omega)
      rw [hv]
      obtain ⟨k1, k2, k3, k4⟩ := addloop_spec xs ys (if Base ≤ x + c + y then 1 else 0) hys hxs hsy (by split <;> omega)
      refine ⟨?_, Small.cons.2 ⟨Nat.mod_lt _ (by decide), k2⟩, by simp [k3], k4⟩
      rw [V_cons, V_cons, hV, List.length_cons, Nat.pow_succ]
      have e : (x + c + y) % Base + Base * (if Base ≤ x + c + y then 1 else 0) = x + c + y := by
        split
        · omega
        · rw [Nat.mod_eq_of_lt (by omega)]; omega
      have e2 : Base ^ xs.length * Base * (addloop xs ys (if Base ≤ x + c + y then 1 else 0)).2 = Base * (Base ^ xs.length * (addloop xs ys (if Base ≤ x + c + y then 1 else 0)).2) := by ring
      rw [e2]
      generalize Base ^ xs.length * (addloop xs ys (if Base ≤ x + c + y then 1 else 0)).2 = Q at *
      generalize V (addloop xs ys (if Base ≤ x + c + y then 1 else 0)).1 = R at *
      generalize (if Base ≤ x + c + y then 1 else 0) = c' at *
      omega
    cases b with
    | nil => exact key 0 [] (by decide) (by simp) Small.nil rfl rfl rfl
    | cons y ys =>
      obtain ⟨hy, hys⟩ := Small.cons.1 hb
      exact key y ys hy (by simpa using h) hys (V_cons _ _) rfl rfl

theorem zgrow_V (l : List Nat) (n : Nat) : V (zgrow l n) = V l := by
  rw [zgrow, V_append, V_zeros]
  simp
theorem zgrow_len {l : List Nat} {n : Nat} (h : l.length ≤ n) : (zgrow l n).length = n := by simp [zgrow]; omega
theorem zgrow_small {l : List Nat} {n : Nat} (h : Small l) : Small (zgrow l n) := Small.append.2 ⟨h, Small.zeros _⟩

theorem uadd_rep {a b : Big} (ha : Small a.dig) (hb : Small b.dig) (hs : a.sign = 1 ∨ a.sign = -1 ∨ V a.dig + V b.dig = 0) :
    Rep (uadd a b) (a.sign * (V a.dig + V b.dig : Nat)) := by
  have hl := zgrow_len (l := a.dig) (n := max a.dig.length b.dig.length) (by omega)
  obtain ⟨h1, h2, h3, h4⟩ := addloop_spec (zgrow a.dig (max a.dig.length b.dig.length)) b.dig 0 (by rw [hl]; omega) (zgrow_small ha) hb (by omega)
  rw [zgrow_V, Nat.add_zero, hl] at h1
  rw [hl] at h3
  have e : V ((addloop (zgrow a.dig (max a.dig.length b.dig.length)) b.dig 0).1 ++ [(addloop (zgrow a.dig (max a.dig.length b.dig.length)) b.dig 0).2]) = V a.dig + V b.dig := by
    rw [V_append, V_single, h3, h1]
  unfold uadd
  rw [← e]
  refine trim_rep (Small.append.2 ⟨h2, Small.cons.2 ⟨?_, Small.nil⟩⟩) (by rw [e]; exact hs)
  exact Nat.lt_of_le_of_lt h4 (by decide)

theorem subloop_spec : ∀ (a b : List Nat) (c : Nat), b.length ≤ a.length → Small a → Small b → c ≤ 1 →
    ∃ d, d ≤ 1 ∧ V (subloop a b c) + V b + c = V a + Base ^ a.length * d ∧ Small (subloop a b c) ∧ (subloop a b c).length = a.length
  | [], b, c, h, _, _, hc => by
    have : b = [] := List.length_eq_zero_iff.1 (by simpa using h)
    subst this
    exact ⟨c, hc, by simp [subloop, V_nil], Small.nil, rfl⟩
  | x :: xs, b, c, h, ha, hb, hc => by
    obtain ⟨hx, hxs⟩ := Small.cons.1 ha
    have key : ∀ (y : Nat) (ys : List Nat), y < Base → ys.length ≤ xs.length → Small ys → V b = y + Base * V ys → b.headD 0 = y → b.tail = ys →
        ∃ d, d ≤ 1 ∧ V (subloop (x :: xs) b c) + V b + c = V (x :: xs) + Base ^ (x :: xs).length * d ∧ Small (subloop (x :: xs) b c) ∧ (subloop (x :: xs) b c).length = (x :: xs).length := by
      intro y ys hy hys hsy hV h1 h2
      simp only [subloop, h1, h2]
      obtain ⟨d, k1, k2, k3, k4⟩ := subloop_spec xs ys (if (x : Int) - c - (y : Nat) < 0 then 1 else 0) hys hxs hsy (by split <;> omega)
      refine ⟨d, k1, ?_, Small.cons.2 ⟨?_, k3⟩, by rw [List.length_cons, List.length_cons, k4]⟩
      · rw [V_cons, V_cons, hV, List.length_cons, Nat.pow_succ]
        have e2 : Base ^ xs.length * Base * d = Base * (Base ^ xs.length * d) := by ring
        rw [e2]
        generalize Base ^ xs.length * d = Q at *
        generalize V (subloop xs ys (if (x : Int) - c - (y : Nat) < 0 then 1 else 0)) = R at *
        split at k2
        · have : (((x : Int) - c - (y : Nat)) % (Base : Int)).toNat = x + Base - c - y := by omega
          omega
        · have : (((x : Int) - c - (y : Nat)) % (Base : Int)).toNat = x - c - y := by omega
          omega
      · have := Int.emod_lt_of_pos ((x : Int) - c - (y : Nat)) (by decide : (0 : Int) < (Base : Int))
        have := Int.emod_nonneg ((x : Int) - c - (y : Nat)) (by decide : (Base : Int) ≠ 0)
        omega
    cases b with
    | nil => exact key 0 [] (by decide) (by simp) Small.nil rfl rfl rfl
    | cons y ys =>
      obtain ⟨hy, hys⟩ := Small.cons.1 hb
      exact key y ys hy (by simpa using h) hys (V_cons _ _) rfl rfl

theorem usub_rep {a b : Big} (ha : Small a.dig) (hb : Small b.dig) (hl : b.dig.length ≤ a.dig.length) (hle : V b.dig ≤ V a.dig)
    (hs : a.sign = 1 ∨ a.sign = -1 ∨ V a.dig - V b.dig = 0) : Rep (usub a b) (a.sign * (V a.dig - V b.dig : Nat)) := by
  obtain ⟨d, h1, h2, h3, h4⟩ := subloop_spec a.dig b.dig 0 hl ha hb (by omega)
  have h5 := V_lt h3
  rw [h4] at h5
  have hd : d = 0 := by
    have hd : d = 0 ∨ d = 1 := by omega
    rcases hd with e | e
    · exact e
    · subst e
      have := V_lt ha
      omega
  subst hd
  have e : V (subloop a.dig b.dig 0) = V a.dig - V b.dig := by omega
  unfold usub
  rw [← e]
  exact trim_rep h3 (by rw [e]; exact hs)

end Verif.Bigint
