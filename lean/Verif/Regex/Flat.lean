import Verif.Regex.Core

/-! # Substitution: lemmas about groups that follow each other -/

namespace Verif.Regex
open Verif.Utf

/-- The number of groups. -/
def count : Ast → Nat
  | .cat x y => count x + count y
  | .alt x y => count x + count y
  | .star x _ => count x
  | .plus x _ => count x
  | .quest x => count x
  | .cap _ x => count x + 1
  | _ => 0

/-- The groups are numbered from `n` on, in the order of their parentheses. -/
def Num : Nat → Ast → Prop
  | n, .cat x y => Num n x ∧ Num (n + count x) y
  | n, .alt x y => Num n x ∧ Num (n + count x) y
  | n, .star x _ => Num n x
  | n, .plus x _ => Num n x
  | n, .quest x => Num n x
  | n, .cap m x => m = n ∧ Num (n + 1) x
  | _, _ => True

/-- No group inside a group or inside a repetition. -/
def flat : Ast → Bool
  | .cat x y => flat x && flat y
  | .alt x y => flat x && flat y
  | .star x _ => count x == 0
  | .plus x _ => count x == 0
  | .quest x => flat x
  | .cap _ x => count x == 0
  | _ => true

theorem leaf_num {c : Nat} {t : Ast} (n : Nat) (h : (c, t) ∈ escapes) : count t = 0 ∧ Num n t := by
  simp only [escapes, List.mem_cons, List.not_mem_nil, or_false, Prod.mk.injEq] at h
  rcases h with h | h | h | h | h | h | h | h | h | h | h | h | h | h | h | h | h | h | h | h | h | h
  all_goals (obtain ⟨-, rfl⟩ := h; exact ⟨rfl, trivial⟩)

theorem gr_num {l : Lvl} {cs : List Char32} {t : Ast} {n n' : Nat} (h : Gr l cs t n n') : n' = n + count t ∧ Num n t := by
  induction h with
  | chr _ => exact ⟨rfl, trivial⟩
  | esc h => exact ⟨by rw [(leaf_num 0 h).1]; rfl, (leaf_num _ h).2⟩
  | bol => exact ⟨rfl, trivial⟩
  | eol => exact ⟨rfl, trivial⟩
  | any => exact ⟨rfl, trivial⟩
  | cap _ ih => exact ⟨by rw [ih.1]; simp only [count]; omega, rfl, ih.2⟩
  | grp _ ih => exact ih
  | cls _ _ _ _ => exact ⟨rfl, trivial⟩
  | neg _ _ _ _ => exact ⟨rfl, trivial⟩
  | one _ ih => exact ih
  | star _ ih => exact ih
  | starr _ ih => exact ih
  | plus _ ih => exact ih
  | plusr _ ih => exact ih
  | quest _ ih => exact ih
  | last _ ih => exact ih
  | cat _ _ ih1 ih2 => exact ⟨by rw [ih2.1, ih1.1]; simp only [count]; omega, ih1.2, by have := ih2.2; rwa [ih1.1] at this⟩
  | only _ ih => exact ih
  | alt _ _ ih1 ih2 => exact ⟨by rw [ih2.1, ih1.1]; simp only [count]; omega, ih1.2, by have := ih2.2; rwa [ih1.1] at this⟩

theorem Num.caps {t : Ast} : ∀ {n : Nat}, Num n t → Caps n (n + count t) t := by
  induction t with
  | cat x y ih1 ih2 => intro n h; exact ⟨(ih1 h.1).mono (by omega) (by simp only [count]; omega), (ih2 h.2).mono (by omega) (by simp only [count]; omega)⟩
  | alt x y ih1 ih2 => intro n h; exact ⟨(ih1 h.1).mono (by omega) (by simp only [count]; omega), (ih2 h.2).mono (by omega) (by simp only [count]; omega)⟩
  | star x r ih => intro n h; exact ih h
  | plus x r ih => intro n h; exact ih h
  | quest x ih => intro n h; exact ih h
  | cap m x ih => intro n h; exact ⟨by rw [h.1], by rw [h.1]; simp only [count]; omega, (ih h.2).mono (by omega) (by simp only [count]; omega)⟩
  | _ => intro n _; trivial

theorem parse_ge {cls : List Rng → List Byte → Prop} {s : List Byte} {t : Ast} {i j : Nat} {g g' : Groups} (h : Parse cls s t i g j g') :
    i ≤ j := by
  induction h <;> omega

/-- What is not `nullable` takes at least a byte. -/
theorem parse_gt {s : List Byte} {t : Ast} {i j : Nat} {g g' : Groups} (h : Parse InRanges s t i g j g') :
    nullable t = false → i < j := by
  induction h with
  | @chr c _ _ h => intro _; have := utf8_pos c.toNat; omega
  | ranges h1 h2 =>
    intro _
    obtain ⟨_, _, c, _, _, rfl⟩ := h1
    have := utf8_pos c; omega
  | cat p1 p2 ih1 ih2 =>
    intro hn
    have := parse_ge p1
    have := parse_ge p2
    simp only [nullable, Bool.and_eq_false_iff] at hn
    rcases hn with hn | hn
    · have := ih1 hn; omega
    · have := ih2 hn; omega
  | altl _ ih => intro hn; simp only [nullable, Bool.or_eq_false_iff] at hn; exact ih hn.1
  | altr _ ih => intro hn; simp only [nullable, Bool.or_eq_false_iff] at hn; exact ih hn.2
  | plus p1 p2 ih1 ih2 => intro hn; have := ih1 hn; have := parse_ge p2; omega
  | cap _ ih => intro hn; exact ih hn
  | _ => intro hn; simp [nullable] at hn

/-- Groups that follow each other between `lo` and `hi`, but for those that are unset. -/
def Spans : Nat → Nat → Groups → Prop
  | lo, hi, [] => lo ≤ hi
  | lo, hi, p :: gs => (p = (-1, -1) ∧ Spans lo hi gs) ∨ ∃ a b : Nat, p = ((a : Int), (b : Int)) ∧ lo ≤ a ∧ a ≤ b ∧ Spans b hi gs

theorem Spans.le {hi : Nat} {gs : Groups} : ∀ {lo : Nat}, Spans lo hi gs → lo ≤ hi := by
  induction gs with
  | nil => exact id
  | cons p gs ih =>
    intro lo h
    rcases h with h | ⟨a, b, _, h1, h2, h3⟩
    · exact ih h.2
    · have := ih h3; omega

theorem Spans.lo {hi lo' : Nat} {gs : Groups} : ∀ {lo : Nat}, Spans lo hi gs → lo' ≤ lo → Spans lo' hi gs := by
  induction gs with
  | nil => intro lo h hl; exact Nat.le_trans hl h
  | cons p gs ih =>
    intro lo h hl
    rcases h with h | ⟨a, b, h0, h1, h2, h3⟩
    · exact .inl ⟨h.1, ih h.2 hl⟩
    · exact .inr ⟨a, b, h0, by omega, h2, h3⟩

theorem Spans.append {mid hi : Nat} {l2 : Groups} (h2 : Spans mid hi l2) {l1 : Groups} : ∀ {lo : Nat}, Spans lo mid l1 → Spans lo hi (l1 ++ l2) := by
  induction l1 with
  | nil => intro lo h; exact h2.lo h
  | cons p l1 ih =>
    intro lo h
    rcases h with h | ⟨a, b, h0, h1, h3, h4⟩
    · exact .inl ⟨h.1, ih h.2⟩
    · exact .inr ⟨a, b, h0, h1, h3, ih h4⟩

theorem Spans.unset {lo hi : Nat} (h : lo ≤ hi) {l : Groups} : (∀ p ∈ l, p = (-1, -1)) → Spans lo hi l := by
  induction l with
  | nil => intro _; exact h
  | cons p l ih => intro hl; exact .inl ⟨hl p (by simp), ih (fun q hq => hl q (by simp [hq]))⟩

/-- The groups from `n` on, `k` of them. -/
def seg (g : Groups) (n k : Nat) : Groups := (g.drop n).take k

theorem seg_get (g : Groups) (n k m : Nat) : (seg g n k)[m]? = if m < k then g[n + m]? else none := by
  unfold seg
  rw [List.getElem?_take, List.getElem?_drop]

theorem seg_congr {g g' : Groups} {n k : Nat} (h : ∀ m, n ≤ m → m < n + k → g[m]? = g'[m]?) : seg g n k = seg g' n k := by
  apply List.ext_getElem?
  intro m
  rw [seg_get, seg_get]
  split
  · exact h _ (by omega) (by omega)
  · rfl

theorem seg_add (g : Groups) (n a b : Nat) : seg g n (a + b) = seg g n a ++ seg g (n + a) b := by
  unfold seg
  rw [List.take_add, List.drop_drop]

theorem seg_unset {g : Groups} {n k : Nat} (h : ∀ m, n ≤ m → m < n + k → g[m]? = some (-1, -1)) : ∀ p ∈ seg g n k, p = (-1, -1) := by
  intro p hp
  obtain ⟨m, hm⟩ := List.mem_iff_getElem?.mp hp
  rw [seg_get] at hm
  split at hm
  · rw [h _ (by omega) (by omega)] at hm; exact (Option.some.inj hm).symm
  · cases hm

/-- In a flat tree the groups follow each other. -/
theorem parse_spans {cls : List Rng → List Byte → Prop} {s : List Byte} {t : Ast} {i j : Nat} {g g' : Groups} (h : Parse cls s t i g j g') :
    ∀ {n : Nat}, Num n t → flat t = true → (∀ m, n ≤ m → m < n + count t → g[m]? = some (-1, -1)) → Spans i j (seg g' n (count t)) := by
  induction h with
  | @cat a b i g j g1 k g2 p1 p2 ih1 ih2 =>
    intro n hn hf hu
    simp only [flat, Bool.and_eq_true] at hf
    simp only [count] at hu ⊢
    have c1 := hn.1.caps
    have c2 := hn.2.caps
    rw [seg_add, seg_congr (g' := g1) (fun m h1 h2 => parse_other p2 c2 m (by omega))]
    refine Spans.append (ih2 hn.2 hf.2 fun m h1 h2 => ?_) (ih1 hn.1 hf.1 fun m h1 h2 => hu m h1 (by omega))
    rw [parse_other p1 c1 m (by omega)]
    exact hu m (by omega) (by omega)
  | @altl a b i g j g1 p1 ih =>
    intro n hn hf hu
    simp only [flat, Bool.and_eq_true] at hf
    simp only [count] at hu ⊢
    have c1 := hn.1.caps
    rw [seg_add]
    refine Spans.append (Spans.unset (by omega) (seg_unset fun m h1 h2 => ?_)) (ih hn.1 hf.1 fun m h1 h2 => hu m h1 (by omega))
    rw [parse_other p1 c1 m (by omega)]
    exact hu m (by omega) (by omega)
  | @altr a b i g j g1 p1 ih =>
    intro n hn hf hu
    simp only [flat, Bool.and_eq_true] at hf
    simp only [count] at hu ⊢
    have c2 := hn.2.caps
    rw [seg_add]
    refine Spans.append (ih hn.2 hf.2 fun m h1 h2 => hu m (by omega) (by omega)) (Spans.unset (Nat.le_refl i) (seg_unset fun m h1 h2 => ?_))
    rw [parse_other p1 c2 m (by omega)]
    exact hu m (by omega) (by omega)
  | @star1 a r i g j g1 k g2 p1 p2 _ _ =>
    intro n hn hf hu
    have : count a = 0 := by simpa [flat] using hf
    simp only [count, this]
    have := parse_ge p1; have := parse_ge p2
    exact Spans.unset (by omega) (by simp [seg])
  | @plus a r i g j g1 k g2 p1 p2 _ _ =>
    intro n hn hf hu
    have : count a = 0 := by simpa [flat] using hf
    simp only [count, this]
    have := parse_ge p1; have := parse_ge p2
    exact Spans.unset (by omega) (by simp [seg])
  | star0 => intro n hn hf hu; exact Spans.unset (by omega) (seg_unset hu)
  | quest0 => intro n hn hf hu; exact Spans.unset (by omega) (seg_unset hu)
  | quest1 _ ih => intro n hn hf hu; exact ih hn hf hu
  | @cap m a i g j g1 p1 _ =>
    intro n hn hf hu
    have h0 : count a = 0 := by simpa [flat] using hf
    have hm : m = n := hn.1
    subst hm
    simp only [count, h0] at hu ⊢
    have c1 := hn.2.caps
    rw [h0] at c1
    have e1 : g1[m]? = some ((i : Int), -1) := by
      rw [parse_other p1 c1 m (by omega), opened, List.getElem?_modify, hu m (by omega) (by omega)]; simp
    have e2 : (closed g1 m j)[m]? = some ((i : Int), (j : Int)) := by
      rw [closed, List.getElem?_modify, e1]; simp
    have e3 : seg (closed g1 m j) m (0 + 1) = [((i : Int), (j : Int))] := by
      apply List.ext_getElem?
      intro k
      rw [seg_get]
      cases k with
      | zero => simpa using e2
      | succ k => rw [if_neg (by omega)]; rfl
    rw [e3]
    exact .inr ⟨i, j, rfl, Nat.le_refl _, parse_ge p1, Nat.le_refl _⟩
  | _ => intro n _ _ hu; exact Spans.unset (by omega) (seg_unset hu)

/-- The groups of a match from 1 on. -/
theorem matches_spans {s : List Byte} {t : Ast} {i j n : Nat} {g : Groups} (h : Matches s t i j g) (hn : Num 1 t) (hf : flat t = true)
    (hc : n = 1 + count t) (h16 : n ≤ 16) : Spans i j ((g.take n).drop 1) := by
  have hlen := parse_length h
  cases h with
  | @cap _ _ _ _ _ g1 h =>
    have := parse_spans h hn hf (fun m h1 h2 => by
      rw [opened, modify_ne _ _ (by omega), Groups.none, List.getElem?_replicate, if_pos (by omega)])
    rw [seg_congr (g' := closed g1 0 j) (fun m h1 h2 => by rw [closed, modify_ne _ _ (by omega)])] at this
    have e : seg (closed g1 0 j) 1 (count t) = ((closed g1 0 j).take n).drop 1 := by
      unfold seg
      rw [List.drop_take, hc, Nat.add_sub_cancel_left]
    rw [← e]
    exact this

end Verif.Regex
