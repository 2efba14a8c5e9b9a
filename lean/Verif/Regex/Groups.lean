import Verif.Regex.Parser

/-! # What the groups of a parse look like -/

namespace Verif.Regex
open Verif.Utf

theorem modify_some {g : Groups} {m k : Nat} {f : Int × Int → Int × Int} {p : Int × Int} (h : (g.modify m f)[k]? = some p) :
    (m = k ∧ ∃ p', g[k]? = some p' ∧ p = f p') ∨ (m ≠ k ∧ g[k]? = some p) := by
  rw [List.getElem?_modify] at h
  by_cases hk : m = k
  · cases hg : g[k]? with
    | none => simp [hg] at h
    | some q => simp [hg, hk] at h; exact .inl ⟨hk, q, rfl, h.symm⟩
  · simp [hk] at h; exact .inr ⟨hk, h⟩

theorem modify_ne (g : Groups) {m k : Nat} (f : Int × Int → Int × Int) (h : m ≠ k) : (g.modify m f)[k]? = g[k]? := by
  rw [List.getElem?_modify]; simp [h]

/-- A group that is unset, or set to a part of `lo..hi`. -/
def Closed (lo hi : Nat) (p : Int × Int) : Prop := p = (-1, -1) ∨ ((lo : Int) ≤ p.1 ∧ p.1 ≤ p.2 ∧ p.2 ≤ hi)

/-- A group that may be open. -/
def Opened (lo hi : Nat) (p : Int × Int) : Prop := (lo : Int) ≤ p.1 ∧ p.1 ≤ hi

/-- Groups in the middle of a parse; those in `O` are open. -/
def Mid (O : Nat → Prop) (lo hi : Nat) (g : Groups) : Prop :=
  ∀ m p, g[m]? = some p → Closed lo hi p ∨ (O m ∧ Opened lo hi p)

theorem Closed.mono {lo hi hi' : Nat} {p : Int × Int} (h : Closed lo hi p) (hh : hi ≤ hi') : Closed lo hi' p := by
  rcases h with h | h
  · exact .inl h
  · exact .inr ⟨h.1, h.2.1, by omega⟩

theorem Mid.mono {O : Nat → Prop} {lo hi hi' : Nat} {g : Groups} (h : Mid O lo hi g) (hh : hi ≤ hi') : Mid O lo hi' g := by
  intro m p hp
  rcases h m p hp with h | h
  · exact .inl (h.mono hh)
  · exact .inr ⟨h.1, h.2.1, by have := h.2.2; omega⟩

/-- A set group, open or not, begins in the range. -/
def Began (lo hi : Nat) (p : Int × Int) : Prop := (lo : Int) ≤ p.1 ∧ p.1 ≤ hi

theorem parse_mid {cls : List Rng → List Byte → Prop} {s : List Byte} {t : Ast} {i j : Nat} {g g' : Groups} (h : Parse cls s t i g j g') :
    ∀ (O : Nat → Prop) (lo : Nat), lo ≤ i → Mid O lo i g → (∀ m p, O m → g[m]? = some p → Began lo i p) →
      i ≤ j ∧ Mid O lo j g' ∧ (∀ m p, O m → g'[m]? = some p → Began lo j p) := by
  have bm : ∀ {O : Nat → Prop} {g : Groups} {lo i j : Nat}, i ≤ j → (∀ m p, O m → g[m]? = some p → Began lo i p) →
      ∀ m p, O m → g[m]? = some p → Began lo j p := by
    intro O g lo i j hij hb m p hO hp
    have := hb m p hO hp
    exact ⟨this.1, by have := this.2; omega⟩
  induction h with
  | chr h => intro O lo _ hm hb; exact ⟨by omega, hm.mono (by omega), bm (by omega) hb⟩
  | ranges h1 h2 => intro O lo _ hm hb; exact ⟨by omega, hm.mono (by omega), bm (by omega) hb⟩
  | cat _ _ ih1 ih2 =>
    intro O lo hl hm hb
    obtain ⟨a1, a2, a3⟩ := ih1 O lo hl hm hb
    obtain ⟨b1, b2, b3⟩ := ih2 O lo (by omega) a2 a3
    exact ⟨by omega, b2, b3⟩
  | altl _ ih => intro O lo hl hm hb; exact ih O lo hl hm hb
  | altr _ ih => intro O lo hl hm hb; exact ih O lo hl hm hb
  | star0 => intro O lo hl hm hb; exact ⟨by omega, hm, hb⟩
  | star1 _ _ ih1 ih2 =>
    intro O lo hl hm hb
    obtain ⟨a1, a2, a3⟩ := ih1 O lo hl hm hb
    obtain ⟨b1, b2, b3⟩ := ih2 O lo (by omega) a2 a3
    exact ⟨by omega, b2, b3⟩
  | plus _ _ ih1 ih2 =>
    intro O lo hl hm hb
    obtain ⟨a1, a2, a3⟩ := ih1 O lo hl hm hb
    obtain ⟨b1, b2, b3⟩ := ih2 O lo (by omega) a2 a3
    exact ⟨by omega, b2, b3⟩
  | quest0 => intro O lo hl hm hb; exact ⟨by omega, hm, hb⟩
  | quest1 _ ih => intro O lo hl hm hb; exact ih O lo hl hm hb
  | bol h => intro O lo hl hm hb; exact ⟨by omega, hm, hb⟩
  | eol h => intro O lo hl hm hb; exact ⟨by omega, hm, hb⟩
  | @cap m a i g j g1 _ ih =>
    intro O lo hl hm hb
    obtain ⟨a1, a2, a3⟩ := ih (fun x => x = m ∨ O x) lo hl (by
        intro k p hp
        rcases modify_some hp with ⟨rfl, p', hp', rfl⟩ | ⟨hk, hp⟩
        · exact .inr ⟨.inl rfl, by simp; omega, by simp⟩
        · rcases hm k p hp with h | h
          · exact .inl h
          · exact .inr ⟨.inr h.1, h.2⟩)
      (by
        intro k p hO hp
        rcases modify_some hp with ⟨rfl, p', hp', rfl⟩ | ⟨hk, hp⟩
        · exact ⟨by simp; omega, by simp⟩
        · exact hb k p (hO.resolve_left (fun e => hk e.symm)) hp)
    refine ⟨a1, ?_, ?_⟩
    · intro k p hp
      rcases modify_some hp with ⟨rfl, p', hp', rfl⟩ | ⟨hk, hp⟩
      · have := a3 m p' (.inl rfl) hp'
        exact .inl (.inr ⟨this.1, this.2, by simp⟩)
      · rcases a2 k p hp with h | h
        · exact .inl h
        · exact .inr ⟨h.1.resolve_left (fun e => hk e.symm), h.2⟩
    · intro k p hO hp
      rcases modify_some hp with ⟨rfl, p', hp', rfl⟩ | ⟨hk, hp⟩
      · exact a3 m p' (.inl rfl) hp'
      · exact a3 k p (.inr hO) hp

/-- The groups of a tree, all in `a..b`. -/
def Caps (a b : Nat) : Ast → Prop
  | .cat x y => Caps a b x ∧ Caps a b y
  | .alt x y => Caps a b x ∧ Caps a b y
  | .star x _ => Caps a b x
  | .plus x _ => Caps a b x
  | .quest x => Caps a b x
  | .cap m x => a ≤ m ∧ m < b ∧ Caps a b x
  | _ => True

theorem Caps.mono {a b a' b' : Nat} {t : Ast} (h : Caps a b t) (ha : a' ≤ a) (hb : b ≤ b') : Caps a' b' t := by
  induction t with
  | cap m x ih => exact ⟨by have := h.1; omega, by have := h.2.1; omega, ih h.2.2⟩
  | cat x y ih1 ih2 => exact ⟨ih1 h.1, ih2 h.2⟩
  | alt x y ih1 ih2 => exact ⟨ih1 h.1, ih2 h.2⟩
  | star x r ih => exact ih h
  | plus x r ih => exact ih h
  | quest x ih => exact ih h
  | _ => trivial

theorem leaf_caps {c : Nat} {t : Ast} (a b : Nat) (h : (c, t) ∈ escapes) : Caps a b t := by
  simp only [escapes, List.mem_cons, List.not_mem_nil, or_false, Prod.mk.injEq] at h
  rcases h with h | h | h | h | h | h | h | h | h | h | h | h | h | h | h | h | h | h | h | h | h | h
  all_goals (obtain ⟨-, rfl⟩ := h; trivial)

theorem gr_caps {l : Lvl} {cs : List Char32} {t : Ast} {n n' : Nat} (h : Gr l cs t n n') : n ≤ n' ∧ Caps n n' t := by
  induction h with
  | chr _ => exact ⟨by omega, trivial⟩
  | esc h => exact ⟨by omega, leaf_caps _ _ h⟩
  | bol => exact ⟨by omega, trivial⟩
  | eol => exact ⟨by omega, trivial⟩
  | any => exact ⟨by omega, trivial⟩
  | cap _ ih => exact ⟨by omega, by omega, by omega, ih.2.mono (by omega) (by omega)⟩
  | grp _ ih => exact ih
  | cls _ _ _ _ => exact ⟨by omega, trivial⟩
  | neg _ _ _ _ => exact ⟨by omega, trivial⟩
  | one _ ih => exact ih
  | star _ ih => exact ih
  | starr _ ih => exact ih
  | plus _ ih => exact ih
  | plusr _ ih => exact ih
  | quest _ ih => exact ih
  | last _ ih => exact ih
  | cat _ _ ih1 ih2 => exact ⟨by omega, ih1.2.mono (by omega) (by omega), ih2.2.mono (by omega) (by omega)⟩
  | only _ ih => exact ih
  | alt _ _ ih1 ih2 => exact ⟨by omega, ih1.2.mono (by omega) (by omega), ih2.2.mono (by omega) (by omega)⟩

/-- A parse changes no group but those of the tree. -/
theorem parse_other {cls : List Rng → List Byte → Prop} {s : List Byte} {t : Ast} {i j : Nat} {g g' : Groups} (h : Parse cls s t i g j g')
    {a b : Nat} : Caps a b t → ∀ m, m < a ∨ b ≤ m → g'[m]? = g[m]? := by
  induction h with
  | cat _ _ ih1 ih2 => intro hc m hm; rw [ih2 hc.2 m hm, ih1 hc.1 m hm]
  | altl _ ih => intro hc m hm; exact ih hc.1 m hm
  | altr _ ih => intro hc m hm; exact ih hc.2 m hm
  | star1 _ _ ih1 ih2 => intro hc m hm; rw [ih2 hc m hm]; exact ih1 hc m hm
  | plus _ _ ih1 ih2 => intro hc m hm; rw [ih2 hc m hm]; exact ih1 hc m hm
  | quest1 _ ih => intro hc m hm; exact ih hc m hm
  | @cap k _ _ _ _ _ _ ih =>
    intro hc m hm
    have hk : k ≠ m := by have := hc.1; have := hc.2.1; omega
    rw [closed, modify_ne _ _ hk, ih hc.2.2 m hm, opened, modify_ne _ _ hk]
  | _ => intro _ _ _; rfl

theorem none_get (m : Nat) (p : Int × Int) (h : Groups.none[m]? = some p) : p = (-1, -1) := by
  have := List.mem_of_getElem? h
  simpa [Groups.none, List.mem_replicate] using this

theorem parse_length {cls : List Rng → List Byte → Prop} {s : List Byte} {t : Ast} {i j : Nat} {g g' : Groups} (h : Parse cls s t i g j g') :
    g'.length = g.length := by
  induction h with
  | cat _ _ ih1 ih2 => rw [ih2, ih1]
  | star1 _ _ ih1 ih2 => rw [ih2, ih1]
  | plus _ _ ih1 ih2 => rw [ih2, ih1]
  | cap _ ih => rw [closed_length, ih, opened_length]
  | altl _ ih => exact ih
  | altr _ ih => exact ih
  | quest1 _ ih => exact ih
  | _ => rfl

/-- A parse does not go past the end. -/
theorem parse_le {cls : List Rng → List Byte → Prop} {s : List Byte} {t : Ast} {i j : Nat} {g g' : Groups} (h : Parse cls s t i g j g') :
    i ≤ s.length → j ≤ s.length := by
  induction h with
  | chr h => intro hi; have := h.length_le; simp at this; omega
  | ranges _ h => intro hi; have := h.length_le; simp at this; omega
  | cat _ _ ih1 ih2 => intro hi; exact ih2 (ih1 hi)
  | star1 _ _ ih1 ih2 => intro hi; exact ih2 (ih1 hi)
  | plus _ _ ih1 ih2 => intro hi; exact ih2 (ih1 hi)
  | cap _ ih => exact ih
  | altl _ ih => exact ih
  | altr _ ih => exact ih
  | quest1 _ ih => exact ih
  | _ => exact id

/-- The groups of a match: 16, the first one the whole match, each other one unset or a part of the match. -/
theorem matches_groups {s : List Byte} {t : Ast} {i j : Nat} {g : Groups} (h : Matches s t i j g) {b : Nat} (hc : Caps 1 b t) :
    i ≤ j ∧ g.length = 16 ∧ g[0]? = some ((i : Int), (j : Int)) ∧ ∀ (m : Nat) p, g[m]? = some p → Closed i j p := by
  have hl := parse_length h
  have hm := parse_mid h (fun _ => False) i (by omega) (fun m p hp => .inl (.inl (none_get m p hp))) (fun _ _ h => h.elim)
  refine ⟨hm.1, hl, ?_, fun m p hp => ?_⟩
  · cases h with
    | cap h =>
      have := parse_other h hc 0 (by omega)
      rw [closed, List.getElem?_modify, this]
      rfl
  · rcases hm.2.1 m p hp with h | h
    · exact h
    · exact h.1.elim

end Verif.Regex
