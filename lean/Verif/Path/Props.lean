import Verif.Path.Model
import Verif.Str.Props

/-!
# C32: path normalisation
-/

namespace Verif.Path
open Verif.Str

/-! ## Specification -/

/-- The components of a path: the texts between slashes. -/
def comps : List Byte → List (List Byte)
  | [] => [[]]
  | c :: t =>
    if c = 47 then [] :: comps t
    else match comps t with
      | [] => [[c]]
      | x :: xs => (c :: x) :: xs

/-- The step up. -/
def dd : List Byte := [46, 46]

/-- Follow one component: nothing for "" and ".", one up for "..", one down else.  `ups`
counts the steps above the start. -/
def follow : Nat × List (List Byte) → List Byte → Nat × List (List Byte)
  | (ups, names), c =>
    if c = [] ∨ c = [46] then (ups, names)
    else if c = dd then (if names = [] then (ups + 1, []) else (ups, names.dropLast))
    else (ups, names ++ [c])

/-- A location: below the root, or relative with some steps up and then names. -/
structure Loc where
  abs : Bool
  ups : Nat
  names : List (List Byte)
  deriving DecidableEq

/-- A path is absolute if it begins with a slash. -/
def isAbs (p : List Byte) : Bool := p.head? = some 47

/-- Follow components from the root (there is nothing above) or from here. -/
def loc (abs : Bool) (cs : List (List Byte)) : Loc :=
  let r := cs.foldl follow (0, [])
  ⟨abs, if abs then 0 else r.1, r.2⟩

/-- The location of a path. -/
def denote (p : List Byte) : Loc := loc (isAbs p) (comps p)

/-- The canonical text of a location. -/
def render (l : Loc) : List Byte :=
  let cs := List.replicate l.ups dd ++ l.names
  if l.abs then 47 :: join [47] cs else if cs = [] then [46] else join [47] cs

/-- A name in a location: not empty, not special and without slash. -/
def IsName (c : List Byte) : Prop := c ≠ [] ∧ c ≠ [46] ∧ c ≠ dd ∧ (47 : Byte) ∉ c

/-- Locations arising from paths. -/
structure Loc.Ok (l : Loc) : Prop where
  names : ∀ c ∈ l.names, IsName c
  root : l.abs = true → l.ups = 0

/-! ## Components and splitting -/

theorem comps_ne (p : List Byte) : comps p ≠ [] := by
  cases p with
  | nil => simp [comps]
  | cons c t =>
    unfold comps
    split
    · simp
    · split <;> simp

theorem comps_cons_ne {c : Byte} (h : c ≠ 47) (t : List Byte) :
    ∃ x xs, comps t = x :: xs ∧ comps (c :: t) = (c :: x) :: xs := by
  cases ht : comps t with
  | nil => exact absurd ht (comps_ne t)
  | cons x xs => exact ⟨x, xs, rfl, by rw [comps, if_neg h, ht]⟩

theorem comps_noslash (p : List Byte) (h : (47 : Byte) ∉ p) : comps p = [p] := by
  induction p with
  | nil => rfl
  | cons c t ih =>
    have hc : c ≠ 47 := fun e => h (by simp [e])
    obtain ⟨x, xs, h1, h2⟩ := comps_cons_ne hc t
    rw [ih fun e => h (List.mem_cons_of_mem _ e)] at h1
    rw [h2]
    simp only [List.cons.injEq] at h1
    rw [← h1.1, ← h1.2]

theorem comps_append (p q : List Byte) (h : (47 : Byte) ∉ p) : comps (p ++ 47 :: q) = p :: comps q := by
  induction p with
  | nil => simp [comps]
  | cons c t ih =>
    have hc : c ≠ 47 := fun e => h (by simp [e])
    obtain ⟨x, xs, h1, h2⟩ := comps_cons_ne hc (t ++ 47 :: q)
    rw [ih fun e => h (List.mem_cons_of_mem _ e)] at h1
    rw [List.cons_append, h2]
    simp only [List.cons.injEq] at h1
    rw [← h1.1, ← h1.2]

/-- Any two texts with a slash between. -/
theorem comps_slash (p q : List Byte) : comps (p ++ 47 :: q) = comps p ++ comps q := by
  induction p with
  | nil => simp [comps]
  | cons c t ih =>
    by_cases hc : c = 47
    · subst hc
      simp only [List.cons_append, comps, ↓reduceIte, ih]
    · obtain ⟨x, xs, h1, h2⟩ := comps_cons_ne hc t
      obtain ⟨y, ys, g1, g2⟩ := comps_cons_ne hc (t ++ 47 :: q)
      rw [ih, h1] at g1
      rw [List.cons_append, g2, h2]
      simp only [List.cons_append, List.cons.injEq] at g1 ⊢
      exact ⟨⟨trivial, g1.1.symm⟩, g1.2.symm⟩

theorem comps_join (ps : List (List Byte)) (h : ps ≠ []) (hn : ∀ p ∈ ps, (47 : Byte) ∉ p) :
    comps (join [47] ps) = ps := by
  induction ps with
  | nil => exact absurd rfl h
  | cons x xs ih =>
    by_cases hx : xs = []
    · subst hx; exact comps_noslash x (hn x (by simp))
    · rw [join_cons _ _ hx, List.append_assoc, List.singleton_append, comps_append _ _ (hn x (by simp)),
        ih hx fun p hp => hn p (by simp [hp])]

theorem occurs_slash (p : List Byte) (h : (47 : Byte) ∈ p) : Occurs [47] p := by
  obtain ⟨a, b, e⟩ := List.append_of_mem h
  exact ⟨a.length, a, b, by simpa using e, rfl⟩

/-- What `strsplit` returns, in terms of components. -/
theorem split_comps (p : List Byte) :
    strsplit (p.length + 1) p [47#8] = .ok (if p = [] then [] else comps p) := by
  obtain ⟨ps, h1, h2, h3, h4⟩ := strsplit_spec p [47#8] (by simp)
  rw [h1]
  congr 1
  by_cases hp : p = []
  · subst hp
    have : strsplit (([] : List Byte).length + 1) [] [47#8] = .ok [] := rfl
    rw [this] at h1
    rw [if_pos rfl]
    exact (Res.ok.inj h1).symm
  · rw [if_neg hp, ← h2]
    refine (comps_join ps ?_ fun q hq hm => h3 q hq (occurs_slash q hm)).symm
    intro h0
    subst h0
    exact (h4 hp)

/-! ## The loops -/

/-- "." becomes empty. -/
def undot (c : List Byte) : List Byte := if c = [46] then [] else c

theorem dotLoop_spec (rest : List (List Byte)) : ∀ pre, dotLoop rest.length (pre ++ rest) = .ok (pre ++ rest.map undot) := by
  induction rest with
  | nil => intro pre; simp [dotLoop]
  | cons c rest ih =>
    intro pre
    rw [List.length_cons, dotLoop]
    have hi : (pre ++ c :: rest).length - (rest.length + 1) = pre.length := by simp
    simp only [hi]
    rw [rdChk_ok (by simp), Res.bind_ok]
    simp only [List.getElem_append_right (Nat.le_refl _), Nat.sub_self, List.getElem_cons_zero]
    have := ih (pre ++ [undot c])
    simp only [List.append_assoc, List.singleton_append] at this
    by_cases hc : c = [46#8]
    · rw [if_pos hc, wrChk_ok _ (by simp), Res.bind_ok, List.set_append_right (h := Nat.le_refl _), Nat.sub_self,
        List.set_cons_zero]
      have e : undot c = [] := by simp [undot, hc]
      rw [e] at this
      rw [this, List.map_cons, e]
    · rw [if_neg hc]
      have e : undot c = c := by simp [undot, hc]
      rw [e] at this
      rw [this, List.map_cons, e]

/-- Keep the components that are not empty. -/
def live (l : List (List Byte)) : List (List Byte) := l.filter fun c => decide (c.length > 0)

theorem live_append (a b : List (List Byte)) : live (a ++ b) = live a ++ live b := List.filter_append ..

theorem live_nil_of (b : List (List Byte)) (h : ∀ c ∈ b, c = []) : live b = [] := by
  unfold live
  rw [List.filter_eq_nil_iff]
  intro c hc
  simp [h c hc]

theorem scan_spec (n : Nat) : ∀ (pre rest names : List (List Byte)) (u : Nat), pre.length = n →
    live pre = List.replicate u dd ++ names → (∀ c ∈ names, c ≠ dd) →
    (names = [] → scan (pre ++ rest) n = .ok none) ∧
    (∀ ns x, names = ns ++ [x] → ∃ a b, pre = a ++ x :: b ∧ (∀ y ∈ b, y = []) ∧
      scan (pre ++ rest) n = .ok (some a.length)) := by
  induction n with
  | zero =>
    intro pre rest names u hl hv hn
    have : pre = [] := List.eq_nil_of_length_eq_zero hl
    subst this
    refine ⟨fun _ => rfl, ?_⟩
    intro ns x he
    subst he
    have := congrArg List.length hv
    simp [live] at this
  | succ n ih =>
    intro pre rest names u hl hv hn
    obtain ⟨q, c, rfl⟩ : ∃ q c, pre = q ++ [c] := by
      rcases List.eq_nil_or_concat pre with h | ⟨q, c, h⟩
      · subst h; simp at hl
      · exact ⟨q, c, by simpa using h⟩
    have hql : q.length = n := by simpa using hl
    unfold scan
    rw [rdChk_ok (by simp; omega), Res.bind_ok]
    have hget : (q ++ [c] ++ rest)[n]'(by simp; omega) = c := by
      rw [List.getElem_append_left (by simp; omega), List.getElem_append_right (by omega)]
      simp [hql]
    rw [hget]
    rw [live_append] at hv
    by_cases h0 : c.length > 0
    · have hc1 : live [c] = [c] := by simp [live, h0]
      rw [hc1] at hv
      rcases List.eq_nil_or_concat names with hnil | ⟨ns, x, hns⟩
      · subst hnil
        refine ⟨fun _ => ?_, fun ns x h => by simp at h⟩
        rw [List.append_nil] at hv
        obtain ⟨u', rfl⟩ : ∃ u', u = u' + 1 := by
          cases u with
          | zero => have := congrArg List.length hv; simp at this
          | succ u' => exact ⟨u', rfl⟩
        rw [List.replicate_succ'] at hv
        obtain ⟨e1, e2⟩ := List.append_inj' hv rfl
        have hcd : c = dd := by simpa using e2
        rw [if_neg (by rintro ⟨_, h⟩; exact h hcd)]
        have := (ih q ([c] ++ rest) [] u' hql (by simpa using e1) (by simp)).1 rfl
        rw [← List.append_assoc] at this
        exact this
      · rw [List.concat_eq_append] at hns
        subst hns
        rw [← List.append_assoc] at hv
        obtain ⟨e1, e2⟩ := List.append_inj' hv rfl
        have hcx : c = x := by simpa using e2
        subst hcx
        refine ⟨fun h => by simp at h, ?_⟩
        intro ns' y hy
        obtain ⟨f1, f2⟩ := List.append_inj' hy rfl
        have : c = y := by simpa using f2
        subst this
        have hcd : c ≠ dd := hn c (by simp)
        rw [if_pos ⟨h0, hcd⟩]
        exact ⟨q, [], by simp, by simp, by rw [hql]; rfl⟩
    · have hc0 : c = [] := List.eq_nil_of_length_eq_zero (by omega)
      have hc1 : live [c] = [] := by simp [live, hc0]
      rw [hc1, List.append_nil] at hv
      rw [if_neg (by rintro ⟨h, _⟩; exact h0 h)]
      obtain ⟨i1, i2⟩ := ih q ([c] ++ rest) names u hql hv hn
      rw [← List.append_assoc] at i1 i2
      refine ⟨i1, fun ns x h => ?_⟩
      obtain ⟨a, b, h1, h2, h3⟩ := i2 ns x h
      refine ⟨a, b ++ [c], by simp [h1], ?_, h3⟩
      intro y hy
      rw [List.mem_append] at hy
      rcases hy with hy | hy
      · exact h2 y hy
      · rw [List.mem_singleton.1 hy, hc0]

theorem resolveLoop_spec (rest : List (List Byte)) (hd : ∀ c ∈ rest, c ≠ [46]) :
    ∀ (pre names : List (List Byte)) (u : Nat),
    live pre = List.replicate u dd ++ names → (∀ c ∈ names, c ≠ dd) →
    ∃ out, resolveLoop rest.length (pre ++ rest) = .ok out ∧ out.length = pre.length + rest.length ∧
      live out = List.replicate (rest.foldl follow (u, names)).1 dd ++ (rest.foldl follow (u, names)).2 := by
  induction rest with
  | nil => intro pre names u hv hn; exact ⟨pre, by simp [resolveLoop], by simp, hv⟩
  | cons c rest ih =>
    intro pre names u hv hn
    have ih := ih fun c hc => hd c (by simp [hc])
    have hcdot := hd c (by simp)
    rw [List.length_cons, resolveLoop]
    have hi : (pre ++ c :: rest).length - (rest.length + 1) = pre.length := by simp
    simp only [hi]
    rw [rdChk_ok (by simp), Res.bind_ok]
    simp only [List.getElem_append_right (Nat.le_refl _), Nat.sub_self, List.getElem_cons_zero]
    rw [List.foldl_cons]
    by_cases hc : c = dd
    · rw [if_neg (by intro h; exact h hc)]
      obtain ⟨s1, s2⟩ := scan_spec pre.length pre (c :: rest) names u rfl hv hn
      have hf : follow (u, names) c = (if names = [] then (u + 1, []) else (u, names.dropLast)) := by
        rw [follow, if_neg (by rw [hc]; simp [dd]), if_pos hc]
      rcases List.eq_nil_or_concat names with hnil | ⟨ns, x, hns⟩
      · rw [s1 hnil, Res.bind_ok]
        simp only
        rw [hf, if_pos hnil]
        subst hnil
        obtain ⟨out, o1, o2, o3⟩ := ih (pre ++ [c]) [] (u + 1) (by
          rw [live_append, hv, hc, List.replicate_succ']; simp [live, dd]) (by simp)
        rw [List.append_assoc, List.singleton_append] at o1
        exact ⟨out, o1, by rw [o2]; simp; omega, o3⟩
      · rw [List.concat_eq_append] at hns
        obtain ⟨a, b, h1, h2, h3⟩ := s2 ns x hns
        rw [h3, Res.bind_ok]
        simp only
        subst h1
        rw [wrChk_ok _ (by simp), Res.bind_ok, wrChk_ok _ (by simp), Res.bind_ok]
        have e : ((a ++ x :: b ++ c :: rest).set a.length []).set (a ++ x :: b).length [] =
            (a ++ [] :: b ++ [[]]) ++ rest := by
          rw [List.append_assoc, List.set_append_right (h := Nat.le_refl _), Nat.sub_self,
            List.cons_append, List.set_cons_zero]
          have : a ++ [] :: (b ++ c :: rest) = (a ++ [] :: b) ++ c :: rest := by simp
          rw [this]
          have : (a ++ x :: b).length = (a ++ ([] : List Byte) :: b).length := by simp
          rw [this, List.set_append_right (h := Nat.le_refl _), Nat.sub_self, List.set_cons_zero]
          simp
        rw [e, hf, if_neg (by rw [hns]; simp)]
        have hvl : live (a ++ [] :: b ++ [[]]) = List.replicate u dd ++ names.dropLast := by
          have hb := live_nil_of b h2
          have hxl : live (x :: b) = live [x] ++ live b := live_append [x] b
          have h0l : live (([] : List Byte) :: b) = live b := rfl
          have h00 : live [([] : List Byte)] = [] := rfl
          rw [live_append, hxl, hb, List.append_nil] at hv
          rw [live_append, live_append, h0l, hb, h00, hns, List.append_nil, List.append_nil,
            List.dropLast_concat]
          rw [hns, ← List.append_assoc] at hv
          have hx1 : live [x] = [x] := by
            unfold live
            by_cases hx : x.length > 0
            · simp [hx]
            · exfalso
              have hx0 : live [x] = [] := by simp [live, hx]
              rw [hx0, List.append_nil] at hv
              have : x ∈ live a := by rw [hv]; simp
              unfold live at this
              rw [List.mem_filter] at this
              simp at this
              exact hx (by have := this.2; cases x <;> simp_all)
          rw [hx1] at hv
          exact (List.append_inj' hv rfl).1
        obtain ⟨out, o1, o2, o3⟩ := ih (a ++ [] :: b ++ [[]]) names.dropLast u hvl
          (fun c hc => hn c (List.dropLast_subset _ hc))
        exact ⟨out, o1, by rw [o2]; simp; omega, o3⟩
    · rw [if_pos (show c ≠ [46#8, 46#8] from hc)]
      by_cases h0 : c = []
      · have hf : follow (u, names) c = (u, names) := by rw [follow, if_pos (Or.inl h0)]
        obtain ⟨out, o1, o2, o3⟩ := ih (pre ++ [c]) names u (by
          rw [live_append, hv, h0]; simp [live]) hn
        rw [List.append_assoc, List.singleton_append] at o1
        exact ⟨out, o1, by rw [o2]; simp; omega, by rw [hf]; exact o3⟩
      · have hf : follow (u, names) c = (u, names ++ [c]) := by
          rw [follow, if_neg (by rintro (h | h); exacts [h0 h, hcdot h]), if_neg hc]
        obtain ⟨out, o1, o2, o3⟩ := ih (pre ++ [c]) (names ++ [c]) u (by
          rw [live_append, hv, List.append_assoc]
          congr 2
          simp only [live, List.filter_cons]
          rw [if_pos (by simpa using List.length_pos_iff.2 h0)]
          rfl) (by
          intro d hd
          rw [List.mem_append] at hd
          rcases hd with hd | hd
          · exact hn d hd
          · rw [List.mem_singleton.1 hd]; exact hc)
        rw [List.append_assoc, List.singleton_append] at o1
        exact ⟨out, o1, by rw [o2]; simp; omega, by rw [hf]; exact o3⟩

theorem compactLoop_spec (rest : List (List Byte)) : ∀ (kept junk : List (List Byte)),
    ∃ out, compactLoop rest.length kept.length (kept ++ junk ++ rest) =
      .ok (out, (kept ++ live rest).length) ∧ out.take (kept ++ live rest).length = kept ++ live rest ∧
      (kept ++ live rest).length ≤ out.length := by
  induction rest with
  | nil =>
    intro kept junk
    refine ⟨kept ++ junk, ?_, ?_, ?_⟩ <;> simp [compactLoop, live]
  | cons c rest ih =>
    intro kept junk
    rw [List.length_cons, compactLoop]
    have hi : (kept ++ junk ++ c :: rest).length - (rest.length + 1) = (kept ++ junk).length := by simp; omega
    simp only [hi]
    rw [rdChk_ok (by simp), Res.bind_ok]
    simp only [List.getElem_append_right (Nat.le_refl _), Nat.sub_self, List.getElem_cons_zero]
    by_cases hc : c.length > 0
    · rw [if_pos hc, wrChk_ok _ (by simp; omega), Res.bind_ok]
      have hl : live (c :: rest) = c :: live rest := by simp [live, hc]
      rw [hl]
      have hset : ∃ junk', (kept ++ junk ++ c :: rest).set kept.length c = (kept ++ [c]) ++ junk' ++ rest := by
        cases junk with
        | nil =>
          refine ⟨[], ?_⟩
          rw [List.append_nil, List.set_append_right (h := Nat.le_refl _), Nat.sub_self, List.set_cons_zero]
          simp
        | cons j js =>
          refine ⟨js ++ [c], ?_⟩
          rw [List.append_assoc, List.set_append_right (h := Nat.le_refl _), Nat.sub_self, List.cons_append,
            List.set_cons_zero]
          simp
      obtain ⟨junk', hj⟩ := hset
      rw [hj]
      have := ih (kept ++ [c]) junk'
      simp only [List.length_append, List.length_cons, List.length_nil, List.append_assoc,
        List.singleton_append, Nat.zero_add] at this ⊢
      exact this
    · rw [if_neg hc]
      have hl : live (c :: rest) = live rest := by simp [live, hc]
      rw [hl]
      have := ih kept (junk ++ [c])
      simp only [List.append_assoc, List.singleton_append] at this ⊢
      exact this

theorem skipUps_spec (u : Nat) (names : List (List Byte)) (hn : ∀ c ∈ names, c ≠ dd) :
    ∀ k j, k + j = u → skipUps (List.replicate u dd ++ names) k = .ok u := by
  intro k j
  induction j generalizing k with
  | zero =>
    intro h
    have : k = u := by omega
    subst this
    unfold skipUps
    cases names with
    | nil => simp
    | cons x xs =>
      rw [dif_pos (by simp), rdChk_ok (by simp), Res.bind_ok, List.getElem_append_right (by simp)]
      simp only [List.length_replicate, Nat.sub_self, List.getElem_cons_zero]
      rw [if_pos (show x ≠ [46#8, 46#8] from hn x (by simp))]
      rfl
  | succ j ih =>
    intro h
    unfold skipUps
    rw [dif_pos (by simp; omega), rdChk_ok (by simp; omega), Res.bind_ok,
      List.getElem_append_left (by simp; omega), List.getElem_replicate]
    rw [if_neg (by simp [dd])]
    exact ih (k + 1) (by omega)

theorem follow_undot (st : Nat × List (List Byte)) (c : List Byte) : follow st (undot c) = follow st c := by
  unfold undot
  by_cases h : c = [46]
  · rw [if_pos h, h]; rfl
  · rw [if_neg h]

theorem foldl_undot (cs : List (List Byte)) : ∀ st, (cs.map undot).foldl follow st = cs.foldl follow st := by
  induction cs with
  | nil => intro st; rfl
  | cons c cs ih => intro st; rw [List.map_cons, List.foldl_cons, List.foldl_cons, follow_undot, ih]

theorem follow_names (cs : List (List Byte)) (hs : ∀ c ∈ cs, (47 : Byte) ∉ c) :
    ∀ u ns, (∀ c ∈ ns, IsName c) → ∀ c ∈ (cs.foldl follow (u, ns)).2, IsName c := by
  induction cs with
  | nil => intro u ns h; exact h
  | cons c cs ih =>
    intro u ns h
    rw [List.foldl_cons]
    have ih := ih fun d hd => hs d (by simp [hd])
    rw [follow.eq_def]
    simp only
    split
    · exact ih u ns h
    · rename_i h1
      split
      · split
        · exact ih (u + 1) [] (by simp)
        · exact ih u _ fun d hd => h d (List.dropLast_subset _ hd)
      · rename_i h2
        refine ih u _ fun d hd => ?_
        rw [List.mem_append] at hd
        rcases hd with hd | hd
        · exact h d hd
        · rw [List.mem_singleton.1 hd]
          exact ⟨fun e => h1 (Or.inl e), fun e => h1 (Or.inr e), h2, hs c (by simp)⟩

theorem comps_slashfree (p : List Byte) : ∀ c ∈ comps p, (47 : Byte) ∉ c := by
  induction p with
  | nil => intro c hc; simp [comps] at hc; simp [hc]
  | cons x t ih =>
    intro c hc
    by_cases hx : x = 47
    · rw [comps, if_pos hx] at hc
      rcases List.mem_cons.1 hc with h | h
      · simp [h]
      · exact ih c h
    · obtain ⟨y, ys, h1, h2⟩ := comps_cons_ne hx t
      rw [h2] at hc
      rw [h1] at ih
      rcases List.mem_cons.1 hc with h | h
      · rw [h]
        intro hm
        rcases List.mem_cons.1 hm with h | h
        · exact hx h.symm
        · exact ih y (by simp) h
      · exact ih c (by simp [h])

theorem denote_ok (p : List Byte) : (denote p).Ok where
  names := follow_names _ (comps_slashfree p) 0 [] (by simp)
  root := by intro h; simp only [denote, loc] at h ⊢; rw [if_pos h]

theorem take1_iff (p : List Byte) : (p.length > 0 ∧ p.take 1 = [47#8]) ↔ isAbs p = true := by
  cases p with
  | nil => simp [isAbs]
  | cons c t => simp [isAbs]

/-! ## Theorems -/

/-- **C32.** `pathnorm` always returns, and returns the canonical text of the location of its
argument. -/
theorem pathnorm_spec (junk : Nat → List Byte) (hj : ∀ n, (junk n).length = n) (p : List Byte) :
    pathnorm junk p = .ok (render (denote p)) := by
  unfold pathnorm
  rw [split_comps, Res.bind_ok]
  generalize hcs : (if p = [] then [] else comps p) = cs
  have hfold : cs.foldl follow (0, []) = (comps p).foldl follow (0, []) := by
    rw [← hcs]
    by_cases hp : p = []
    · rw [if_pos hp, hp]; rfl
    · rw [if_neg hp]
  have h1 := dotLoop_spec cs []
  rw [List.nil_append, List.nil_append] at h1
  rw [h1, Res.bind_ok]
  obtain ⟨o1, r1, r2, r3⟩ := resolveLoop_spec (cs.map undot) (by
    intro c hc
    obtain ⟨d, _, rfl⟩ := List.mem_map.1 hc
    unfold undot
    split
    · simp
    · assumption) [] [] 0 rfl (by simp)
  rw [List.nil_append] at r1
  rw [r1, Res.bind_ok]
  rw [foldl_undot, hfold] at r3
  obtain ⟨o2, c1, c2, c3⟩ := compactLoop_spec o1 [] []
  simp only [List.nil_append, List.length_nil] at c1 c2 c3
  rw [c1, Res.bind_ok]
  simp only
  rw [slice_prefix c3, Res.bind_ok, c2, r3]
  have hok := denote_ok p
  generalize hr : (comps p).foldl follow (0, []) = r at r3
  have hden : denote p = ⟨isAbs p, if isAbs p then 0 else r.1, r.2⟩ := by
    unfold denote loc; rw [hr]
  have hnn : ∀ c ∈ r.2, c ≠ dd := by
    intro c hc
    have := hok.names c (by rw [hden]; exact hc)
    exact this.2.2.1
  by_cases ha : isAbs p = true
  · rw [if_pos ((take1_iff p).2 ha), skipUps_spec r.1 r.2 hnn 0 r.1 (by omega), Res.bind_ok,
      slice_suffix (by simp), Res.bind_ok, List.drop_left' (by simp)]
    rw [strjoin_spec junk hj r.2 [47#8], Res.bind_ok, hden]
    simp only [render, ha, ↓reduceIte, List.replicate_zero, List.nil_append]
    rfl
  · rw [if_neg (by rw [take1_iff]; exact ha), hden]
    simp only [render, ha, Bool.false_eq_true, ↓reduceIte]
    by_cases he : List.replicate r.1 dd ++ r.2 = []
    · rw [if_pos (by rw [he]; rfl), if_pos he]; rfl
    · rw [if_neg (by intro h; exact he (List.eq_nil_of_length_eq_zero h)), if_neg he]
      exact strjoin_spec junk hj _ [47#8]

/-- The canonical text of a location leads to that location. -/
theorem denote_render (l : Loc) (h : l.Ok) : denote (render l) = l := by
  obtain ⟨abs, ups, names⟩ := l
  have hn := h.names
  have hr := h.root
  simp only at hn hr
  have hup : ∀ k u, (List.replicate k dd).foldl follow (u, []) = (u + k, []) := by
    intro k
    induction k with
    | zero => intro u; rfl
    | succ k ih =>
      intro u
      rw [List.replicate_succ, List.foldl_cons]
      have : follow (u, []) dd = (u + 1, []) := rfl
      rw [this, ih]
      congr 1
      omega
  have hdn : ∀ (ns : List (List Byte)) u ms, (∀ c ∈ ns, IsName c) → ns.foldl follow (u, ms) = (u, ms ++ ns) := by
    intro ns
    induction ns with
    | nil => intro u ms _; simp
    | cons c ns ih =>
      intro u ms hc
      obtain ⟨c1, c2, c3, _⟩ := hc c (by simp)
      rw [List.foldl_cons]
      have : follow (u, ms) c = (u, ms ++ [c]) := by
        rw [follow, if_neg (by rintro (h | h); exacts [c1 h, c2 h]), if_neg c3]
      rw [this, ih _ _ fun d hd => hc d (by simp [hd])]
      simp
  have hfold : (List.replicate ups dd ++ names).foldl follow (0, []) = (ups, names) := by
    rw [List.foldl_append, hup, hdn _ _ _ hn]
    simp
  have hsl : ∀ c ∈ List.replicate ups dd ++ names, (47 : Byte) ∉ c := by
    intro c hc
    rw [List.mem_append] at hc
    rcases hc with hc | hc
    · rw [(List.mem_replicate.1 hc).2]; decide
    · exact (hn c hc).2.2.2
  have hne : ∀ c ∈ List.replicate ups dd ++ names, c ≠ [] := by
    intro c hc
    rw [List.mem_append] at hc
    rcases hc with hc | hc
    · rw [(List.mem_replicate.1 hc).2]; decide
    · exact (hn c hc).1
  cases abs with
  | true =>
    have hu := hr rfl
    subst hu
    simp only [render, ↓reduceIte, List.replicate_zero, List.nil_append]
    have ha : isAbs (47 :: join [47] names) = true := by simp [isAbs]
    simp only [denote, loc, ha, ↓reduceIte, Loc.mk.injEq, true_and]
    rw [comps, if_pos rfl, List.foldl_cons]
    have : follow (0, []) [] = (0, []) := rfl
    rw [this]
    by_cases hnil : names = []
    · subst hnil; rfl
    · rw [comps_join names hnil fun p hp => (hn p hp).2.2.2, hdn _ _ _ hn]
      simp
  | false =>
    simp only [render, Bool.false_eq_true, ↓reduceIte]
    by_cases hnil : List.replicate ups dd ++ names = []
    · rw [if_pos hnil]
      simp only [List.append_eq_nil_iff, List.replicate_eq_nil_iff] at hnil
      rw [hnil.1, hnil.2]
      decide
    · rw [if_neg hnil]
      generalize List.replicate ups dd ++ names = cs at hnil hfold hsl hne
      have ha : isAbs (join [47] cs) = false := by
        cases cs with
        | nil => exact absurd rfl hnil
        | cons x xs =>
          have hx := hsl x (by simp)
          have hx0 := hne x (by simp)
          cases x with
          | nil => exact absurd rfl hx0
          | cons b bs =>
            have hb : b ≠ 47 := fun e => hx (by simp [e])
            have : (join [47] ((b :: bs) :: xs)).head? = some b := by
              by_cases hxs : xs = []
              · subst hxs; rfl
              · rw [join_cons _ _ hxs]; rfl
            rw [isAbs, this]
            simpa using hb
      simp only [denote, loc, ha, Bool.false_eq_true, ↓reduceIte]
      rw [comps_join cs hnil hsl, hfold]

/-- **C32, same place.** The result leads where the argument leads. -/
theorem pathnorm_same (junk : Nat → List Byte) (hj : ∀ n, (junk n).length = n) (p q : List Byte)
    (h : pathnorm junk p = .ok q) : denote q = denote p := by
  rw [pathnorm_spec junk hj] at h
  rw [← Res.ok.inj h]
  exact denote_render _ (denote_ok p)

/-- **C32, canonical.** Two paths have the same result exactly if they lead to the same
location. -/
theorem pathnorm_eq_iff (junk : Nat → List Byte) (hj : ∀ n, (junk n).length = n) (p q : List Byte) :
    pathnorm junk p = pathnorm junk q ↔ denote p = denote q := by
  rw [pathnorm_spec junk hj, pathnorm_spec junk hj]
  constructor
  · intro h
    have := congrArg denote (Res.ok.inj h)
    rwa [denote_render _ (denote_ok p), denote_render _ (denote_ok q)] at this
  · intro h; rw [h]

/-- **C32, idempotence.** -/
theorem pathnorm_idem (junk : Nat → List Byte) (hj : ∀ n, (junk n).length = n) (p q : List Byte)
    (h : pathnorm junk p = .ok q) : pathnorm junk q = .ok q := by
  rw [← h, pathnorm_eq_iff junk hj]
  exact pathnorm_same junk hj p q h

/-- **C32, shape.** The result is "/", "." or a list of components separated by single slashes
(with one slash before if and only if the argument begins with one): first some "..", none
for an absolute path, then names, which are not empty, ".", or "..". -/
theorem pathnorm_shape (junk : Nat → List Byte) (hj : ∀ n, (junk n).length = n) (p q : List Byte)
    (h : pathnorm junk p = .ok q) :
    isAbs q = isAbs p ∧ ∃ u names, (∀ c ∈ names, IsName c) ∧ (isAbs p = true → u = 0) ∧
      q = (if isAbs p then 47 :: join [47] names
        else if u = 0 ∧ names = [] then [46] else join [47] (List.replicate u dd ++ names)) := by
  have hs := pathnorm_same junk hj p q h
  refine ⟨congrArg Loc.abs hs, (denote p).ups, (denote p).names, (denote_ok p).names, (denote_ok p).root, ?_⟩
  rw [pathnorm_spec junk hj] at h
  rw [← Res.ok.inj h]
  have ha : (denote p).abs = isAbs p := rfl
  simp only [render, ha]
  by_cases hp : isAbs p = true
  · rw [if_pos hp, if_pos hp, (denote_ok p).root hp]; rfl
  · rw [if_neg hp, if_neg hp]
    by_cases h0 : (denote p).ups = 0 ∧ (denote p).names = []
    · rw [if_pos h0, h0.1, h0.2]; rfl
    · rw [if_neg h0, if_neg (by simpa using h0)]

theorem skipEmpty_spec (pre rest : List (List Byte)) (hp : ∀ c ∈ pre, c = [])
    (hr : rest = [] ∨ ∃ x xs, rest = x :: xs ∧ x ≠ []) :
    ∀ j k, k + j = pre.length → skipEmpty (pre ++ rest) k = .ok pre.length := by
  intro j
  induction j with
  | zero =>
    intro k h
    have hk : k = pre.length := by omega
    subst hk
    unfold skipEmpty
    rcases hr with rfl | ⟨x, xs, rfl, hx⟩
    · simp
    · rw [dif_pos (by simp), rdChk_ok (by simp), Res.bind_ok, List.getElem_append_right (by simp)]
      simp only [Nat.sub_self, List.getElem_cons_zero]
      rw [if_pos (by simpa using hx)]
      rfl
  | succ j ih =>
    intro k h
    unfold skipEmpty
    rw [dif_pos (by simp; omega), rdChk_ok (by simp; omega), Res.bind_ok,
      List.getElem_append_left (by omega), hp _ (List.getElem_mem _), if_neg (by simp)]
    exact ih (k + 1) (by omega)

theorem split_lead (l : List (List Byte)) : ∃ pre rest, l = pre ++ rest ∧ (∀ c ∈ pre, c = []) ∧
    (rest = [] ∨ ∃ x xs, rest = x :: xs ∧ x ≠ []) := by
  induction l with
  | nil => exact ⟨[], [], rfl, by simp, Or.inl rfl⟩
  | cons c l ih =>
    by_cases hc : c = []
    · obtain ⟨pre, rest, h1, h2, h3⟩ := ih
      refine ⟨c :: pre, rest, by rw [h1]; rfl, ?_, h3⟩
      intro d hd
      rcases List.mem_cons.1 hd with h | h
      · rw [h, hc]
      · exact h2 d h
    · exact ⟨[], c :: l, rfl, by simp, Or.inr ⟨c, l, rfl, hc⟩⟩

theorem comps_join_flat (ps : List (List Byte)) (h : ps ≠ []) :
    comps (join [47] ps) = (ps.map comps).flatten := by
  induction ps with
  | nil => exact absurd rfl h
  | cons x xs ih =>
    by_cases hx : xs = []
    · subst hx; simp [join]
    · rw [join_cons _ _ hx, List.append_assoc, List.singleton_append, comps_slash, ih hx]; rfl

/-- **C32, joining.** `pathjoin` yields the canonical text of the location reached by
following the components of all elements in turn, from the root if the first non-empty
element is absolute. -/
theorem pathjoin_spec (junk : Nat → List Byte) (hj : ∀ n, (junk n).length = n) (l : List (List Byte)) :
    pathjoin junk l = .ok (render (loc
      (match l.find? (fun c => decide (c ≠ [])) with | some x => isAbs x | none => false)
      (l.map comps).flatten)) := by
  obtain ⟨pre, rest, rfl, h2, h3⟩ := split_lead l
  unfold pathjoin
  rw [skipEmpty_spec pre rest h2 h3 pre.length 0 (by omega), Res.bind_ok, slice_suffix (by simp),
    Res.bind_ok, List.drop_left' rfl, strjoin_spec junk hj rest [47#8], Res.bind_ok,
    pathnorm_spec junk hj]
  congr 2
  have hpre : ∀ (pre : List (List Byte)), (∀ c ∈ pre, c = []) →
      (((pre.map comps).flatten).foldl follow (0, [])) = (0, []) := by
    intro pre
    induction pre with
    | nil => intro _; rfl
    | cons c pre ih =>
      intro h
      rw [h c (by simp)]
      rw [List.map_cons, List.flatten_cons, List.foldl_append]
      exact ih fun d hd => h d (by simp [hd])
  have hfind : ∀ (pre : List (List Byte)), (∀ c ∈ pre, c = []) →
      (pre ++ rest).find? (fun c => decide (c ≠ [])) = rest.find? (fun c => decide (c ≠ [])) := by
    intro pre
    induction pre with
    | nil => intro _; rfl
    | cons c pre ih =>
      intro h
      rw [List.cons_append, List.find?_cons, h c (by simp)]
      exact ih fun d hd => h d (by simp [hd])
  rw [hfind pre h2]
  unfold denote loc
  rw [List.map_append, List.flatten_append, List.foldl_append, hpre pre h2]
  rcases h3 with rfl | ⟨x, xs, rfl, hx⟩
  · rfl
  · have h1 : (x :: xs).find? (fun c => decide (c ≠ [])) = some x := by
      rw [List.find?_cons]; simp [hx]
    have h4 : isAbs (join [47#8] (x :: xs)) = isAbs x := by
      unfold isAbs
      cases x with
      | nil => exact absurd rfl hx
      | cons b bs =>
        by_cases hxs : xs = []
        · subst hxs; rfl
        · rw [join_cons _ _ hxs]; rfl
    rw [h1, h4]
    have := comps_join_flat (x :: xs) (by simp)
    rw [show comps (join [47#8] (x :: xs)) = _ from this]

/-- **C32, absolute paths.** With an absolute working directory `pathabs` gives an absolute
path to the place reached from there. -/
theorem pathabs_spec (junk : Nat → List Byte) (hj : ∀ n, (junk n).length = n) (cwd p : List Byte)
    (hc : isAbs cwd = true) :
    pathabs junk cwd p =
      .ok (render (loc true (if isAbs p then comps p else comps cwd ++ comps p))) := by
  unfold pathabs
  have hiff : p.take 1 = [47#8] ↔ isAbs p = true := by
    cases p with
    | nil => simp [isAbs]
    | cons c t => simp [isAbs]
  by_cases hp : isAbs p = true
  · rw [if_pos (hiff.2 hp), pathnorm_spec junk hj, if_pos hp, denote, hp]
  · rw [if_neg (fun h => hp (hiff.1 h)), if_neg hp]
    have hcne : cwd ≠ [] := by rintro rfl; simp [isAbs] at hc
    have hjn : pathjoin junk [cwd, p] = .ok (render (loc true (comps cwd ++ comps p))) := by
      rw [pathjoin_spec junk hj]
      have : [cwd, p].find? (fun c => decide (c ≠ [])) = some cwd := by
        rw [List.find?_cons]; simp [hcne]
      rw [this]
      simp only [hc]
      simp
    rw [hjn, Res.bind_ok, pathnorm_spec junk hj]
    have hn := pathjoin_spec junk hj [cwd, p]
    have hd : loc true (comps cwd ++ comps p) = denote (cwd ++ 47 :: p) := by
      rw [denote, comps_slash]
      congr 1
      cases cwd with
      | nil => exact absurd rfl hcne
      | cons b bs => simpa [isAbs] using hc
    rw [hd, denote_render _ (denote_ok _)]

/-- "a//b/./../../../c" is "../c", "/../x/" is "/x", and "" is ".". -/
example : pathnorm (fun n => List.replicate n 0)
      [97, 47, 47, 98, 47, 46, 47, 46, 46, 47, 46, 46, 47, 46, 46, 47, 99] =
      .ok [46, 46, 47, 99] ∧
    pathnorm (fun n => List.replicate n 0) [47, 46, 46, 47, 120, 47] = .ok [47, 120] ∧
    pathnorm (fun n => List.replicate n 0) [] = .ok [46] := by decide +kernel

end Verif.Path
