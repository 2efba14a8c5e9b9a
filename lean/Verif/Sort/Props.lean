import Verif.Sort.Lemmas
import Verif.Utf.Props
import Verif.Chartype.Props

/-!
# C09, C10, C57: sorting, searching, comparing
-/

namespace Verif.Sort

/-! ### C09 -/

/-- For any comparison function at all `sort` returns a permutation, without indexing out
of bounds. -/
theorem sort_total {α : Type} (cmp : α → α → Order) (sl : List α) :
    ∃ l, sort cmp sl = .ok l ∧ l.Perm sl := by
  unfold sort heapify
  obtain ⟨l, h1, h2⟩ := heapifyLoop_total (cmp := cmp) (sl.length / 2) sl
  rw [h1, Res.bind_ok]
  by_cases hl : l = []
  · subst hl; exact ⟨[], rfl, h2⟩
  · obtain ⟨l', g1, g2⟩ := sortLoop_total (cmp := cmp) (l.length - 1) l []
      (by have := List.length_pos_iff.2 hl; omega)
    rw [List.append_nil] at g1 g2
    exact ⟨l', g1, g2.trans h2⟩

/-- **C09.**  For every total preorder `sort` returns a nondecreasing permutation. -/
theorem sort_spec {α : Type} (cmp : α → α → Order) (ho : Preorder' cmp) (sl : List α) :
    ∃ l, sort cmp sl = .ok l ∧ l.Perm sl ∧ Nondecreasing cmp l := by
  obtain ⟨l, h1, h2⟩ := sort_total cmp sl
  refine ⟨l, h1, h2, ?_⟩
  unfold sort at h1
  obtain ⟨h, g1, g2, g3⟩ := heapify_heap ho sl
  rw [g1, Res.bind_ok] at h1
  by_cases hl : h = []
  · subst hl
    simp only [List.length_nil, Nat.zero_sub, sortLoop, Res.ok.injEq] at h1
    subst h1; exact List.Pairwise.nil
  · obtain ⟨l', k1, k2⟩ := sortLoop_sorted ho (h.length - 1) h []
      (by have := List.length_pos_iff.2 hl; omega) g3 List.Pairwise.nil (by simp)
    rw [List.append_nil, h1] at k1
    injection k1 with k1
    subst k1; exact k2

/-- `numcmp` is a total preorder, so the theorem applies to it. -/
theorem numcmp_preorder : Preorder' numcmp where
  asymm a b := by
    intro h
    have : a < b := by by_contra hc; unfold numcmp at h; rw [if_neg hc] at h; split at h <;> cases h
    unfold numcmp
    rw [if_neg (by omega)]
    split <;> simp
  trans a b c := by
    intro h1 h2
    have e1 : ¬ a < b := fun h => h1 (by simp [numcmp, h])
    have e2 : ¬ b < c := fun h => h2 (by simp [numcmp, h])
    unfold numcmp
    rw [if_neg (by omega)]
    split <;> simp

example : sort numcmp [3, 1, 2, 1, 5, 4] = .ok [1, 1, 2, 3, 4, 5] := by decide +kernel

/-! ### C10 -/

/-- `lsearch` finds the first element comparing equal. -/
theorem lsearch_spec {α κ : Type} (cmp : α → κ → Order) (sl : List α) (key : κ) :
    ∃ r, lsearch cmp sl key 0 = .ok r ∧ (r = none ↔ ∀ v ∈ sl, cmp v key ≠ .equal) ∧
      ∀ i, r = some i → (∃ v, sl[i]? = some v ∧ cmp v key = .equal) ∧
        ∀ (k : Nat) v, k < i → sl[k]? = some v → cmp v key ≠ .equal := by
  have gen : ∀ (n i : Nat), sl.length - i = n → (∀ (k : Nat) v, k < i → sl[k]? = some v → cmp v key ≠ .equal) →
      ∃ r, lsearch cmp sl key i = .ok r ∧ (r = none ↔ ∀ v ∈ sl, cmp v key ≠ .equal) ∧
      ∀ i, r = some i → (∃ v, sl[i]? = some v ∧ cmp v key = .equal) ∧
        ∀ (k : Nat) v, k < i → sl[k]? = some v → cmp v key ≠ .equal := by
    intro n
    induction n with
    | zero =>
      intro i h hno
      unfold lsearch
      rw [dif_neg (by omega)]
      refine ⟨none, rfl, ?_, by simp⟩
      simp only [true_iff]
      intro v hv
      obtain ⟨k, hk, rfl⟩ := List.getElem_of_mem hv
      exact hno k _ (by omega) (List.getElem?_eq_getElem hk)
    | succ n ih =>
      intro i h hno
      have hi : i < sl.length := by omega
      unfold lsearch
      rw [dif_pos hi, rdChk_ok hi, Res.bind_ok]
      split
      · next he =>
        refine ⟨some i, rfl, ?_, ?_⟩
        · simp only [reduceCtorEq, false_iff]
          intro h; exact h _ (List.getElem_mem hi) he
        · rintro _ ⟨⟩
          exact ⟨⟨_, List.getElem?_eq_getElem hi, he⟩, hno⟩
      · next he =>
        refine ih (i + 1) (by omega) ?_
        intro k v hk hv
        by_cases hki : k = i
        · subst hki
          rw [List.getElem?_eq_getElem hi] at hv
          injection hv with hv; subst hv; exact he
        · exact hno k v (by omega) hv
  exact gen _ 0 rfl (by omega)

/-- The slice is sorted as far as the key can tell (specification): no element before the
key follows one that is not, none after the key precedes one that is not. -/
def SortedFor {α κ : Type} (cmp : α → κ → Order) (sl : List α) (key : κ) : Prop :=
  sl.Pairwise fun a b => (cmp b key = .before → cmp a key = .before) ∧ (cmp a key = .after → cmp b key = .after)

/-- `bsearch` ends on every slice, sorted or not, and reports only matches. -/
theorem bsearch_total {α κ : Type} (cmp : α → κ → Order) (sl : List α) (key : κ) :
    ∃ r, bsearch cmp sl key = .ok r ∧
      ∀ i, r = some i → 0 ≤ i ∧ ∃ v, sl[i.toNat]? = some v ∧ cmp v key = .equal := by
  have gen : ∀ (fuel : Nat) (lo hi : Int), 0 ≤ lo → hi < sl.length → hi - lo + 1 < fuel → 0 < fuel →
      ∃ r, bsearchLoop cmp sl key fuel lo hi = .ok r ∧
      ∀ i, r = some i → 0 ≤ i ∧ ∃ v, sl[i.toNat]? = some v ∧ cmp v key = .equal := by
    intro fuel
    induction fuel with
    | zero => intro lo hi _ _ _ h; omega
    | succ n ih =>
      intro lo hi hlo hhi hf _
      unfold bsearchLoop
      split
      · next h =>
        have hm : (hi + lo).tdiv 2 = (hi + lo) / 2 := Int.tdiv_eq_ediv_of_nonneg (by omega)
        simp only
        rw [hm]
        have hb : ((hi + lo) / 2).toNat < sl.length := by omega
        have hr : rdInt sl ((hi + lo) / 2) = .ok sl[((hi + lo) / 2).toNat] := by
          unfold rdInt
          rw [if_neg (by omega), rdChk_ok hb]
        rw [hr, Res.bind_ok]
        cases hc : cmp sl[((hi + lo) / 2).toNat] key with
        | before => exact ih _ _ (by omega) (by omega) (by omega) (by omega)
        | after => exact ih _ _ (by omega) (by omega) (by omega) (by omega)
        | equal =>
          refine ⟨_, rfl, ?_⟩
          rintro i ⟨⟩
          exact ⟨by omega, _, List.getElem?_eq_getElem hb, hc⟩
      · exact ⟨none, rfl, by simp⟩
  exact gen _ _ _ (by omega) (by omega) (by omega) (by omega)

/-- **C10.**  On a sorted slice `bsearch` is complete. -/
theorem bsearch_spec {α κ : Type} (cmp : α → κ → Order) (sl : List α) (key : κ) (hs : SortedFor cmp sl key) :
    ∃ r, bsearch cmp sl key = .ok r ∧
      (∀ i, r = some i → 0 ≤ i ∧ ∃ v, sl[i.toNat]? = some v ∧ cmp v key = .equal) ∧
      (r = none ↔ ∀ v ∈ sl, cmp v key ≠ .equal) := by
  obtain ⟨r, h1, h2⟩ := bsearch_total cmp sl key
  refine ⟨r, h1, h2, ?_⟩
  have hp := List.pairwise_iff_getElem.1 hs
  have gen : ∀ (fuel : Nat) (lo hi : Int), 0 ≤ lo → hi < sl.length →
      (∀ (i : Nat) (h : i < sl.length), (i : Int) < lo → cmp sl[i] key = .before) →
      (∀ (i : Nat) (h : i < sl.length), hi < i → cmp sl[i] key = .after) →
      bsearchLoop cmp sl key fuel lo hi = .ok none → ∀ v ∈ sl, cmp v key ≠ .equal := by
    intro fuel
    induction fuel with
    | zero => intro lo hi _ _ _ _ h; simp [bsearchLoop] at h
    | succ n ih =>
      intro lo hi hlo hhi hbef haft hn
      unfold bsearchLoop at hn
      split at hn
      · next h =>
        have hm : (hi + lo).tdiv 2 = (hi + lo) / 2 := Int.tdiv_eq_ediv_of_nonneg (by omega)
        simp only at hn
        rw [hm] at hn
        have hb : ((hi + lo) / 2).toNat < sl.length := by omega
        have hr : rdInt sl ((hi + lo) / 2) = .ok sl[((hi + lo) / 2).toNat] := by
          unfold rdInt
          rw [if_neg (by omega), rdChk_ok hb]
        rw [hr, Res.bind_ok] at hn
        cases hc : cmp sl[((hi + lo) / 2).toNat] key with
        | before =>
          rw [hc] at hn
          refine ih _ _ (by omega) (by omega) ?_ haft hn
          intro i hi' hlt
          rcases Nat.lt_or_ge i ((hi + lo) / 2).toNat with h' | h'
          · exact (hp i _ hi' hb h').1 hc
          · have : i = ((hi + lo) / 2).toNat := by omega
            subst this; exact hc
        | after =>
          rw [hc] at hn
          refine ih _ _ (by omega) (by omega) hbef ?_ hn
          intro i hi' hlt
          rcases Nat.lt_or_ge ((hi + lo) / 2).toNat i with h' | h'
          · exact (hp _ i hb hi' h').2 hc
          · have : i = ((hi + lo) / 2).toNat := by omega
            subst this; exact hc
        | equal => rw [hc] at hn; cases hn
      · intro v hv
        obtain ⟨i, hi', rfl⟩ := List.getElem_of_mem hv
        rcases Int.lt_or_le i lo with h' | h'
        · rw [hbef i hi' h']; simp
        · rw [haft i hi' (by omega)]; simp
  constructor
  · rintro rfl
    exact gen _ _ _ (by omega) (by omega) (fun i _ h => by omega) (fun i h h' => by omega) h1
  · intro hno
    cases r with
    | none => rfl
    | some i =>
      obtain ⟨-, v, hv, he⟩ := h2 i rfl
      exact absurd he (hno v (List.mem_of_getElem? hv))

/-- A slice sorted by `numcmp` is sorted for every key. -/
theorem sortedFor_numcmp (sl : List Int) (h : Nondecreasing numcmp sl) (key : Int) :
    SortedFor numcmp sl key := by
  refine h.imp ?_
  intro a b hab
  have e1 : ¬ b < a := fun h => hab (by simp [numcmp, h])
  unfold numcmp
  constructor
  · intro hb
    have : b < key := by by_contra hc; rw [if_neg hc] at hb; split at hb <;> cases hb
    rw [if_pos (by omega)]
  · intro ha
    have : ¬ a < key := by intro hc; rw [if_pos hc] at ha; cases ha
    have h2 : ¬ a = key := by intro hc; rw [if_neg this, if_pos hc] at ha; cases ha
    rw [if_neg (by omega), if_neg (by omega)]

example : bsearch numcmp [1, 3, 5, 7] 7 = .ok (some 3) ∧ bsearch numcmp [1, 3, 5, 7] 4 = .ok none := by
  constructor <;> decide +kernel

/-! ### C57 -/

theorem strcmpLoop_spec (n : Nat) : ∀ (a b : List Byte) (l : Nat), l = min a.length b.length → n ≤ l →
    strcmpLoop a b l n = .ok (
      let o := lex ((a.drop (l - n)).map (·.toNat)) ((b.drop (l - n)).map (·.toNat))
      if (a.drop (l - n)).take n = (b.drop (l - n)).take n then none else some o) := by
  induction n with
  | zero => intro a b l hl _; simp [strcmpLoop]
  | succ n ih =>
    intro a b l hl hn
    unfold strcmpLoop
    have ha : l - (n + 1) < a.length := by omega
    have hb : l - (n + 1) < b.length := by omega
    rw [rdChk_ok ha, Res.bind_ok, rdChk_ok hb, Res.bind_ok]
    have ea := List.drop_eq_getElem_cons ha
    have eb := List.drop_eq_getElem_cons hb
    rw [ea, eb]
    rw [show l - (n + 1) + 1 = l - n by omega]
    generalize a[l - (n + 1)] = x
    generalize b[l - (n + 1)] = y
    simp only [List.map_cons, lex, List.take_succ_cons, List.cons.injEq]
    simp only [← BitVec.lt_def]
    by_cases h1 : x < y
    · have : x ≠ y := fun h => by subst h; exact absurd h1 (by simp)
      simp [h1, this]
    · by_cases h2 : y < x
      · have : x ≠ y := fun h => by subst h; exact absurd h2 (by simp)
        simp [h1, h2, this]
      · have hxy : x = y := by
          rw [BitVec.lt_def] at h1 h2
          exact BitVec.eq_of_toNat_eq (by omega)
        rw [if_neg h1, if_neg h2, ih a b l hl (by omega)]
        simp [h1, h2, hxy]

theorem lex_prefix (a b : List Nat) (h : a.take (min a.length b.length) = b.take (min a.length b.length)) :
    lex a b = if a.length < b.length then .before else if a.length > b.length then .after else .equal := by
  induction a generalizing b with
  | nil => cases b <;> simp [lex]
  | cons x a ih =>
    cases b with
    | nil => simp [lex]
    | cons y b =>
      simp only [List.length_cons, Nat.add_min_add_right, List.take_succ_cons, List.cons.injEq] at h
      obtain ⟨rfl, h⟩ := h
      simp [lex, ih b h]

/-- **C57.**  `strcmp` is the lexicographic byte order. -/
theorem strcmp_spec (a b : List Byte) : strcmp a b = .ok (lex (a.map (·.toNat)) (b.map (·.toNat))) := by
  unfold strcmp
  have e : (if a.length < b.length then a.length else b.length) = min a.length b.length := by
    split <;> omega
  simp only [e]
  rw [strcmpLoop_spec _ a b _ rfl (Nat.le_refl _), Nat.sub_self, Res.bind_ok]
  simp only [List.drop_zero]
  split
  · next o h =>
    split at h
    · cases h
    · injection h with h; rw [h]; rfl
  · next h =>
    split at h
    · next ht =>
      rw [lex_prefix]
      · simp
      · rw [List.length_map, List.length_map, ← List.map_take, ← List.map_take, ht]
    · cases h

example : strcmp [1, 2] [1, 2, 0] = .ok .before ∧ strcmp [1, 200] [1, 100, 0] = .ok .after := by
  constructor <;> decide +kernel

/-- The lexicographic order is a total order: reflexive exactly on equal strings,
antisymmetric by flipping, transitive. -/
theorem lex_equal (a b : List Nat) : lex a b = .equal ↔ a = b := by
  induction a generalizing b with
  | nil => cases b <;> simp [lex]
  | cons x a ih =>
    cases b with
    | nil => simp [lex]
    | cons y b =>
      simp only [lex, List.cons.injEq]
      split
      · simp; omega
      · split
        · simp; omega
        · rw [ih]; constructor
          · intro h; exact ⟨by omega, h⟩
          · exact fun h => h.2

theorem lex_flip (a b : List Nat) : lex b a = (lex a b).flip := by
  induction a generalizing b with
  | nil => cases b <;> rfl
  | cons x a ih =>
    cases b with
    | nil => rfl
    | cons y b =>
      simp only [lex]
      rcases Nat.lt_trichotomy x y with h | h | h
      · rw [if_neg (by omega), if_pos h, if_pos h]; rfl
      · subst h; simp [ih]
      · rw [if_pos h, if_neg (by omega), if_pos h]; rfl

theorem lex_trans (a b c : List Nat) (h1 : lex a b ≠ .after) (h2 : lex b c ≠ .after) : lex a c ≠ .after := by
  induction a generalizing b c with
  | nil => cases c <;> simp [lex]
  | cons x a ih =>
    cases b with
    | nil => simp [lex] at h1
    | cons y b =>
      cases c with
      | nil => simp [lex] at h2
      | cons z c =>
        simp only [lex] at *
        rcases Nat.lt_trichotomy x y with h | h | h
        · rcases Nat.lt_trichotomy y z with h' | h' | h'
          · rw [if_pos (by omega)]; simp
          · rw [if_pos (by omega)]; simp
          · rw [if_neg (by omega), if_pos h'] at h2; exact absurd rfl h2
        · subst h
          rcases Nat.lt_trichotomy x z with h' | h' | h'
          · rw [if_pos (by omega)]; simp
          · subst h'
            simp only [Nat.lt_irrefl, if_false] at *
            exact ih b c h1 h2
          · rw [if_neg (by omega), if_pos h'] at h2; exact absurd rfl h2
        · rw [if_neg (by omega), if_pos h] at h1; exact absurd rfl h1

/-- **C57.**  `strcmp` is a total order on byte strings. -/
theorem strcmp_total_order :
    (∀ a b, strcmp a b = .ok .equal ↔ a = b) ∧
    (∀ a b o, strcmp a b = .ok o → strcmp b a = .ok o.flip) ∧
    (∀ a b c, strcmp a b ≠ .ok .after → strcmp b c ≠ .ok .after → strcmp a c ≠ .ok .after) := by
  have inj : ∀ a b : List Byte, a.map (·.toNat) = b.map (·.toNat) ↔ a = b := by
    intro a b
    refine ⟨fun h => ?_, fun h => by rw [h]⟩
    exact (List.map_inj_right fun x y hxy => BitVec.eq_of_toNat_eq hxy).1 h
  refine ⟨fun a b => ?_, fun a b o h => ?_, fun a b c => ?_⟩
  · rw [strcmp_spec, Res.ok.injEq, lex_equal, inj]
  · rw [strcmp_spec, Res.ok.injEq] at *
    rw [lex_flip, h]
  · simp only [strcmp_spec, ne_eq, Res.ok.injEq]
    exact lex_trans _ _ _

/-- **C57.**  `strncmp` is `strcmp` of the prefixes. -/
theorem strncmp_spec (a b : List Byte) (n : Nat) : strncmp a b n = strcmp (a.take n) (b.take n) := by
  have key : ∀ l : List Byte, slice l 0 (if l.length < n then l.length else n) = .ok (l.take n) := by
    intro l
    rw [slice_prefix (by split <;> omega)]
    split
    · rw [List.take_length, List.take_of_length_le (by omega)]
    · rfl
  unfold strncmp
  rw [key, Res.bind_ok, key, Res.bind_ok]

/-- `toupper` returns on every 32-bit character. -/
theorem toupper_total (c : Nat) : ∃ u, Chartype.toupper c = .ok u := by
  obtain ⟨h1, h2⟩ := Chartype.convert_spec Chartype.rtoupper2 Chartype.rtoupper1 Chartype.sorted_rtoupper2
    Chartype.disj_rtoupper2 (by decide +kernel) Chartype.sorted_rtoupper1 (by decide +kernel) (by decide +kernel) c
  by_cases h : ∃ d, Chartype.Maps Chartype.rtoupper2 c d
  · obtain ⟨d, hd⟩ := h
    exact ⟨_, h1 d hd⟩
  · exact ⟨_, h2 fun d hd => h ⟨d, hd⟩⟩

/-- **C57.**  `strcasecmp` compares the upper-cased character sequences
lexicographically, on arbitrary bytes. -/
theorem strcasecmp_spec (a b : List Byte) (up : Nat → Nat) (hup : ∀ c, Chartype.toupper c = .ok (up c)) :
    ∃ ca cb, Utf.bychar (a.length + 1) a = .ok ca ∧ Utf.bychar (b.length + 1) b = .ok cb ∧
      strcasecmp (a.length + 1) a b =
        .ok (lex (ca.map fun c => up c.toNat) (cb.map fun c => up c.toNat)) := by
  have step : ∀ (fuel : Nat) (s : List Byte), s.length < fuel → ∀ (cs), Utf.bychar fuel s = .ok cs →
      (s = [] ∧ cs = []) ∨ ∃ c m cs', Utf.charstep s = .ok (c, s.drop m) ∧ 1 ≤ m ∧ m ≤ s.length ∧
        cs = c :: cs' ∧ Utf.bychar (fuel - 1) (s.drop m) = .ok cs' := by
    intro fuel s hf cs h
    cases fuel with
    | zero => omega
    | succ n =>
      by_cases hs : s = []
      · subst hs; simp [Utf.bychar] at h; exact Or.inl ⟨rfl, h⟩
      · right
        obtain ⟨c, m, h1, -, h3, h4⟩ := Utf.charstep_total s hs
        unfold Utf.bychar at h
        rw [if_neg (by simpa using hs), h1, Res.bind_ok] at h
        simp only at h
        obtain ⟨cs', g1, g2⟩ := Res.bind_eq_ok.1 h
        simp only [Res.pure_eq, Res.ok.injEq] at g2
        exact ⟨c, m, cs', h1, h3, h4, g2.symm, by simpa using g1⟩
  have gen : ∀ (fuel : Nat) (a b : List Byte) (fa fb : Nat) (ca cb), a.length < fuel → a.length < fa →
      b.length < fb → Utf.bychar fa a = .ok ca → Utf.bychar fb b = .ok cb →
      strcasecmp fuel a b = .ok (lex (ca.map fun c => up c.toNat) (cb.map fun c => up c.toNat)) := by
    intro fuel
    induction fuel with
    | zero => intro a b fa fb ca cb h; omega
    | succ n ih =>
      intro a b fa fb ca cb h hfa hfb ea eb
      unfold strcasecmp
      rcases step fa a hfa ca ea with ⟨rfl, rfl⟩ | ⟨c, m, cs, h1, h3, h4, rfl, h5⟩
      · rw [if_neg (by simp)]
        rcases step fb b hfb cb eb with ⟨rfl, rfl⟩ | ⟨c', m', cs', -, h3', h4', rfl, -⟩
        · rfl
        · rw [if_pos (by simp; omega)]; rfl
      · rcases step fb b hfb cb eb with ⟨rfl, rfl⟩ | ⟨c', m', cs', h1', h3', h4', rfl, h5'⟩
        · rw [if_neg (by simp), if_neg (by simp), if_pos (by simp; omega)]; rfl
        · rw [if_pos (by constructor <;> omega), h1, Res.bind_ok]
          simp only
          rw [h1', Res.bind_ok]
          simp only
          rw [hup, Res.bind_ok, hup, Res.bind_ok]
          simp only [List.map_cons, lex, Res.pure_eq]
          rw [ih (a.drop m) (b.drop m') (fa - 1) (fb - 1) cs cs' (by simp; omega) (by simp; omega)
            (by simp; omega) h5 h5']
          split
          · rfl
          · split <;> rfl
  obtain ⟨ca, e1, -⟩ := Utf.bychar_total a
  obtain ⟨cb, e2, -⟩ := Utf.bychar_total b
  exact ⟨ca, cb, e1, e2, gen _ a b _ _ ca cb (by omega) (by omega) (by omega) e1 e2⟩

/-- "aB" equals "Ab", and is before "ac". -/
example : strcasecmp 9 [97, 66] [65, 98] = .ok .equal ∧ strcasecmp 9 [97, 66] [97, 99] = .ok .before := by
  constructor <;> decide +kernel

end Verif.Sort
