import Verif.Layout.Lemmas

/-!
# C37, C38: layout of aggregates and static data
-/

namespace Verif.Layout

/-! ## Offsets -/

/-- The members of a struct as a list (specification). -/
def Membs.toList : Membs → List (Nat × Ty)
  | .nil => []
  | .cons n t ms => (n, t) :: ms.toList

/-- The elements of a tuple as a list (specification). -/
def Tys.toList : Tys → List Ty
  | .nil => []
  | .cons t ts => t :: ts.toList

/-- The value types of the constructors of a union (specification). -/
def Ucons.toList : Ucons → List Ty
  | .nil => []
  | .bare us => us.toList
  | .cons t us => t :: us.toList

/-- The storage `[off, off + size)` lies in `[lo, hi)` and is aligned for `t` (specification). -/
def Fits (t : Ty) (off lo hi : Nat) : Prop := tyalign t ∣ off ∧ lo ≤ off ∧ off + tysize t ≤ hi

theorem membsAlign_mono : ∀ (ms : Membs) (a b : Nat), a ≤ b → membsAlign a ms ≤ membsAlign b ms
  | .nil, a, b, h => by rw [membsAlign, membsAlign]; exact h
  | .cons _ v ms, a, b, h => by rw [membsAlign, membsAlign]; exact membsAlign_mono ms _ _ (by omega)

theorem tysAlign_mono : ∀ (ts : Tys) (a b : Nat), a ≤ b → tysAlign a ts ≤ tysAlign b ts
  | .nil, a, b, h => by rw [tysAlign, tysAlign]; exact h
  | .cons v ts, a, b, h => by rw [tysAlign, tysAlign]; exact tysAlign_mono ts _ _ (by omega)

theorem struct_fit : ∀ (ms : Membs) (sz : Nat) (i : Nat) (n : Nat) (t : Ty), ms.toList[i]? = some (n, t) →
    (ms.toList.map Prod.fst).Nodup →
    ∃ off, structOffset n sz ms = .ok off ∧ Fits t off sz (membsSize sz ms) ∧ tyalign t ≤ membsAlign 1 ms
  | .nil, sz, i, n, t, h, _ => by simp [Membs.toList] at h
  | .cons m u ms, sz, i, n, t, h, hd => by
    rw [structOffset, membsSize, membsAlign]
    have hu := le_alignto sz u
    have hms := le_membsSize ms (alignto sz u + tysize u)
    simp only [Membs.toList, List.map_cons, List.nodup_cons] at hd
    cases i with
    | zero =>
      simp [Membs.toList] at h
      obtain ⟨rfl, rfl⟩ := h
      refine ⟨alignto sz u, by simp, ⟨alignto_dvd _ _, hu, hms⟩, ?_⟩
      have := le_membsAlign ms (max 1 (min (rawalign u) 8))
      unfold tyalign
      omega
    | succ i =>
      simp only [Membs.toList, List.getElem?_cons_succ] at h
      have hne : n ≠ m := by
        rintro rfl
        exact hd.1 (List.mem_map.mpr ⟨_, List.mem_of_getElem? h, rfl⟩)
      obtain ⟨off, h1, ⟨h2, h3, h4⟩, h5⟩ := struct_fit ms (alignto sz u + tysize u) i n t h hd.2
      exact ⟨off, by simp [hne, h1], ⟨h2, by omega, h4⟩, Nat.le_trans h5 (membsAlign_mono ms _ _ (by omega))⟩

theorem struct_order : ∀ (ms : Membs) (sz : Nat) (i j : Nat) (n m : Nat) (t u : Ty), i < j →
    ms.toList[i]? = some (n, t) → ms.toList[j]? = some (m, u) → (ms.toList.map Prod.fst).Nodup →
    ∀ o p, structOffset n sz ms = .ok o → structOffset m sz ms = .ok p → o + tysize t ≤ p
  | .nil, sz, i, j, n, m, t, u, _, h, _, _ => by simp [Membs.toList] at h
  | .cons k w ms, sz, i, j, n, m, t, u, hij, h, g, hd => by
    intro o p ho hp
    rw [structOffset] at ho hp
    simp only [Membs.toList, List.map_cons, List.nodup_cons] at hd
    obtain ⟨j, rfl⟩ : ∃ j', j = j' + 1 := ⟨j - 1, by omega⟩
    simp only [Membs.toList, List.getElem?_cons_succ] at g
    have hmk : m ≠ k := by
      rintro rfl
      exact hd.1 (List.mem_map.mpr ⟨_, List.mem_of_getElem? g, rfl⟩)
    simp only [hmk, ↓reduceIte] at hp
    cases i with
    | zero =>
      simp [Membs.toList] at h
      obtain ⟨rfl, rfl⟩ := h
      simp at ho
      obtain ⟨off, h1, ⟨h2, h3, h4⟩, h5⟩ := struct_fit ms (alignto sz w + tysize w) j m u g hd.2
      rw [h1] at hp
      injection hp with hp
      omega
    | succ i =>
      simp only [Membs.toList, List.getElem?_cons_succ] at h
      have hnk : n ≠ k := by
        rintro rfl
        exact hd.1 (List.mem_map.mpr ⟨_, List.mem_of_getElem? h, rfl⟩)
      simp only [hnk, ↓reduceIte] at ho
      exact struct_order ms _ i j n m t u (by omega) h g hd.2 o p ho hp

/-- **C37, structs.**  Every member has an offset, aligned for its type (and the alignment of
the struct is a multiple of it), inside the struct; members do not overlap. -/
theorem struct_layout (ms : Membs) (hd : (ms.toList.map Prod.fst).Nodup) :
    (∀ n t, (n, t) ∈ ms.toList → ∃ off, structOffset n 0 ms = .ok off ∧ Fits t off 0 (tysize (.struct ms)) ∧
      tyalign t ∣ tyalign (.struct ms)) ∧
    (∀ (i j n m : Nat) (t u : Ty), i < j → ms.toList[i]? = some (n, t) → ms.toList[j]? = some (m, u) →
      ∀ o p, structOffset n 0 ms = .ok o → structOffset m 0 ms = .ok p → o + tysize t ≤ p) := by
  refine ⟨?_, ?_⟩
  · intro n t h
    obtain ⟨i, hi⟩ := List.getElem?_of_mem h
    obtain ⟨off, h1, ⟨h2, h3, h4⟩, h5⟩ := struct_fit ms 0 i n t hi hd
    refine ⟨off, h1, ⟨h2, h3, ?_⟩, ?_⟩
    · rw [tysize]
      have := le_alignto (membsSize 0 ms) (.struct ms)
      omega
    · apply pow_dvd (tyalign_pow _) (tyalign_pow _)
      unfold tyalign at h5 ⊢
      rw [rawalign]
      omega
  · intro i j n m t u hij h g
    exact struct_order ms 0 i j n m t u hij h g hd

theorem tupget_fit : ∀ (ts : Tys) (sz i : Nat) (t : Ty), ts.toList[i]? = some t →
    ∃ off, tupgetOffset i sz ts = .ok off ∧ Fits t off sz (tysSize sz ts) ∧ tyalign t ≤ tysAlign 1 ts
  | .nil, sz, i, t, h => by simp [Tys.toList] at h
  | .cons u ts, sz, i, t, h => by
    rw [tysSize, tysAlign]
    have hu := le_alignto sz u
    have hms := le_tysSize ts (alignto sz u + tysize u)
    cases i with
    | zero =>
      simp [Tys.toList] at h
      subst h
      refine ⟨alignto sz u, by rw [tupgetOffset], ⟨alignto_dvd _ _, hu, hms⟩, ?_⟩
      have := le_tysAlign ts (max 1 (min (rawalign u) 8))
      unfold tyalign
      omega
    | succ i =>
      simp only [Tys.toList, List.getElem?_cons_succ] at h
      obtain ⟨off, h1, ⟨h2, h3, h4⟩, h5⟩ := tupget_fit ts (alignto sz u + tysize u) i t h
      exact ⟨off, by rw [tupgetOffset, h1], ⟨h2, by omega, h4⟩, Nat.le_trans h5 (tysAlign_mono ts _ _ (by omega))⟩

theorem tupget_order : ∀ (ts : Tys) (sz i j : Nat) (t u : Ty), i < j → ts.toList[i]? = some t → ts.toList[j]? = some u →
    ∀ o p, tupgetOffset i sz ts = .ok o → tupgetOffset j sz ts = .ok p → o + tysize t ≤ p
  | .nil, sz, i, j, t, u, _, h, _ => by simp [Tys.toList] at h
  | .cons w ts, sz, i, j, t, u, hij, h, g => by
    intro o p ho hp
    obtain ⟨j, rfl⟩ : ∃ j', j = j' + 1 := ⟨j - 1, by omega⟩
    simp only [Tys.toList, List.getElem?_cons_succ] at g
    rw [tupgetOffset] at hp
    cases i with
    | zero =>
      simp [Tys.toList] at h
      subst h
      rw [tupgetOffset] at ho
      injection ho with ho
      obtain ⟨off, h1, ⟨h2, h3, h4⟩, h5⟩ := tupget_fit ts (alignto sz w + tysize w) j u g
      rw [h1] at hp
      injection hp with hp
      omega
    | succ i =>
      simp only [Tys.toList, List.getElem?_cons_succ] at h
      rw [tupgetOffset] at ho
      exact tupget_order ts _ i j t u (by omega) h g o p ho hp

theorem tuple_eq_tupget : ∀ (ts : Tys) (t : Ty) (sz i : Nat) (off : Nat), tupgetOffset i sz (.cons t ts) = .ok off →
    tupleOffset i (alignto sz t) (.cons t ts) = .ok off
  | ts, t, sz, 0, off, h => by rw [tupgetOffset] at h; rw [tupleOffset]; exact h
  | .nil, t, sz, i + 1, off, h => by rw [tupgetOffset, tupgetOffset] at h; cases h
  | .cons u ts, t, sz, i + 1, off, h => by
    rw [tupgetOffset] at h
    rw [tupleOffset]
    exact tuple_eq_tupget ts u (alignto sz t + tysize t) i off h

/-- **C37, tuples.**  The same for tuples; the offset used to read and build tuples in
generated code (`tupget`, `simptup`) is that of `tyoffset`. -/
theorem tuple_layout (ts : Tys) :
    (∀ (i : Nat) (t : Ty), ts.toList[i]? = some t → ∃ off, tupgetOffset i 0 ts = .ok off ∧ tupleOffset i 0 ts = .ok off ∧
      Fits t off 0 (tysize (.tuple ts)) ∧ tyalign t ∣ tyalign (.tuple ts)) ∧
    (∀ (i j : Nat) (t u : Ty), i < j → ts.toList[i]? = some t → ts.toList[j]? = some u →
      ∀ o p, tupgetOffset i 0 ts = .ok o → tupgetOffset j 0 ts = .ok p → o + tysize t ≤ p) := by
  refine ⟨?_, ?_⟩
  · intro i t h
    obtain ⟨off, h1, ⟨h2, h3, h4⟩, h5⟩ := tupget_fit ts 0 i t h
    refine ⟨off, h1, ?_, ⟨h2, h3, ?_⟩, ?_⟩
    · match ts, h1 with
      | .cons u ts, h1 =>
        have := tuple_eq_tupget ts u 0 i off h1
        rw [show alignto 0 u = 0 from align_of_dvd 0 _ (Nat.dvd_zero _)] at this
        exact this
    · rw [tysize]
      have := le_alignto (tysSize 0 ts) (.tuple ts)
      omega
    · apply pow_dvd (tyalign_pow _) (tyalign_pow _)
      unfold tyalign at h5 ⊢
      rw [rawalign]
      omega
  · intro i j t u hij h g
    exact tupget_order ts 0 i j t u hij h g

theorem ucon_fit : ∀ (us : Ucons) (sz a : Nat) (t : Ty), t ∈ us.toList →
    tysize t + 4 ≤ uconsSize sz us ∧ tyalign t ≤ uconsAlign a us
  | .nil, sz, a, t, h => by simp [Ucons.toList] at h
  | .bare us, sz, a, t, h => by
    rw [uconsSize, uconsAlign]
    exact ucon_fit us sz a t h
  | .cons u us, sz, a, t, h => by
    rw [uconsSize, uconsAlign]
    simp only [Ucons.toList, List.mem_cons] at h
    rcases h with rfl | h
    · have := le_uconsSize us (max sz (tysize t + 4))
      have := le_uconsAlign us (max a (min (rawalign t) 8))
      unfold tyalign
      omega
    · exact ucon_fit us _ _ t h

/-- **C37, unions.**  The value of a constructor comes after the 4-byte tag, aligned and inside
the union, and the union is aligned for the tag. -/
theorem union_layout (us : Ucons) :
    4 ∣ tyalign (.union us) ∧ 4 ≤ tysize (.union us) ∧
    ∀ t ∈ us.toList, Fits t (uconOffset t) 4 (tysize (.union us)) ∧ tyalign t ∣ tyalign (.union us) := by
  have hu : tyalign (.union us) = min (uconsAlign 4 us) 8 := by unfold tyalign; rw [rawalign]
  have h4 := le_uconsAlign us 4
  have hp := tyalign_pow (.union us)
  have hs := le_align (uconsSize 4 us) (tyalign (.union us))
  refine ⟨?_, ?_, ?_⟩
  · apply pow_dvd (by simp [Pow]) hp; omega
  · rw [tysize]
    have := le_uconsSize us 4
    omega
  · intro t ht
    obtain ⟨h1, h2⟩ := ucon_fit us 4 4 t ht
    have hpt := tyalign_pow t
    have hdv : tyalign t ∣ tyalign (.union us) := by
      apply pow_dvd hpt hp
      have := h2
      have : tyalign t ≤ 8 := by unfold tyalign; omega
      omega
    refine ⟨⟨alignto_dvd _ _, le_alignto _ _, ?_⟩, hdv⟩
    rw [tysize]
    unfold uconOffset
    -- the payload is at 4, or at 8 if it needs alignment 8
    by_cases h8 : tyalign t = 8
    · have e : alignto 4 t = 8 := by unfold alignto; rw [h8]; rfl
      rw [e]
      have h9 : tyalign (.union us) = 8 := by unfold Pow at hp; rw [h8] at hdv; obtain ⟨k, hk⟩ := hdv; omega
      rw [h9] at hs ⊢
      have hd1 : 8 ∣ align (uconsSize 4 us) 8 := align_dvd _ _ (by decide)
      have hd2 : 8 ∣ tysize t := h8 ▸ size_dvd t
      omega
    · have e : alignto 4 t = 4 := by
        unfold alignto
        apply align_of_dvd
        apply pow_dvd hpt (by simp [Pow])
        unfold Pow at hpt; omega
      rw [e]
      omega

/-- **C37, arrays.**  Elements are aligned and inside the array. -/
theorem array_layout (n k : Nat) (t : Ty) (hk : k < n) :
    Fits t (k * tysize t) 0 (tysize (.array (some n) t)) ∧ tyalign (.array (some n) t) = tyalign t := by
  refine ⟨⟨Nat.dvd_trans (size_dvd t) (Nat.dvd_mul_left _ _), Nat.zero_le _, ?_⟩, ?_⟩
  · rw [tysize, ← Nat.succ_mul]
    exact Nat.mul_le_mul_right _ hk
  · unfold tyalign; rw [rawalign]; omega

/-- struct { int8; int64; union { `A; `B int64; `C int8 }; bool }: 0, 8, 16, 32; 40 bytes. -/
def demo : Membs :=
  .cons 0 .int8 (.cons 1 .int64 (.cons 2 (.union (.bare (.cons .int64 (.cons .int8 .nil)))) (.cons 3 .bool .nil)))

example : (demo.toList.map Prod.fst).Nodup ∧ structOffset 2 0 demo = .ok 16 ∧ structOffset 3 0 demo = .ok 32 ∧
    tysize (.struct demo) = 40 := by decide +kernel

/-! ## Static data -/

/-- The elements of an array literal as a list (specification). -/
def AVals.toList : AVals → List (Nat × Ty × Val)
  | .nil => []
  | .cons i t v vs => (i, t, v) :: vs.toList

mutual
/-- The initialiser has the type (specification).  Array literals are only those with no gap of
exactly one element and with the last element given. -/
def HasTy (ty : Ty) : Val → Prop
  | .lit bs => bs.length = tysize ty
  | .tup vs => ∃ ts, base ty = .tuple ts ∧ ts ≠ .nil ∧ HasTys ts vs
  | .struct ms => ∃ ds, base ty = .struct ds ∧ HasMembs ds ms
  | .ucon tag => tag.length = 4 ∧ ∃ us, base ty = .union us
  | .uconv tag t v => tag.length = 4 ∧ (∃ us, base ty = .union us ∧ t ∈ us.toList) ∧ HasTy t v
  | .arr vs => ∃ n t, base ty = .array (some n) t ∧ HasElems t 0 n vs
/-- The elements of a tuple literal have the types. -/
def HasTys : Tys → Vals → Prop
  | .nil, .nil => True
  | .cons t ts, .cons u v vs => u = t ∧ HasTy t v ∧ HasTys ts vs
  | _, _ => False
/-- The members of a struct literal have the types. -/
def HasMembs : Membs → SVals → Prop
  | .nil, .nil => True
  | .cons _ t ds, .skip u ms => u = t ∧ HasMembs ds ms
  | .cons _ t ds, .cons u v ms => u = t ∧ HasTy t v ∧ HasMembs ds ms
  | _, _ => False
/-- The elements have the type, their indices increase from `lo` to `n`, not by exactly two. -/
def HasElems (t : Ty) (lo n : Nat) : AVals → Prop
  | .nil => lo = n
  | .cons i u v vs => lo ≤ i ∧ i ≠ lo + 1 ∧ u = t ∧ HasTy t v ∧ HasElems t (i + 1) n vs
end

theorem pad_ok (a b : Nat) (h : b ≤ a) : pad ((a : Int) - b) = .ok (List.replicate (a - b) 0#8) := by
  unfold pad
  rw [if_neg (by omega)]
  congr 2
  omega

theorem elems_le : ∀ (vs : AVals) (t : Ty) (lo n : Nat), HasElems t lo n vs → lo ≤ n
  | .nil, t, lo, n, h => by rw [HasElems] at h; omega
  | .cons i u v vs, t, lo, n, h => by
    rw [HasElems] at h
    have := elems_le vs t (i + 1) n h.2.2.2.2
    omega

mutual
theorem blobrec_ok : ∀ (v : Val) (ty : Ty), HasTy ty v → ∃ bs, blobrec ty v = .ok bs ∧ bs.length = tysize ty
  | .lit bs, ty, h => by rw [HasTy] at h; exact ⟨bs, by rw [blobrec], h⟩
  | .tup .nil, ty, h => by
    rw [HasTy] at h
    obtain ⟨ts, h1, h2, h3⟩ := h
    cases ts with
    | nil => exact absurd rfl h2
    | cons => rw [HasTys] at h3; exact h3.elim; all_goals simp
  | .tup (.cons t v vs), ty, h => by
    rw [HasTy] at h
    obtain ⟨ts, h1, h2, h3⟩ := h
    obtain ⟨out, g1, g2⟩ := blobtup_ok (.cons t v vs) ts h3 []
    rw [blobrec, g1, Res.bind_ok, pad_ok _ _ (le_alignto _ _), Res.bind_ok]
    refine ⟨_, rfl, ?_⟩
    simp only [List.nil_append, List.length_nil] at g2
    have hs := base_size ty
    have ha := base_align ty
    rw [h1] at hs ha
    rw [tysize] at hs
    have := le_alignto out.length ty
    simp only [List.nil_append, List.length_append, List.length_replicate]
    rw [← hs, ← g2]
    unfold alignto at *
    rw [ha]
    omega
  | .struct ms, ty, h => by
    rw [HasTy] at h
    obtain ⟨ds, h1, h3⟩ := h
    obtain ⟨out, g1, g2⟩ := blobstruct_ok ms ds h3 []
    rw [blobrec, g1, Res.bind_ok, pad_ok _ _ (le_alignto _ _), Res.bind_ok]
    refine ⟨_, rfl, ?_⟩
    simp only [List.nil_append, List.length_nil] at g2
    have hs := base_size ty
    have ha := base_align ty
    rw [h1] at hs ha
    rw [tysize] at hs
    have := le_alignto out.length ty
    simp only [List.nil_append, List.length_append, List.length_replicate]
    rw [← hs, ← g2]
    unfold alignto at *
    rw [ha]
    omega
  | .ucon tag, ty, h => by
    rw [HasTy] at h
    obtain ⟨h1, us, h2⟩ := h
    have hs := base_size ty
    rw [h2] at hs
    have := (union_layout us).2.1
    rw [blobrec, pad_ok _ _ (by omega), Res.bind_ok]
    refine ⟨_, rfl, ?_⟩
    simp only [List.length_append, List.length_replicate]
    omega
  | .uconv tag t v, ty, h => by
    rw [HasTy] at h
    obtain ⟨h1, ⟨us, h2, h3⟩, h4⟩ := h
    obtain ⟨d, g1, g2⟩ := blobrec_ok v t h4
    have hs := base_size ty
    rw [h2] at hs
    obtain ⟨⟨_, _, hf⟩, _⟩ := (union_layout us).2.2 t h3
    have ho : uconOffset t = max 4 (tyalign t) := by
      unfold uconOffset alignto
      have := tyalign_pow t
      unfold Pow at this
      rcases this with e | e | e | e <;> rw [e] <;> rfl
    rw [blobrec]
    have hbs : ∃ bs, uconHead tag t = .ok bs ∧ bs.length = uconOffset t := by
      unfold uconHead
      split
      · rw [pad_ok _ _ (by omega), Res.bind_ok]
        refine ⟨_, rfl, ?_⟩
        simp only [List.length_append, List.length_replicate]; omega
      · exact ⟨_, rfl, by omega⟩
    obtain ⟨bs, e1, e2⟩ := hbs
    rw [e1, Res.bind_ok, g1, Res.bind_ok]
    simp only
    rw [pad_ok _ _ (by simp only [List.length_append]; omega), Res.bind_ok]
    refine ⟨_, rfl, ?_⟩
    simp only [List.length_append, List.length_replicate]; omega
  | .arr .nil, ty, h => by
    rw [HasTy] at h
    obtain ⟨n, t, h1, h2⟩ := h
    rw [HasElems] at h2
    have hs := base_size ty
    rw [h1, tysize, ← h2] at hs
    exact ⟨[], by rw [blobrec], by simp; omega⟩
  | .arr (.cons i u v vs), ty, h => by
    rw [HasTy] at h
    obtain ⟨n, t, h1, h2⟩ := h
    obtain ⟨out, g1, g2⟩ := blobarr_ok (.cons i u v vs) t 0 n h2 []
    have hs := base_size ty
    have ha := size_dvd ty
    rw [h1] at hs
    rw [tysize] at hs
    simp only [List.nil_append, Nat.sub_zero] at g1 g2
    have e : alignto out.length ty = out.length := by
      unfold alignto; apply align_of_dvd; rw [g2, hs]; exact ha
    rw [blobrec, g1, Res.bind_ok, pad_ok _ _ (le_alignto _ _), Res.bind_ok, e]
    exact ⟨_, rfl, by simp; omega⟩
theorem blobtup_ok : ∀ (vs : Vals) (ts : Tys), HasTys ts vs → ∀ bs, ∃ out, blobtup bs vs = .ok (bs ++ out) ∧
    (bs ++ out).length = tysSize bs.length ts
  | .nil, .nil, _, bs => ⟨[], by rw [blobtup, List.append_nil], by rw [tysSize, List.append_nil]⟩
  | .nil, .cons _ _, h, _ => by rw [HasTys] at h; exact h.elim; all_goals simp
  | .cons _ _ _, .nil, h, _ => by rw [HasTys] at h; exact h.elim; all_goals simp
  | .cons u v vs, .cons t ts, h, bs => by
    rw [HasTys] at h
    obtain ⟨rfl, h1, h2⟩ := h
    obtain ⟨d, g1, g2⟩ := blobrec_ok v u h1
    obtain ⟨out, g3, g4⟩ := blobtup_ok vs ts h2 (bs ++ List.replicate (alignto bs.length u - bs.length) 0#8 ++ d)
    rw [blobtup, pad_ok _ _ (le_alignto _ _), Res.bind_ok, g1, Res.bind_ok, g3]
    refine ⟨List.replicate (alignto bs.length u - bs.length) 0#8 ++ d ++ out, by simp only [List.append_assoc], ?_⟩
    have := le_alignto bs.length u
    have e : (bs ++ List.replicate (alignto bs.length u - bs.length) 0#8 ++ d).length = alignto bs.length u + tysize u := by
      simp only [List.length_append, List.length_replicate]; omega
    rw [e] at g4
    rw [tysSize, ← g4]
    simp only [List.append_assoc]
theorem blobstruct_ok : ∀ (ms : SVals) (ds : Membs), HasMembs ds ms → ∀ bs, ∃ out, blobstruct bs ms = .ok (bs ++ out) ∧
    (bs ++ out).length = membsSize bs.length ds
  | .nil, .nil, _, bs => ⟨[], by rw [blobstruct, List.append_nil], by rw [membsSize, List.append_nil]⟩
  | .nil, .cons _ _ _, h, _ => by rw [HasMembs] at h; exact h.elim; all_goals simp
  | .skip _ _, .nil, h, _ => by rw [HasMembs] at h; exact h.elim; all_goals simp
  | .cons _ _ _, .nil, h, _ => by rw [HasMembs] at h; exact h.elim; all_goals simp
  | .skip u ms, .cons _ t ds, h, bs => by
    rw [HasMembs] at h
    obtain ⟨rfl, h2⟩ := h
    obtain ⟨out, g3, g4⟩ := blobstruct_ok ms ds h2
      (bs ++ List.replicate (alignto bs.length u - bs.length) 0#8 ++ List.replicate (tysize u) 0#8)
    have e0 : pad (tysize u : Int) = .ok (List.replicate (tysize u) 0#8) := by
      have := pad_ok (tysize u) 0 (by omega)
      simpa using this
    rw [blobstruct, pad_ok _ _ (le_alignto _ _), Res.bind_ok, e0, Res.bind_ok, g3]
    refine ⟨List.replicate (alignto bs.length u - bs.length) 0#8 ++ List.replicate (tysize u) 0#8 ++ out,
      by simp only [List.append_assoc], ?_⟩
    have := le_alignto bs.length u
    have e : (bs ++ List.replicate (alignto bs.length u - bs.length) 0#8 ++ List.replicate (tysize u) 0#8).length =
        alignto bs.length u + tysize u := by
      simp only [List.length_append, List.length_replicate]; omega
    rw [e] at g4
    rw [membsSize, ← g4]
    simp only [List.append_assoc]
  | .cons u v ms, .cons _ t ds, h, bs => by
    rw [HasMembs] at h
    obtain ⟨rfl, h1, h2⟩ := h
    obtain ⟨d, g1, g2⟩ := blobrec_ok v u h1
    obtain ⟨out, g3, g4⟩ := blobstruct_ok ms ds h2 (bs ++ List.replicate (alignto bs.length u - bs.length) 0#8 ++ d)
    rw [blobstruct, pad_ok _ _ (le_alignto _ _), Res.bind_ok, g1, Res.bind_ok, g3]
    refine ⟨List.replicate (alignto bs.length u - bs.length) 0#8 ++ d ++ out, by simp only [List.append_assoc], ?_⟩
    have := le_alignto bs.length u
    have e : (bs ++ List.replicate (alignto bs.length u - bs.length) 0#8 ++ d).length = alignto bs.length u + tysize u := by
      simp only [List.length_append, List.length_replicate]; omega
    rw [e] at g4
    rw [membsSize, ← g4]
    simp only [List.append_assoc]
theorem blobarr_ok : ∀ (vs : AVals) (t : Ty) (lo n : Nat), HasElems t lo n vs → ∀ bs, ∃ out,
    blobarr bs lo vs = .ok (bs ++ out) ∧ out.length = (n - lo) * tysize t
  | .nil, t, lo, n, h, bs => by
    rw [HasElems] at h
    exact ⟨[], by rw [blobarr, List.append_nil], by simp [h]⟩
  | .cons i u v vs, t, lo, n, h, bs => by
    rw [HasElems] at h
    obtain ⟨h1, h2, rfl, h3, h4⟩ := h
    obtain ⟨d, g1, g2⟩ := blobrec_ok v u h3
    have hle := elems_le vs u (i + 1) n h4
    have e0 : pad (((i : Int) - lo) * tysize u) = .ok (List.replicate ((i - lo) * tysize u) 0#8) := by
      have := pad_ok ((i - lo) * tysize u) 0 (by omega)
      rw [Nat.sub_zero] at this
      rw [← this]
      congr 1
      push_cast
      rw [Int.sub_zero, Int.ofNat_sub h1]
    obtain ⟨out, g3, g4⟩ := blobarr_ok vs u (i + 1) n h4 (bs ++ List.replicate ((i - lo) * tysize u) 0#8 ++ d)
    rw [blobarr, if_pos h2, e0, Res.bind_ok]
    beta_reduce
    rw [g1, Res.bind_ok, g3]
    refine ⟨List.replicate ((i - lo) * tysize u) 0#8 ++ d ++ out, by simp only [List.append_assoc], ?_⟩
    simp only [List.length_append, List.length_replicate, g2, g4]
    have : n - lo = (i - lo) + 1 + (n - (i + 1)) := by omega
    rw [this, Nat.add_mul, Nat.add_mul, Nat.one_mul]
end

/-- The bytes `d` are found at offset `off` of `bs` (specification). -/
def At (bs : List Byte) (off : Nat) (d : List Byte) : Prop := ∃ p q, bs = p ++ d ++ q ∧ p.length = off

/-- The elements of a tuple literal as a list (specification). -/
def Vals.toList : Vals → List (Ty × Val)
  | .nil => []
  | .cons t v vs => (t, v) :: vs.toList

/-- The members of a struct literal as a list, `none` for those not given (specification). -/
def SVals.toList : SVals → List (Ty × Option Val)
  | .nil => []
  | .skip t vs => (t, none) :: vs.toList
  | .cons t v vs => (t, some v) :: vs.toList

theorem tup_at : ∀ (vs : Vals) (ts : Tys), HasTys ts vs → ∀ bs full, blobtup bs vs = .ok full →
    ∀ (i : Nat) (t : Ty) (v : Val), vs.toList[i]? = some (t, v) →
    ∃ off d, tupgetOffset i bs.length ts = .ok off ∧ blobrec t v = .ok d ∧ At full off d
  | .nil, ts, h, bs, full, hf, i, t, v, hi => by simp [Vals.toList] at hi
  | .cons _ _ _, .nil, h, _, _, _, _, _, _, _ => by rw [HasTys] at h; exact h.elim; all_goals simp
  | .cons u w vs, .cons t' ts, h, bs, full, hf, i, t, v, hi => by
    rw [HasTys] at h
    obtain ⟨rfl, h1, h2⟩ := h
    obtain ⟨d, g1, g2⟩ := blobrec_ok w u h1
    have := le_alignto bs.length u
    have e : (bs ++ List.replicate (alignto bs.length u - bs.length) 0#8 ++ d).length = alignto bs.length u + tysize u := by
      simp only [List.length_append, List.length_replicate]; omega
    rw [blobtup, pad_ok _ _ (le_alignto _ _), Res.bind_ok, g1, Res.bind_ok] at hf
    cases i with
    | zero =>
      simp [Vals.toList] at hi
      obtain ⟨rfl, rfl⟩ := hi
      obtain ⟨out, g3, _⟩ := blobtup_ok vs ts h2 (bs ++ List.replicate (alignto bs.length u - bs.length) 0#8 ++ d)
      rw [g3] at hf
      injection hf with hf
      refine ⟨alignto bs.length u, d, by rw [tupgetOffset], g1, _, out, hf.symm, ?_⟩
      simp only [List.length_append, List.length_replicate]; omega
    | succ i =>
      simp only [Vals.toList, List.getElem?_cons_succ] at hi
      have := tup_at vs ts h2 _ full hf i t v hi
      rw [e] at this
      rw [tupgetOffset]
      exact this

/-- `d` is what a member of type `t` holds: its value if given, zeros if not (specification). -/
def MembData (t : Ty) (d : List Byte) : Option Val → Prop
  | some v => blobrec t v = .ok d
  | none => d = List.replicate (tysize t) 0#8

theorem struct_at : ∀ (vs : SVals) (ds : Membs), HasMembs ds vs → (ds.toList.map Prod.fst).Nodup →
    ∀ bs full, blobstruct bs vs = .ok full →
    ∀ (i : Nat) (n : Nat) (t t' : Ty) (ov : Option Val), ds.toList[i]? = some (n, t) → vs.toList[i]? = some (t', ov) →
    ∃ off d, structOffset n bs.length ds = .ok off ∧ At full off d ∧
      MembData t d ov
  | .nil, ds, h, _, bs, full, hf, i, n, t, t', v, _, hi => by simp [SVals.toList] at hi
  | .cons _ _ _, .nil, h, _, _, _, _, _, _, _, _, _, _, _ => by rw [HasMembs] at h; exact h.elim; all_goals simp
  | .skip _ _, .nil, h, _, _, _, _, _, _, _, _, _, _, _ => by rw [HasMembs] at h; exact h.elim; all_goals simp
  | .cons u w vs, .cons m s ds, h, hd, bs, full, hf, i, n, t, t', ov, hn, hi => by
    rw [HasMembs] at h
    obtain ⟨rfl, h1, h2⟩ := h
    simp only [Membs.toList, List.map_cons, List.nodup_cons] at hd
    obtain ⟨d, g1, g2⟩ := blobrec_ok w u h1
    have := le_alignto bs.length u
    have e : (bs ++ List.replicate (alignto bs.length u - bs.length) 0#8 ++ d).length = alignto bs.length u + tysize u := by
      simp only [List.length_append, List.length_replicate]; omega
    rw [blobstruct, pad_ok _ _ (le_alignto _ _), Res.bind_ok, g1, Res.bind_ok] at hf
    cases i with
    | zero =>
      simp [SVals.toList, Membs.toList] at hi hn
      obtain ⟨rfl, rfl⟩ := hi
      obtain ⟨rfl, rfl⟩ := hn
      obtain ⟨out, g3, _⟩ := blobstruct_ok vs ds h2 (bs ++ List.replicate (alignto bs.length u - bs.length) 0#8 ++ d)
      rw [g3] at hf
      injection hf with hf
      refine ⟨alignto bs.length u, d, by simp [structOffset], ⟨_, out, hf.symm, ?_⟩, g1⟩
      simp only [List.length_append, List.length_replicate]; omega
    | succ i =>
      simp only [SVals.toList, Membs.toList, List.getElem?_cons_succ] at hi hn
      have hnm : n ≠ m := by
        rintro rfl
        exact hd.1 (List.mem_map.mpr ⟨_, List.mem_of_getElem? hn, rfl⟩)
      have := struct_at vs ds h2 hd.2 _ full hf i n t t' ov hn hi
      rw [e] at this
      rw [structOffset]
      simpa [hnm] using this
  | .skip u vs, .cons m s ds, h, hd, bs, full, hf, i, n, t, t', ov, hn, hi => by
    rw [HasMembs] at h
    obtain ⟨rfl, h2⟩ := h
    simp only [Membs.toList, List.map_cons, List.nodup_cons] at hd
    have e0 : pad (tysize u : Int) = .ok (List.replicate (tysize u) 0#8) := by
      have := pad_ok (tysize u) 0 (by omega)
      simpa using this
    have := le_alignto bs.length u
    have e : (bs ++ List.replicate (alignto bs.length u - bs.length) 0#8 ++ List.replicate (tysize u) 0#8).length =
        alignto bs.length u + tysize u := by
      simp only [List.length_append, List.length_replicate]; omega
    rw [blobstruct, pad_ok _ _ (le_alignto _ _), Res.bind_ok, e0, Res.bind_ok] at hf
    cases i with
    | zero =>
      simp [SVals.toList, Membs.toList] at hi hn
      obtain ⟨rfl, rfl⟩ := hi
      obtain ⟨rfl, rfl⟩ := hn
      obtain ⟨out, g3, _⟩ := blobstruct_ok vs ds h2
        (bs ++ List.replicate (alignto bs.length u - bs.length) 0#8 ++ List.replicate (tysize u) 0#8)
      rw [g3] at hf
      injection hf with hf
      refine ⟨alignto bs.length u, _, by simp [structOffset], ⟨_, out, hf.symm, ?_⟩, rfl⟩
      simp only [List.length_append, List.length_replicate]; omega
    | succ i =>
      simp only [SVals.toList, Membs.toList, List.getElem?_cons_succ] at hi hn
      have hnm : n ≠ m := by
        rintro rfl
        exact hd.1 (List.mem_map.mpr ⟨_, List.mem_of_getElem? hn, rfl⟩)
      have := struct_at vs ds h2 hd.2 _ full hf i n t t' ov hn hi
      rw [e] at this
      rw [structOffset]
      simpa [hnm] using this

theorem At.mono {bs d : List Byte} {off : Nat} (q : List Byte) (h : At bs off d) : At (bs ++ q) off d := by
  obtain ⟨p, r, h1, h2⟩ := h
  exact ⟨p, r ++ q, by rw [h1]; simp only [List.append_assoc], h2⟩

/-- **C37/C38, static data.**  The bytes emitted for an initialiser are as many as the size of
its type. -/
theorem static_size (ty : Ty) (v : Val) (h : HasTy ty v) :
    ∃ bs, blobrec ty v = .ok bs ∧ bs.length = tysize ty := blobrec_ok v ty h

/-- **C37, static tuples**: each element of the literal is at the offset at which code reads it. -/
theorem static_tuple (ty : Ty) (ts : Tys) (vs : Vals) (hb : base ty = .tuple ts) (h : HasTy ty (.tup vs))
    (i : Nat) (t : Ty) (v : Val) (hi : vs.toList[i]? = some (t, v)) :
    ∃ bs off d, blobrec ty (.tup vs) = .ok bs ∧ tupgetOffset i 0 ts = .ok off ∧ blobrec t v = .ok d ∧ At bs off d := by
  obtain ⟨bs, h1, _⟩ := blobrec_ok _ _ h
  rw [HasTy] at h
  obtain ⟨ts', hb', _, hs⟩ := h
  rw [hb] at hb'
  injection hb' with hb'
  subst hb'
  cases vs with
  | nil => simp [Vals.toList] at hi
  | cons u w vs =>
    obtain ⟨out, g1, _⟩ := blobtup_ok (.cons u w vs) ts hs []
    obtain ⟨off, d, k1, k2, k3⟩ := tup_at _ ts hs [] _ g1 i t v hi
    refine ⟨bs, off, d, h1, k1, k2, ?_⟩
    rw [blobrec, g1, Res.bind_ok, pad_ok _ _ (le_alignto _ _), Res.bind_ok] at h1
    injection h1 with h1
    rw [← h1]
    exact k3.mono _

/-- **C37, static structs**: each member given is at the offset at which code reads it, each
member not given is zero. -/
theorem static_struct (ty : Ty) (ds : Membs) (vs : SVals) (hb : base ty = .struct ds) (h : HasTy ty (.struct vs))
    (hd : (ds.toList.map Prod.fst).Nodup)
    (i : Nat) (n : Nat) (t t' : Ty) (ov : Option Val) (hn : ds.toList[i]? = some (n, t))
    (hi : vs.toList[i]? = some (t', ov)) :
    ∃ bs off d, blobrec ty (.struct vs) = .ok bs ∧ structOffset n 0 ds = .ok off ∧ At bs off d ∧
      MembData t d ov := by
  obtain ⟨bs, h1, _⟩ := blobrec_ok _ _ h
  rw [HasTy] at h
  obtain ⟨ds', hb', hs⟩ := h
  rw [hb] at hb'
  injection hb' with hb'
  subst hb'
  obtain ⟨out, g1, _⟩ := blobstruct_ok vs ds hs []
  obtain ⟨off, d, k1, k2, k3⟩ := struct_at _ ds hs hd [] _ g1 i n t t' ov hn hi
  refine ⟨bs, off, d, h1, k1, ?_, k3⟩
  rw [blobrec, g1, Res.bind_ok, pad_ok _ _ (le_alignto _ _), Res.bind_ok] at h1
  injection h1 with h1
  rw [← h1]
  exact k2.mono _

/-- **C37, static unions**: the tag comes first and the value is where code reads it. -/
theorem static_union (ty : Ty) (tag : List Byte) (t : Ty) (v : Val) (h : HasTy ty (.uconv tag t v)) :
    ∃ bs d, blobrec ty (.uconv tag t v) = .ok bs ∧ blobrec t v = .ok d ∧ At bs 0 tag ∧ At bs (uconOffset t) d := by
  obtain ⟨bs, h1, _⟩ := blobrec_ok _ _ h
  rw [HasTy] at h
  obtain ⟨ht, ⟨us, h2, h3⟩, h4⟩ := h
  obtain ⟨d, g1, g2⟩ := blobrec_ok v t h4
  have ho : uconOffset t = max 4 (tyalign t) := by
    unfold uconOffset alignto
    have := tyalign_pow t
    unfold Pow at this
    rcases this with e | e | e | e <;> rw [e] <;> rfl
  have hbs : ∃ p, uconHead tag t = .ok (tag ++ p) ∧ (tag ++ p).length = uconOffset t := by
    unfold uconHead
    split
    · rw [pad_ok _ _ (by omega), Res.bind_ok]
      refine ⟨_, rfl, ?_⟩
      simp only [List.length_append, List.length_replicate]; omega
    · exact ⟨[], by simp, by simp; omega⟩
  obtain ⟨p, e1, e2⟩ := hbs
  refine ⟨bs, d, h1, g1, ?_⟩
  rw [blobrec, e1, Res.bind_ok, g1, Res.bind_ok] at h1
  simp only at h1
  have hs := base_size ty
  rw [h2] at hs
  obtain ⟨⟨_, _, hf⟩, _⟩ := (union_layout us).2.2 t h3
  rw [pad_ok _ _ (by simp only [List.length_append] at e2 ⊢; omega), Res.bind_ok] at h1
  injection h1 with h1
  rw [← h1]
  generalize List.replicate _ 0#8 = r
  exact ⟨⟨[], p ++ d ++ r, by simp only [List.nil_append, List.append_assoc], rfl⟩, ⟨tag ++ p, r, rfl, e2⟩⟩

/-! ### C38: array initialisers -/

/-- The elements have the type and their indices increase from `lo` below `n` (specification). -/
def Elems (t : Ty) (lo n : Nat) : AVals → Prop
  | .nil => lo ≤ n
  | .cons i u v vs => lo ≤ i ∧ u = t ∧ HasTy t v ∧ Elems t (i + 1) n vs

/-- `bs` is an array of `n` elements from `lo` on, each given one its value and each other one
zero (specification). -/
def Filled (t : Ty) (lo n : Nat) (vs : AVals) (bs : List Byte) : Prop :=
  ∃ cs : List (List Byte), bs = cs.flatten ∧ cs.length = n - lo ∧
    ∀ (k : Nat) (c : List Byte), cs[k]? = some c →
      (∃ v, (lo + k, t, v) ∈ vs.toList ∧ blobrec t v = .ok c) ∨
      ((∀ v, (lo + k, t, v) ∉ vs.toList) ∧ c = List.replicate (tysize t) 0#8)

/-- C38 at full strength for array literals with literal indices. -/
def ArrayInitFull : Prop := ∀ (n : Nat) (t : Ty) (vs : AVals), Elems t 0 n vs →
  ∃ bs, blobrec (.array (some n) t) (.arr vs) = .ok bs ∧ Filled t 0 n vs bs

theorem elems_ge : ∀ (vs : AVals) (t : Ty) (lo n : Nat), HasElems t lo n vs → ∀ i u v, (i, u, v) ∈ vs.toList → lo ≤ i
  | .nil, t, lo, n, h => by simp [AVals.toList]
  | .cons j w x vs, t, lo, n, h => by
    rw [HasElems] at h
    intro i u v hm
    simp only [AVals.toList, List.mem_cons, Prod.mk.injEq] at hm
    rcases hm with ⟨rfl, _⟩ | hm
    · exact h.1
    · have := elems_ge vs t (j + 1) n h.2.2.2.2 i u v hm
      omega

theorem arr_filled : ∀ (vs : AVals) (t : Ty) (lo n : Nat), HasElems t lo n vs → ∀ bs, ∃ out,
    blobarr bs lo vs = .ok (bs ++ out) ∧ Filled t lo n vs out
  | .nil, t, lo, n, h, bs => by
    rw [HasElems] at h
    exact ⟨[], by rw [blobarr, List.append_nil], [], rfl, by simp [h], by simp⟩
  | .cons i u v vs, t, lo, n, h, bs => by
    rw [HasElems] at h
    obtain ⟨h1, h2, rfl, h3, h4⟩ := h
    obtain ⟨d, g1, g2⟩ := blobrec_ok v u h3
    have hle := elems_le vs u (i + 1) n h4
    have e0 : pad (((i : Int) - lo) * tysize u) = .ok (List.replicate ((i - lo) * tysize u) 0#8) := by
      have := pad_ok ((i - lo) * tysize u) 0 (by omega)
      rw [Nat.sub_zero] at this
      rw [← this]
      congr 1
      push_cast
      rw [Int.sub_zero, Int.ofNat_sub h1]
    obtain ⟨out, g3, cs, k1, k2, k3⟩ := arr_filled vs u (i + 1) n h4 (bs ++ List.replicate ((i - lo) * tysize u) 0#8 ++ d)
    rw [blobarr, if_pos h2, e0, Res.bind_ok]
    beta_reduce
    rw [g1, Res.bind_ok, g3]
    refine ⟨List.replicate ((i - lo) * tysize u) 0#8 ++ d ++ out, by simp only [List.append_assoc],
      List.replicate (i - lo) (List.replicate (tysize u) 0#8) ++ d :: cs, ?_, ?_, ?_⟩
    · rw [k1]; simp
    · simp only [List.length_append, List.length_replicate, List.length_cons]; omega
    · intro k c hk
      by_cases hlt : k < i - lo
      · rw [List.getElem?_append_left (by simpa using hlt)] at hk
        right
        rw [List.getElem?_replicate, if_pos hlt] at hk
        injection hk with hk
        refine ⟨?_, hk.symm⟩
        intro w hm
        simp only [AVals.toList, List.mem_cons, Prod.mk.injEq] at hm
        rcases hm with ⟨hm, _⟩ | hm
        · omega
        · have := elems_ge vs u (i + 1) n h4 _ _ _ hm; omega
      · rw [List.getElem?_append_right (by simpa using hlt), List.length_replicate] at hk
        by_cases heq : k = i - lo
        · subst heq
          simp at hk
          subst hk
          left
          have e : lo + (i - lo) = i := by omega
          exact ⟨v, by rw [e]; simp [AVals.toList], g1⟩
        · obtain ⟨k', rfl⟩ : ∃ k', k = (i - lo) + 1 + k' := ⟨k - (i - lo) - 1, by omega⟩
          rw [show (i - lo) + 1 + k' - (i - lo) = k' + 1 by omega, List.getElem?_cons_succ] at hk
          have e : lo + (i - lo + 1 + k') = i + 1 + k' := by omega
          rw [e]
          rcases k3 k' c hk with ⟨w, hm, hw⟩ | ⟨hm, hw⟩
          · left; exact ⟨w, by simp [AVals.toList, hm], hw⟩
          · right
            refine ⟨?_, hw⟩
            intro w hm'
            simp only [AVals.toList, List.mem_cons, Prod.mk.injEq] at hm'
            rcases hm' with ⟨hm', _⟩ | hm'
            · omega
            · exact hm w hm'

/-- **C38 (partial).**  An array literal that gives its last element and does not skip exactly
one element after the start or after another element is laid out right.  Missing: literals with
a gap of one element, or which leave out the last elements; those are laid out wrongly
(`array_init_violated`). -/
theorem array_init_partial (n : Nat) (t : Ty) (vs : AVals) (h : HasElems t 0 n vs) :
    ∃ bs, blobrec (.array (some n) t) (.arr vs) = .ok bs ∧ Filled t 0 n vs bs := by
  cases vs with
  | nil =>
    rw [HasElems] at h
    exact ⟨[], by rw [blobrec], [], rfl, by simp [← h], by simp⟩
  | cons i u v vs =>
    obtain ⟨out, g1, g2⟩ := arr_filled (.cons i u v vs) t 0 n h []
    obtain ⟨out', k1, k2⟩ := blobarr_ok (.cons i u v vs) t 0 n h []
    rw [g1] at k1
    simp only [List.nil_append, Res.ok.injEq] at k1 g1
    subst k1
    have e : alignto out.length (.array (some n) t) = out.length := by
      unfold alignto
      apply align_of_dvd
      rw [k2]
      have := size_dvd (.array (some n) t)
      rw [tysize] at this
      exact this
    rw [blobrec, g1, Res.bind_ok, pad_ok _ _ (le_alignto _ _), Res.bind_ok, e]
    exact ⟨_, rfl, by simpa using g2⟩

/-- The literal `[.[1] = 7]` of type `byte[2]`. -/
def gap : AVals := .cons 1 .int8 (.lit [7]) .nil

/-- **C38 is violated**: `[.[1] = 7]` as a `byte[2]` is emitted as the single byte 7: the element
is put at index 0 and the array is too short. -/
theorem array_init_violated : ¬ ArrayInitFull := by
  intro h
  obtain ⟨bs, h1, cs, h2, h3, h4⟩ := h 2 .int8 gap (by
    simp only [gap, Elems, HasTy]; decide +kernel)
  have e : blobrec (.array (some 2) .int8) (.arr gap) = .ok [7#8] := by decide +kernel
  rw [e] at h1
  injection h1 with h1
  have hl : bs.length = 2 := by
    match cs, h3 with
    | [a, b], _ =>
      have ha := h4 0 a rfl
      have hb := h4 1 b rfl
      have la : a.length = 1 := by
        rcases ha with ⟨v, hm, hv⟩ | ⟨_, hv⟩
        · simp [gap, AVals.toList] at hm
        · rw [hv]; simp [tysize]
      have lb : b.length = 1 := by
        rcases hb with ⟨v, hm, hv⟩ | ⟨_, hv⟩
        · simp [gap, AVals.toList] at hm
          subst hm
          rw [blobrec] at hv
          injection hv with hv
          rw [← hv]; rfl
        · rw [hv]; simp [tysize]
      rw [h2]; simp [la, lb]
  rw [← h1] at hl
  simp at hl

/-- `[.[0] = 1, .[3] = 2, .[4] = 3]` as `int16[5]`. -/
def sparse : AVals := .cons 0 .int16 (.lit [1, 0]) (.cons 3 .int16 (.lit [2, 0]) (.cons 4 .int16 (.lit [3, 0]) .nil))

example : HasElems .int16 0 5 sparse ∧
    blobrec (.array (some 5) .int16) (.arr sparse) = .ok [1, 0, 0, 0, 0, 0, 2, 0, 3, 0] := by
  refine ⟨by simp [sparse, HasElems, HasTy, tysize], by decide +kernel⟩

/-- A static value of the struct `demo` with the member 1 left out. -/
def demoVal : SVals :=
  .cons .int8 (.lit [5]) (.skip .int64 (.cons (.union (.bare (.cons .int64 (.cons .int8 .nil))))
    (.uconv [2, 0, 0, 0] .int8 (.lit [9])) (.cons .bool (.lit [1]) .nil)))

example : HasTy (.struct demo) (.struct demoVal) := by
  rw [HasTy]
  refine ⟨demo, rfl, ?_⟩
  simp [demo, demoVal, HasMembs, HasTy, tysize, base, Ucons.toList]

example : (blobrec (.struct demo) (.struct demoVal)).map (fun bs => (bs.length, bs[20]?)) = .ok (40, some 9) := by
  decide +kernel

end Verif.Layout
