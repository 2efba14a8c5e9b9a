import Verif.Call.Model

/-!
# Lemmas on the classification of types
-/

namespace Verif.Call

open Verif.Layout

theorem align_add (b s a : Nat) (h : a ∣ b) : align (b + s) a = b + align s a := by
  obtain ⟨k, rfl⟩ := h
  unfold align
  by_cases ha : a = 0
  · rw [if_pos ha, if_pos ha]
  · rw [if_neg ha, if_neg ha]
    have e : a * k + s + a - 1 = (s + a - 1) + a * k := by omega
    rw [e, Nat.add_mul_mod_self_left]
    have := Nat.mod_le (s + a - 1) a
    omega

/-- Alignment to 1, 2, 4 or 8 does not pass a multiple of 8. -/
theorem align_le8 (s a z : Nat) (ha : Pow a) (hz : 8 ∣ z) (h : s ≤ z) : align s a ≤ z := by
  unfold align
  rcases ha with rfl | rfl | rfl | rfl <;> rw [if_neg (by decide)] <;> omega

/-- An eightbyte which had a class keeps having one. -/
def Ext (p q : Pi) : Prop := (p.p0 ≠ .noPref → q.p0 ≠ .noPref) ∧ (p.p1 ≠ .noPref → q.p1 ≠ .noPref)

/-- The eightbytes which the bytes from `a` to `b` touch have classes. -/
def Covered (p : Pi) (a b : Nat) : Prop := a < b → (a < 8 → p.p0 ≠ .noPref) ∧ (8 < b → p.p1 ≠ .noPref)

theorem Ext.refl (p : Pi) : Ext p p := ⟨id, id⟩

theorem Ext.trans {p q r : Pi} (h : Ext p q) (k : Ext q r) : Ext p r := ⟨fun x => k.1 (h.1 x), fun x => k.2 (h.2 x)⟩

theorem join_ne (a b : PassIn) (h : a ≠ .noPref ∨ b ≠ .noPref) : join a b ≠ .noPref := by
  revert h
  cases a <;> cases b <;> decide

mutual
/-- No function values, and no unions with values in them, among the parts. -/
def simple : Ty → Bool
  | .func => false
  | .union us => isenum us
  | .name t => simple t
  | .array _ t => simple t
  | .tuple ts => simples ts
  | .struct ms => simplem ms
  | _ => true
/-- `simple` for the elements of a tuple. -/
def simples : Tys → Bool
  | .nil => true
  | .cons t ts => simple t && simples ts
/-- `simple` for the members of a struct. -/
def simplem : Membs → Bool
  | .nil => true
  | .cons _ t ms => simple t && simplem ms
end

theorem leaf_ok (t : Ty) (new : PassIn) (hn : new ≠ .noPref) (p : Pi) (off : Nat) (ha : tyalign t ∣ off)
    (hp : 0 < tysize t) (h : off + tysize t ≤ 16) :
    ∃ q, leaf t new p off = .ok (q, off + tysize t) ∧ Ext p q ∧
      (off % 8 + tysize t ≤ 8 → Covered q off (off + tysize t)) := by
  unfold leaf
  rw [if_neg (by omega)]
  rw [align_of_dvd _ _ (Nat.dvd_add ha (size_dvd t))]
  by_cases h8 : off < 8
  · refine ⟨{ p with p0 := join p.p0 new }, ?_, ⟨fun x => join_ne _ _ (Or.inr hn), id⟩, fun hc _ => ⟨fun _ => join_ne _ _ (Or.inr hn), ?_⟩⟩
    · rw [show off / 8 = 0 by omega, joinAt, Res.bind_ok]; rfl
    · intro; omega
  · refine ⟨{ p with p1 := join p.p1 new }, ?_, ⟨id, fun x => join_ne _ _ (Or.inr hn)⟩, fun hc _ => ⟨?_, fun _ => join_ne _ _ (Or.inr hn)⟩⟩
    · rw [show off / 8 = 1 by omega, joinAt, Res.bind_ok]; rfl
    · intro; omega

/-- What `classify_recursive` does with a part of a type which lies within the first 16 bytes: it
passes over exactly its bytes, and gives a class to the eightbytes it touches. -/
def Classified (t : Ty) (p : Pi) (off : Nat) (r : Res (Pi × Nat)) : Prop :=
  ∃ q, r = .ok (q, off + tysize t) ∧ Ext p q ∧ (simple t = true → Covered q off (off + tysize t))

theorem leaf_cls (t : Ty) (new : PassIn) (hn : new ≠ .noPref) (p : Pi) (off : Nat) (ha : tyalign t ∣ off)
    (hp : 0 < tysize t) (h : off + tysize t ≤ 16) (hs : simple t = true → off % 8 + tysize t ≤ 8) :
    Classified t p off (leaf t new p off) := by
  obtain ⟨q, h1, h2, h3⟩ := leaf_ok t new hn p off ha hp h
  exact ⟨q, h1, h2, fun x => h3 (hs x)⟩

theorem repeated_ok (t : Ty) (f : Pi → Nat → Res (Pi × Nat))
    (hf : ∀ p off, tyalign t ∣ off → off + tysize t ≤ 16 → Classified t p off (f p off)) :
    ∀ n p off, tyalign t ∣ off → off + n * tysize t ≤ 16 →
      ∃ q, repeated f n p off = .ok (q, off + n * tysize t) ∧ Ext p q ∧
        (simple t = true → Covered q off (off + n * tysize t))
  | 0, p, off, _, _ => ⟨p, by rw [repeated]; simp, Ext.refl p, fun _ h => by omega⟩
  | n + 1, p, off, ha, h => by
    have e : (n + 1) * tysize t = tysize t + n * tysize t := by rw [Nat.add_mul]; omega
    rw [e] at h ⊢
    obtain ⟨q, h1, h2, h3⟩ := hf p off ha (by omega)
    obtain ⟨r, k1, k2, k3⟩ := repeated_ok t f hf n q (off + tysize t) (Nat.dvd_add ha (size_dvd t)) (by omega)
    refine ⟨r, ?_, h2.trans k2, fun hs hlt => ?_⟩
    · rw [repeated, h1, Res.bind_ok]
      dsimp only
      rw [k1]
      congr 2
      omega
    · have h3 := h3 hs
      have k3 := k3 hs
      by_cases hz : tysize t = 0
      · rw [hz] at hlt; omega
      · have h3 := h3 (by omega)
        refine ⟨fun h8 => k2.1 (h3.1 h8), fun h8 => ?_⟩
        by_cases hn : n * tysize t = 0
        · rw [hn] at h8; exact k2.2 (h3.2 (by omega))
        · exact (k3 (by omega)).2 (by omega)

/-- A part ends after padding: still covered. -/
theorem covered_pad (p : Pi) (b s a : Nat) (ha : Pow a) (hd : a ∣ b) (h : Covered p b (b + s)) :
    Covered p b (b + align s a) := by
  intro hlt
  by_cases hs : s = 0
  · subst hs
    rw [align_of_dvd 0 a (Nat.dvd_zero a)] at hlt
    omega
  · obtain ⟨h1, h2⟩ := h (by omega)
    refine ⟨h1, fun h8 => h2 ?_⟩
    apply Classical.byContradiction
    intro hc
    have := align_le8 (b + s) a 8 ha ⟨1, rfl⟩ (by omega)
    rw [align_add _ _ _ hd] at this
    omega

/-- The next part begins after padding and is covered, if it is not empty. -/
theorem covered_next (p q : Pi) (b s a n : Nat) (ha : Pow a) (hd : a ∣ b) (he : Ext p q)
    (h : Covered p b (b + s)) (hq : Covered q (b + align s a) (b + align s a + n)) :
    Covered q b (b + (align s a + n)) := by
  have hp := covered_pad p b s a ha hd h
  intro hlt
  have h0 : align 0 a = 0 := align_of_dvd 0 a (Nat.dvd_zero a)
  by_cases hn : n = 0
  · subst hn
    obtain ⟨h1, h2⟩ := hp (by omega)
    exact ⟨fun x => he.1 (h1 x), fun x => he.2 (h2 x)⟩
  · obtain ⟨h1, h2⟩ := hq (by omega)
    refine ⟨fun h8 => ?_, fun h8 => h2 (by omega)⟩
    by_cases hs : s = 0
    · subst hs; exact h1 (by omega)
    · have := le_align s a
      exact he.1 ((hp (by omega)).1 h8)

theorem enum_layout : ∀ us : Ucons, isenum us = true → ∀ a, uconsSize a us = a ∧ uconsAlign a us = a
  | .nil, _, a => by rw [uconsSize, uconsAlign]; exact ⟨rfl, rfl⟩
  | .bare us, h, a => by rw [uconsSize, uconsAlign]; exact enum_layout us (by rwa [isenum] at h) a
  | .cons _ _, h, _ => by rw [isenum] at h; cases h

mutual
theorem cls : ∀ (t : Ty) (p : Pi) (off : Nat), tyalign t ∣ off → off + tysize t ≤ 16 →
    Classified t p off (classifyRec t p off)
  | .void, p, off, ha, h => by
    refine ⟨p, ?_, Ext.refl p, fun _ hl => by rw [tysize] at hl; omega⟩
    rw [tysize] at h ⊢
    rw [classifyRec, if_neg (by omega), align_of_dvd _ _ (by simpa using ha)]
  | .bool, p, off, ha, h => by
    rw [classifyRec]
    exact leaf_cls _ _ (by decide) p off ha (by decide) h (fun _ => by rw [tysize] at *; omega)
  | .int8, p, off, ha, h => by
    rw [classifyRec]
    exact leaf_cls _ _ (by decide) p off ha (by decide) h (fun _ => by rw [tysize] at *; omega)
  | .int16, p, off, ha, h => by
    rw [classifyRec]
    refine leaf_cls _ _ (by decide) p off ha (by decide) h (fun _ => ?_)
    have : (2 : Nat) ∣ off := ha
    rw [tysize] at *; omega
  | .int32, p, off, ha, h => by
    rw [classifyRec]
    refine leaf_cls _ _ (by decide) p off ha (by decide) h (fun _ => ?_)
    have : (4 : Nat) ∣ off := ha
    rw [tysize] at *; omega
  | .int64, p, off, ha, h => by
    rw [classifyRec]
    refine leaf_cls _ _ (by decide) p off ha (by decide) h (fun _ => ?_)
    have : (8 : Nat) ∣ off := ha
    rw [tysize] at *; omega
  | .char, p, off, ha, h => by
    rw [classifyRec]
    refine leaf_cls _ _ (by decide) p off ha (by decide) h (fun _ => ?_)
    have : (4 : Nat) ∣ off := ha
    rw [tysize] at *; omega
  | .ptr, p, off, ha, h => by
    rw [classifyRec]
    refine leaf_cls _ _ (by decide) p off ha (by decide) h (fun _ => ?_)
    have : (8 : Nat) ∣ off := ha
    rw [tysize] at *; omega
  | .flt32, p, off, ha, h => by
    rw [classifyRec]
    refine leaf_cls _ _ (by decide) p off ha (by decide) h (fun _ => ?_)
    have : (4 : Nat) ∣ off := ha
    rw [tysize] at *; omega
  | .flt64, p, off, ha, h => by
    rw [classifyRec]
    refine leaf_cls _ _ (by decide) p off ha (by decide) h (fun _ => ?_)
    have : (8 : Nat) ∣ off := ha
    rw [tysize] at *; omega
  | .valist, p, off, ha, h => by
    rw [classifyRec]
    refine leaf_cls _ _ (by decide) p off ha (by decide) h (fun _ => ?_)
    have : (8 : Nat) ∣ off := ha
    rw [tysize] at *; omega
  | .code, p, off, ha, h => by
    rw [classifyRec]
    refine leaf_cls _ _ (by decide) p off ha (by decide) h (fun _ => ?_)
    have : (8 : Nat) ∣ off := ha
    rw [tysize] at *; omega
  | .func, p, off, ha, h => by
    rw [classifyRec]
    exact leaf_cls _ _ (by decide) p off ha (by decide) h (fun x => by rw [simple] at x; cases x)
  | .slice, p, off, ha, h => by
    rw [tysize] at h
    refine ⟨⟨join p.p0 .memory, join p.p1 .memory⟩, ?_, ⟨fun _ => join_ne _ _ (Or.inr (by decide)),
      fun _ => join_ne _ _ (Or.inr (by decide))⟩, fun _ _ => ⟨fun _ => join_ne _ _ (Or.inr (by decide)),
      fun _ => join_ne _ _ (Or.inr (by decide))⟩⟩
    rw [classifyRec, if_neg (by omega), tysize]
    have : off = 0 := by omega
    subst this
    rfl
  | .name t, p, off, ha, h => by
    have h1 : tyalign (.name t) = tyalign t := by unfold tyalign; rw [rawalign]
    rw [h1] at ha
    rw [tysize] at h
    obtain ⟨q, k1, k2, k3⟩ := cls t p off ha h
    refine ⟨q, ?_, k2, fun hs => ?_⟩
    · rw [classifyRec, if_neg (by omega), k1, Res.bind_ok, tysize]
      dsimp only
      rw [align_of_dvd _ _ (Nat.dvd_add ha (size_dvd t))]
      rfl
    · rw [tysize]; rw [simple] at hs; exact k3 hs
  | .union us, p, off, ha, h => by
    have h4 : 4 ≤ tysize (.union us) := by
      rw [tysize]
      have := le_uconsSize us 4
      have := le_align (uconsSize 4 us) (tyalign (.union us))
      omega
    rw [classifyRec]
    refine leaf_cls _ _ (by split <;> decide) p off ha (by omega) h (fun x => ?_)
    rw [simple] at x
    have e := enum_layout us x
    have e1 : tyalign (.union us) = 4 := by unfold tyalign; rw [rawalign, (e 4).2]; rfl
    have e2 : tysize (.union us) = 4 := by rw [tysize, e1, (e 4).1]; rfl
    rw [e1] at ha
    rw [e2]
    omega
  | .array none t, p, off, ha, h => by
    refine ⟨p, ?_, Ext.refl p, fun _ hl => by rw [tysize] at hl; omega⟩
    rw [tysize] at h ⊢
    rw [classifyRec, if_neg (by omega), align_of_dvd _ _ (by simpa using ha)]
  | .array (some n) t, p, off, ha, h => by
    have h1 : tyalign (.array (some n) t) = tyalign t := by
      unfold tyalign
      rw [rawalign]
      omega
    rw [h1] at ha
    rw [tysize] at h
    obtain ⟨q, k1, k2, k3⟩ := repeated_ok t (classifyRec t) (fun p off => cls t p off) n p off ha h
    refine ⟨q, ?_, k2, fun hs => ?_⟩
    · rw [classifyRec, if_neg (by omega), k1, Res.bind_ok, tysize]
      dsimp only
      rw [h1, align_of_dvd _ _ (Nat.dvd_add ha (Nat.dvd_mul_left_of_dvd (size_dvd t) n))]
      rfl
    · rw [tysize]; rw [simple] at hs; exact k3 hs
  | .tuple ts, p, off, ha, h => by
    have hd := size_dvd (.tuple ts)
    have e : tysize (.tuple ts) = align (tysSize 0 ts) (tyalign (.tuple ts)) := by rw [tysize]; rfl
    have h1 := le_align (tysSize 0 ts) (tyalign (.tuple ts))
    obtain ⟨q, k1, k2, k3⟩ := clsTys ts p off 0 1 (Or.inl rfl) (by unfold tyalign at ha; rwa [rawalign] at ha)
      (by omega)
    refine ⟨q, ?_, k2, fun hs => ?_⟩
    · rw [classifyRec, if_neg (by omega)]
      rw [Nat.add_zero] at k1
      rw [k1, Res.bind_ok, align_of_dvd _ _ (Nat.dvd_add ha hd)]
      rfl
    · rw [simple] at hs
      rw [e]
      exact covered_pad q off _ _ (tyalign_pow _) ha (k3 hs (fun h => by omega))
  | .struct ms, p, off, ha, h => by
    have hd := size_dvd (.struct ms)
    have e : tysize (.struct ms) = align (membsSize 0 ms) (tyalign (.struct ms)) := by rw [tysize]; rfl
    have h1 := le_align (membsSize 0 ms) (tyalign (.struct ms))
    obtain ⟨q, k1, k2, k3⟩ := clsMembs ms p off 0 1 (Or.inl rfl) (by unfold tyalign at ha; rwa [rawalign] at ha)
      (by omega)
    refine ⟨q, ?_, k2, fun hs => ?_⟩
    · rw [classifyRec, if_neg (by omega)]
      rw [Nat.add_zero] at k1
      rw [k1, Res.bind_ok, align_of_dvd _ _ (Nat.dvd_add ha hd)]
      rfl
    · rw [simple] at hs
      rw [e]
      exact covered_pad q off _ _ (tyalign_pow _) ha (k3 hs (fun h => by omega))
termination_by t => sizeOf t
decreasing_by all_goals (simp_wf; try omega)

theorem clsTys : ∀ (ts : Tys) (p : Pi) (b sz a : Nat), Pow a → min (tysAlign a ts) 8 ∣ b → b + tysSize sz ts ≤ 16 →
    ∃ q, classifyTys ts p (b + sz) = .ok q ∧ Ext p q ∧
      (simples ts = true → Covered p b (b + sz) → Covered q b (b + tysSize sz ts))
  | .nil, p, b, sz, a, _, _, _ => ⟨p, by rw [classifyTys], Ext.refl p, fun _ h => by rw [tysSize]; exact h⟩
  | .cons t ts, p, b, sz, a, hp, hd, h => by
    rw [tysAlign] at hd
    rw [tysSize] at h ⊢
    have hp2 : Pow (max a (min (rawalign t) 8)) := hp.max (tyalign_pow t)
    have hta : tyalign t ∣ b := by
      refine Nat.dvd_trans (pow_dvd (tyalign_pow t) ?_ ?_) hd
      · have := pow_tys ts _ hp2
        unfold Layout.Pow at *; omega
      · have := le_tysAlign ts (max a (min (rawalign t) 8))
        unfold tyalign
        omega
    have hsz := le_tysSize ts (alignto sz t + tysize t)
    obtain ⟨q, k1, k2, k3⟩ := cls t p (b + alignto sz t) (Nat.dvd_add hta (alignto_dvd sz t)) (by omega)
    obtain ⟨r, m1, m2, m3⟩ := clsTys ts q b (alignto sz t + tysize t) _ hp2 hd h
    refine ⟨r, ?_, k2.trans m2, fun hs hc => ?_⟩
    · rw [classifyTys]
      unfold alignto at k1 m1 ⊢
      rw [align_add _ _ _ hta, k1, Res.bind_ok]
      dsimp only
      rw [Nat.add_assoc, m1]
    · rw [simples, Bool.and_eq_true] at hs
      exact m3 hs.2 (covered_next p q b sz (tyalign t) (tysize t) (tyalign_pow t) hta k2 hc (k3 hs.1))
termination_by ts => sizeOf ts
decreasing_by all_goals (simp_wf; try omega)

theorem clsMembs : ∀ (ts : Membs) (p : Pi) (b sz a : Nat), Pow a → min (membsAlign a ts) 8 ∣ b → b + membsSize sz ts ≤ 16 →
    ∃ q, classifyMembs ts p (b + sz) = .ok q ∧ Ext p q ∧
      (simplem ts = true → Covered p b (b + sz) → Covered q b (b + membsSize sz ts))
  | .nil, p, b, sz, a, _, _, _ => ⟨p, by rw [classifyMembs], Ext.refl p, fun _ h => by rw [membsSize]; exact h⟩
  | .cons n t ts, p, b, sz, a, hp, hd, h => by
    rw [membsAlign] at hd
    rw [membsSize] at h ⊢
    have hp2 : Pow (max a (min (rawalign t) 8)) := hp.max (tyalign_pow t)
    have hta : tyalign t ∣ b := by
      refine Nat.dvd_trans (pow_dvd (tyalign_pow t) ?_ ?_) hd
      · have := pow_membs ts _ hp2
        unfold Layout.Pow at *; omega
      · have := le_membsAlign ts (max a (min (rawalign t) 8))
        unfold tyalign
        omega
    have hsz := le_membsSize ts (alignto sz t + tysize t)
    obtain ⟨q, k1, k2, k3⟩ := cls t p (b + alignto sz t) (Nat.dvd_add hta (alignto_dvd sz t)) (by omega)
    obtain ⟨r, m1, m2, m3⟩ := clsMembs ts q b (alignto sz t + tysize t) _ hp2 hd h
    refine ⟨r, ?_, k2.trans m2, fun hs hc => ?_⟩
    · rw [classifyMembs]
      unfold alignto at k1 m1 ⊢
      rw [align_add _ _ _ hta, k1, Res.bind_ok]
      dsimp only
      rw [Nat.add_assoc, m1]
    · rw [simplem, Bool.and_eq_true] at hs
      exact m3 hs.2 (covered_next p q b sz (tyalign t) (tysize t) (tyalign_pow t) hta k2 hc (k3 hs.1))
termination_by ts => sizeOf ts
decreasing_by all_goals (simp_wf; try omega)
end

end Verif.Call
