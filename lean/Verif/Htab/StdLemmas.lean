import Verif.Htab.TableLemmas

/-! Lemmas about the model of lib/std/htab.myr. -/

namespace Verif.StdHtab
open Verif.Htab

variable {K V : Type} {eq : K → K → Bool} {hash : K → Nat}

theorem put_run (c : Contract eq hash) {t : Ht K V} (hb : Base0 hash t)
    (hfree : Slot.free ∈ t.slots) (k : K) (v : V) :
    ∃ i found kk, PutStop eq hash t.slots k i found ∧ i < t.slots.length ∧ eq kk k = true ∧
      putCore eq hash t k v = .ok ⟨t.slots.set i (Slot.used (xhash hash k) kk v false),
        if found then t.nelt else t.nelt + 1, t.ndead⟩ := by
  obtain ⟨i, found, hscan, st⟩ := put_scan c hb.inv hfree k (putStop eq (xhash hash k) k)
    rfl (by intros; rfl) (by intro h' k' v'; simp [putStop])
  cases hfd : found with
  | false =>
    subst hfd
    refine ⟨i, false, k, st, st.lt, c.refl k, ?_⟩
    simp [putCore, hscan, rdChk_ok st.lt, wrChk_ok _ st.lt, mkSlot_xhash]
  | true =>
    subst hfd
    obtain ⟨h', k', v', hs, hc⟩ := st.hit rfl
    refine ⟨i, true, k', st, st.lt, hc, ?_⟩
    simp [putCore, hscan, rdChk, hs, wrChk_ok _ st.lt, mkSlot_xhash]

theorem base_put (c : Contract eq hash) {t : Ht K V} {m : K → Option V} (hb : Base eq hash t m)
    (hfree : Slot.free ∈ t.slots) (k : K) (v : V) (hsafe : t.ndead = 0 ∨ m k = none) :
    ∃ t', putCore eq hash t k v = .ok t' ∧ Base eq hash t' (upd eq m k (some v)) ∧
      t'.slots.length = t.slots.length ∧ t'.ndead = t.ndead ∧
      t'.nelt ≤ t.nelt + 1 ∧ (m k = none → t'.nelt = t.nelt + 1) := by
  obtain ⟨i, found, kk, st, hi, hkk, he⟩ := put_run c hb.base0 hfree k v
  obtain ⟨h1, h2⟩ := put_inv c hb.inv hb.rep v st hkk (habs c hb st hsafe)
  have hl := live_put (h := xhash hash k) (kk := kk) (v := v) st
  have hd := dead_put (h := xhash hash k) (kk := kk) (v := v) hi
  have hbd := hb.dead
  have hbn := hb.nelt
  refine ⟨_, he, ⟨h1, h2, ?_, ?_⟩, by simp, rfl, ?_, ?_⟩
  · simp only [hl]
    split <;> simp_all
  · simp only
    omega
  · simp only; split <;> omega
  · intro hm
    simp [not_found hb st hm]

theorem base_put0 (c : Contract eq hash) {t : Ht K V} (hb : Base0 hash t)
    (hfree : Slot.free ∈ t.slots) (k : K) (v : V) :
    ∃ t', putCore eq hash t k v = .ok t' ∧ Base0 hash t' ∧
      t'.slots.length = t.slots.length ∧ t'.ndead = t.ndead ∧ t'.nelt ≤ t.nelt + 1 := by
  obtain ⟨i, found, kk, st, hi, hkk, he⟩ := put_run c hb hfree k v
  have h1 := put_inv0 c hb.inv v st hkk
  have hl := live_put (h := xhash hash k) (kk := kk) (v := v) st
  have hd := dead_put (h := xhash hash k) (kk := kk) (v := v) hi
  have hbd := hb.dead
  have hbn := hb.nelt
  refine ⟨_, he, ⟨h1, ?_, ?_⟩, by simp, rfl, ?_⟩
  · simp only [hl]
    split <;> simp_all
  · simp only
    omega
  · simp only; split <;> omega

theorem putNew (c : Contract eq hash) (fuel : Nat) :
    PutNew eq hash (htputF (V := V) eq hash (fuel + 1)) := by
  intro t m k v hb hd h16 hm hroom
  have hd' := hb.dead
  obtain ⟨t', h1, h2, h3, h4, h5, h6⟩ := base_put c hb
    (free_of_load hb.base0 (by omega) h16) k v (Or.inl hd)
  refine ⟨t', ?_, h2, h3, by omega, h6 hm⟩
  have := h6 hm
  rw [htputF, h1]
  simp only [Res.bind_ok]
  rw [if_neg (by omega)]

theorem putAny (c : Contract eq hash) (fuel : Nat) :
    PutAny hash (htputF (V := V) eq hash (fuel + 1)) := by
  intro t k v hb hd h16 hroom
  have hd' := hb.dead
  obtain ⟨t', h1, h2, h3, h4, h5⟩ := base_put0 c hb
    (free_of_load hb (by omega) h16) k v
  refine ⟨t', ?_, h2, h3, by omega, h5⟩
  rw [htputF, h1]
  simp only [Res.bind_ok]
  rw [if_neg (by omega)]

/-- Load facts between operations. -/
structure Load (t : Ht K V) : Prop where
  big : 16 ≤ t.slots.length
  half : 2 * t.nelt ≤ t.slots.length
  dead : 4 * t.ndead ≤ t.slots.length

theorem Load.n {t : Ht K V} (hl : Load t) {n : Nat} (hn : t.slots.length = 2^n) : 4 ≤ n := by
  have := hl.big
  rw [hn] at this
  by_contra h
  have h3 : n ≤ 3 := by omega
  have := Nat.pow_le_pow_right (n := 2) (by omega) h3
  omega

theorem Load.free {t : Ht K V} (hl : Load t) (hb : Base0 hash t) : Slot.free ∈ t.slots :=
  free_of_load hb (by have := hb.dead; have := hl.half; have := hl.dead; omega) hl.big

theorem htput_ok (c : Contract eq hash) {t : Ht K V} {m : K → Option V} (hb : Base eq hash t m)
    (hl : Load t) (k : K) (v : V) (hsafe : t.ndead = 0 ∨ m k = none) :
    ∃ t', htput eq hash t k v = .ok t' ∧ Base eq hash t' (upd eq m k (some v)) ∧ Load t' ∧
      t'.ndead ≤ t.ndead := by
  obtain ⟨n, hn⟩ := hb.inv.pow
  have hn4 := hl.n hn
  obtain ⟨t1, h1, hb1, hlen1, hd1, hn1, -⟩ := base_put c hb (hl.free hb.base0) k v hsafe
  have hbig := hl.big
  have hhalf := hl.half
  have hdd := hl.dead
  unfold htput
  rw [htputF, h1]
  simp only [Res.bind_ok]
  by_cases hg : t1.slots.length < t1.nelt * 2
  · rw [if_pos hg, hlen1, hn, Nat.mul_comm, ← Nat.pow_succ]
    obtain ⟨t2, h2, hb2, hlen2, hd2, hn2⟩ := reinsert_ok c (putNew (V := V) c 0) hb1 (n+1) (by omega)
      (by rw [Nat.pow_succ]; omega)
    refine ⟨t2, h2, hb2, ⟨?_, ?_, ?_⟩, by omega⟩
    · rw [hlen2, Nat.pow_succ]; omega
    · rw [hlen2, Nat.pow_succ]; omega
    · omega
  · rw [if_neg hg]
    exact ⟨t1, rfl, hb1, ⟨by omega, by omega, by omega⟩, by omega⟩

theorem htput_ok0 (c : Contract eq hash) {t : Ht K V} (hb : Base0 hash t)
    (hl : Load t) (k : K) (v : V) :
    ∃ t', htput eq hash t k v = .ok t' ∧ Base0 hash t' ∧ Load t' := by
  obtain ⟨n, hn⟩ := hb.inv.pow
  have hn4 := hl.n hn
  obtain ⟨t1, h1, hb1, hlen1, hd1, hn1⟩ := base_put0 c hb (hl.free hb) k v
  have hbig := hl.big
  have hhalf := hl.half
  have hdd := hl.dead
  unfold htput
  rw [htputF, h1]
  simp only [Res.bind_ok]
  by_cases hg : t1.slots.length < t1.nelt * 2
  · rw [if_pos hg, hlen1, hn, Nat.mul_comm, ← Nat.pow_succ]
    obtain ⟨t2, h2, hb2, hlen2, hd2, hn2⟩ := reinsert_ok0 (putAny (V := V) c 0) hb1 (n+1) (by omega)
      (by rw [Nat.pow_succ]; omega)
    refine ⟨t2, h2, hb2, ⟨?_, ?_, ?_⟩⟩
    · rw [hlen2, Nat.pow_succ]; omega
    · rw [hlen2, Nat.pow_succ]; omega
    · omega
  · rw [if_neg hg]
    exact ⟨t1, rfl, hb1, ⟨by omega, by omega, by omega⟩⟩

theorem idx_ok (c : Contract eq hash) {t : Ht K V} (hb : Base0 hash t)
    (hl : Load t) (k : K) :
    (∃ i h' k' v, idx eq hash t k = .ok (some i) ∧
        t.slots[i]? = some (Slot.used h' k' v false) ∧ eq k' k = true) ∨
    (idx eq hash t k = .ok none ∧
        ∀ (j h' : Nat) (k' : K) (v : V), t.slots[j]? = some (Slot.used h' k' v false) → eq k' k = false) := by
  have := idx_spec c hb.inv (hl.free hb) k (idxStop eq (xhash hash k) k) rfl (by
    intro k' v' d
    simp only [idxStop]
    by_cases hx : xhash hash k' = xhash hash k <;> cases d <;> simp [hx])
  rcases this with ⟨i, h', k', v, h1, h2, h3⟩ | ⟨i, h1, h2⟩
  · left
    exact ⟨i, h', k', v, by simp [idx, h1], h2, h3⟩
  · right
    exact ⟨by simp [idx, h1], h2⟩

theorem absent_none {t : Ht K V} {m : K → Option V} (hb : Base eq hash t m) {k : K}
    (h2 : ∀ (j h' : Nat) (k' : K) (v : V), t.slots[j]? = some (Slot.used h' k' v false) → eq k' k = false) :
    m k = none := by
  cases hm : m k with
  | none => rfl
  | some v =>
    obtain ⟨i, h, k', hi, hc⟩ := (hb.rep k v).1 hm
    rw [h2 i h k' v hi] at hc; cases hc

theorem htget_ok (c : Contract eq hash) {t : Ht K V} {m : K → Option V} (hb : Base eq hash t m)
    (hl : Load t) (k : K) : htget eq hash t k = .ok (m k) := by
  rcases idx_ok c hb.base0 hl k with ⟨i, h', k', v, h1, h2, h3⟩ | ⟨h1, h2⟩
  · rw [(hb.rep k v).2 ⟨i, h', k', h2, h3⟩]
    simp [htget, h1, rdChk, h2]
  · simp [htget, h1, absent_none hb h2]

theorem htgetv_ok (c : Contract eq hash) {t : Ht K V} {m : K → Option V} (hb : Base eq hash t m)
    (hl : Load t) (k : K) (d : V) : htgetv eq hash t k d = .ok ((m k).getD d) := by
  rcases idx_ok c hb.base0 hl k with ⟨i, h', k', v, h1, h2, h3⟩ | ⟨h1, h2⟩
  · rw [(hb.rep k v).2 ⟨i, h', k', h2, h3⟩]
    simp [htgetv, h1, rdChk, h2]
  · simp [htgetv, h1, absent_none hb h2]

theorem hthas_ok (c : Contract eq hash) {t : Ht K V} {m : K → Option V} (hb : Base eq hash t m)
    (hl : Load t) (k : K) : hthas eq hash t k = .ok (m k).isSome := by
  rcases idx_ok c hb.base0 hl k with ⟨i, h', k', v, h1, h2, h3⟩ | ⟨h1, h2⟩
  · rw [(hb.rep k v).2 ⟨i, h', k', h2, h3⟩]
    simp [hthas, h1]
  · simp [hthas, h1, absent_none hb h2]

theorem htdel_ok (c : Contract eq hash) {t : Ht K V} {m : K → Option V} (hb : Base eq hash t m)
    (hl : Load t) (k : K) :
    ∃ t', htdel eq hash t k = .ok t' ∧ Base eq hash t' (upd eq m k none) ∧ Load t' := by
  rcases idx_ok c hb.base0 hl k with ⟨i, h', k', v, h1, h2, h3⟩ | ⟨h1, h2⟩
  · obtain ⟨hlt, h2'⟩ := List.getElem?_eq_some_iff.1 h2
    obtain ⟨h4, h5⟩ := del_inv c hb.inv hb.rep h2 h3
    have hll := live_del h2
    have hdd := dead_del h2
    have hbd := hb.dead
    have hbn := hb.nelt
    have hhalf := hl.half
    have hbig := hl.big
    obtain ⟨n, hn⟩ := hb.inv.pow
    have hn4 := hl.n hn
    have hb1 : Base eq hash ⟨t.slots.set i (Slot.used h' k' v true), t.nelt - 1, t.ndead + 1⟩
        (upd eq m k none) := ⟨h4, h5, by simp only; omega, by simp only; omega⟩
    simp only [htdel, h1, Res.bind_ok, rdChk, h2, wrChk_ok _ hlt, List.length_set]
    by_cases hg : t.slots.length < (t.ndead + 1) * 4
    · rw [if_pos hg, hn]
      obtain ⟨t2, h6, hb2, hlen2, hd2, hn2⟩ := reinsert_ok c (putNew (V := V) c 1) hb1 n (by omega)
        (by simp only; omega)
      simp only at hn2
      exact ⟨t2, h6, hb2, ⟨by omega, by omega, by omega⟩⟩
    · rw [if_neg hg]
      exact ⟨_, rfl, hb1, ⟨by simpa using hbig, by simp; omega, by simp; omega⟩⟩
  · refine ⟨t, by simp [htdel, h1], ⟨hb.inv, ?_, hb.nelt, hb.dead⟩, hl⟩
    intro x w
    unfold upd
    split
    · next hx =>
      simp only [reduceCtorEq, false_iff]
      rintro ⟨i, h, k', hi, hc⟩
      have := h2 i h k' w hi
      rw [c.trans _ _ _ hc (c.symm _ _ hx)] at this; cases this
    · exact hb.rep x w

theorem htdel_ok0 (c : Contract eq hash) {t : Ht K V} (hb : Base0 hash t)
    (hl : Load t) (k : K) :
    ∃ t', htdel eq hash t k = .ok t' ∧ Base0 hash t' ∧ Load t' := by
  rcases idx_ok c hb hl k with ⟨i, h', k', v, h1, h2, h3⟩ | ⟨h1, h2⟩
  · obtain ⟨hlt, h2'⟩ := List.getElem?_eq_some_iff.1 h2
    have h4 := del_inv0 hb.inv h2
    have hll := live_del h2
    have hdd := dead_del h2
    have hbd := hb.dead
    have hbn := hb.nelt
    have hhalf := hl.half
    have hbig := hl.big
    obtain ⟨n, hn⟩ := hb.inv.pow
    have hn4 := hl.n hn
    have hb1 : Base0 hash (⟨t.slots.set i (Slot.used h' k' v true), t.nelt - 1, t.ndead + 1⟩ : Ht K V) :=
      ⟨h4, by simp only; omega, by simp only; omega⟩
    simp only [htdel, h1, Res.bind_ok, rdChk, h2, wrChk_ok _ hlt, List.length_set]
    by_cases hg : t.slots.length < (t.ndead + 1) * 4
    · rw [if_pos hg, hn]
      obtain ⟨t2, h6, hb2, hlen2, hd2, hn2⟩ := reinsert_ok0 (putAny (V := V) c 1) hb1 n (by omega)
        (by simp only; omega)
      simp only at hn2
      exact ⟨t2, h6, hb2, ⟨by omega, by omega, by omega⟩⟩
    · rw [if_neg hg]
      exact ⟨_, rfl, hb1, ⟨by simpa using hbig, by simp; omega, by simp; omega⟩⟩
  · exact ⟨t, by simp [htdel, h1], hb, hl⟩

theorem htkeys_ok {t : Ht K V} (hb : Base0 hash t) :
    htkeys t = .ok ((entries t.slots).map Prod.fst) := by
  have h : ((entries t.slots).map Prod.fst).length = t.nelt := by
    rw [List.length_map, length_entries, hb.nelt]
  unfold htkeys
  rw [liveKeys_eq]
  simp only [h]
  simp

theorem load_mkht : Load (mkht : Ht K V) := by
  constructor <;> simp [mkht, fresh]

end Verif.StdHtab
