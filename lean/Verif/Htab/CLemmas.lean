import Verif.Htab.TableLemmas

/-! Lemmas about the model of util/htab.c. -/

namespace Verif.CHtab
open Verif.Htab

variable {K V : Type} {cmp : K → K → Bool} {hash : K → Nat}

theorem put_run (c : Contract cmp hash) {t : Ht K V} (hb : Base0 hash t)
    (hfree : Slot.free ∈ t.slots) (k : K) (v : V) :
    ∃ i found, PutStop cmp hash t.slots k i found ∧ ∃ hi : i < t.slots.length,
      putCore cmp hash t k v = .ok ⟨t.slots.set i (Slot.used (xhash hash k) k v false),
        if found then t.nelt else t.nelt + 1,
        if isDead t.slots[i] then t.ndead - 1 else t.ndead⟩ := by
  obtain ⟨i, found, hscan, st⟩ := put_scan c hb.inv hfree k (putStop cmp (xhash hash k) k)
    rfl (by intros; rfl) (by intro h' k' v'; simp only [putStop]; split <;> split <;> simp_all)
  refine ⟨i, found, st, st.lt, ?_⟩
  simp only [putCore, hscan, Res.bind_ok, rdUB_ok st.lt, wrUB_ok _ st.lt, Res.pure_eq, mkSlot_xhash]
  cases t.slots[i]'st.lt with
  | free => simp [isDead]
  | used h' k' v' d => cases d <;> simp [isDead]

theorem base_put (c : Contract cmp hash) {t : Ht K V} {m : K → Option V} (hb : Base cmp hash t m)
    (hfree : Slot.free ∈ t.slots) (k : K) (v : V) (hsafe : t.ndead = 0 ∨ m k = none) :
    ∃ t', putCore cmp hash t k v = .ok t' ∧ Base cmp hash t' (upd cmp m k (some v)) ∧
      t'.slots.length = t.slots.length ∧ t'.ndead ≤ t.ndead ∧
      t'.nelt ≤ t.nelt + 1 ∧ (m k = none → t'.nelt = t.nelt + 1) ∧
      t'.slots.countP isDead ≤ t.slots.countP isDead := by
  obtain ⟨i, found, st, hi, he⟩ := put_run c hb.base0 hfree k v
  obtain ⟨h1, h2⟩ := put_inv c hb.inv hb.rep v st (c.refl k) (habs c hb st hsafe)
  have hl := live_put (h := xhash hash k) (kk := k) (v := v) st
  have hd := dead_put (h := xhash hash k) (kk := k) (v := v) hi
  have hbd := hb.dead
  have hbn := hb.nelt
  refine ⟨_, he, ⟨h1, h2, ?_, ?_⟩, by simp, ?_, ?_, ?_, ?_⟩
  · simp only [hl]
    split <;> simp_all
  · simp only
    split at hd <;> simp_all
    all_goals omega
  · simp only; split <;> omega
  · simp only; split <;> omega
  · intro hm
    simp [not_found hb st hm]
  · simp only; omega

theorem base_put0 (c : Contract cmp hash) {t : Ht K V} (hb : Base0 hash t)
    (hfree : Slot.free ∈ t.slots) (k : K) (v : V) :
    ∃ t', putCore cmp hash t k v = .ok t' ∧ Base0 hash t' ∧
      t'.slots.length = t.slots.length ∧ t'.ndead ≤ t.ndead ∧
      t'.nelt ≤ t.nelt + 1 ∧
      t'.slots.countP isDead ≤ t.slots.countP isDead := by
  obtain ⟨i, found, st, hi, he⟩ := put_run c hb hfree k v
  have h1 := put_inv0 c hb.inv v st (c.refl k)
  have hl := live_put (h := xhash hash k) (kk := k) (v := v) st
  have hd := dead_put (h := xhash hash k) (kk := k) (v := v) hi
  have hbd := hb.dead
  have hbn := hb.nelt
  refine ⟨_, he, ⟨h1, ?_, ?_⟩, by simp, ?_, ?_, ?_⟩
  · simp only [hl]
    split <;> simp_all
  · simp only
    split at hd <;> simp_all
    all_goals omega
  · simp only; split <;> omega
  · simp only; split <;> omega
  · simp only; omega

theorem putNew (c : Contract cmp hash) (fuel : Nat) :
    PutNew cmp hash (htputF (V := V) cmp hash (fuel + 1)) := by
  intro t m k v hb hd h16 hm hroom
  have hd' := hb.dead
  obtain ⟨t', h1, h2, h3, h4, h5, h6, h7⟩ := base_put c hb
    (free_of_load hb.base0 (by omega) h16) k v (Or.inl hd)
  refine ⟨t', ?_, h2, h3, by omega, h6 hm⟩
  have := h6 hm
  rw [htputF, h1]
  simp only [Res.bind_ok]
  rw [if_neg (by omega)]
  try simp only [Res.bind_ok]
  rw [if_neg (by omega)]

theorem putAny (c : Contract cmp hash) (fuel : Nat) :
    PutAny hash (htputF (V := V) cmp hash (fuel + 1)) := by
  intro t k v hb hd h16 hroom
  have hd' := hb.dead
  obtain ⟨t', h1, h2, h3, h4, h5, h7⟩ := base_put0 c hb
    (free_of_load hb (by omega) h16) k v
  refine ⟨t', ?_, h2, h3, by omega, h5⟩
  rw [htputF, h1]
  simp only [Res.bind_ok]
  rw [if_neg (by omega)]
  try simp only [Res.bind_ok]
  rw [if_neg (by omega)]

/-- Load facts between operations. -/
structure Load (t : Ht K V) : Prop where
  big : 16 ≤ t.slots.length
  half : 2 * t.nelt ≤ t.slots.length
  used : 4 * (t.nelt + t.slots.countP isDead) ≤ 3 * t.slots.length

theorem Load.n {t : Ht K V} (hl : Load t) {n : Nat} (hn : t.slots.length = 2^n) : 4 ≤ n := by
  have := hl.big
  rw [hn] at this
  by_contra h
  have h3 : n ≤ 3 := by omega
  have := Nat.pow_le_pow_right (n := 2) (by omega) h3
  omega

theorem htput_ok (c : Contract cmp hash) {t : Ht K V} {m : K → Option V} (hb : Base cmp hash t m)
    (hl : Load t) (k : K) (v : V) (hsafe : t.ndead = 0 ∨ m k = none) :
    ∃ t', htput cmp hash t k v = .ok t' ∧ Base cmp hash t' (upd cmp m k (some v)) ∧ Load t' ∧
      t'.ndead ≤ t.ndead := by
  obtain ⟨n, hn⟩ := hb.inv.pow
  have hn4 := hl.n hn
  obtain ⟨t1, h1, hb1, hlen1, hd1, hn1, -, hcd1⟩ := base_put c hb (free_of_load hb.base0 hl.used hl.big) k v hsafe
  have hbig := hl.big
  have hhalf := hl.half
  unfold htput
  rw [htputF, h1]
  simp only [Res.bind_ok]
  by_cases hg : t1.slots.length < t1.nelt * 2
  · rw [if_pos hg, hlen1, hn, ← Nat.pow_succ]
    obtain ⟨t2, h2, hb2, hlen2, hd2, hn2⟩ := reinsert_ok c (putNew (V := V) c 0) hb1 (n+1) (by omega)
      (by rw [Nat.pow_succ]; omega)
    rw [h2]
    simp only [Res.bind_ok]
    rw [if_neg (by omega)]
    have := hb2.dead
    refine ⟨t2, rfl, hb2, ⟨?_, ?_, ?_⟩, by omega⟩
    · rw [hlen2, Nat.pow_succ]; omega
    · rw [hlen2, Nat.pow_succ]; omega
    · rw [hlen2, Nat.pow_succ]; omega
  · rw [if_neg hg]
    try simp only [Res.bind_ok]
    by_cases hg2 : t1.slots.length < t1.ndead * 4
    · rw [if_pos hg2, hlen1, hn]
      obtain ⟨t2, h2, hb2, hlen2, hd2, hn2⟩ := reinsert_ok c (putNew (V := V) c 0) hb1 n (by omega)
        (by omega)
      have := hb2.dead
      refine ⟨t2, h2, hb2, ⟨?_, ?_, ?_⟩, by omega⟩
      · omega
      · omega
      · omega
    · rw [if_neg hg2]
      have := hb1.dead
      exact ⟨t1, rfl, hb1, ⟨by omega, by omega, by omega⟩, hd1⟩

theorem htput_ok0 (c : Contract cmp hash) {t : Ht K V} (hb : Base0 hash t)
    (hl : Load t) (k : K) (v : V) :
    ∃ t', htput cmp hash t k v = .ok t' ∧ Base0 hash t' ∧ Load t' := by
  obtain ⟨n, hn⟩ := hb.inv.pow
  have hn4 := hl.n hn
  obtain ⟨t1, h1, hb1, hlen1, hd1, hn1, hcd1⟩ := base_put0 c hb (free_of_load hb hl.used hl.big) k v
  have hbig := hl.big
  have hhalf := hl.half
  unfold htput
  rw [htputF, h1]
  simp only [Res.bind_ok]
  by_cases hg : t1.slots.length < t1.nelt * 2
  · rw [if_pos hg, hlen1, hn, ← Nat.pow_succ]
    obtain ⟨t2, h2, hb2, hlen2, hd2, hn2⟩ := reinsert_ok0 (putAny (V := V) c 0) hb1 (n+1) (by omega)
      (by rw [Nat.pow_succ]; omega)
    rw [h2]
    simp only [Res.bind_ok]
    rw [if_neg (by omega)]
    have := hb2.dead
    refine ⟨t2, rfl, hb2, ⟨?_, ?_, ?_⟩⟩
    · rw [hlen2, Nat.pow_succ]; omega
    · rw [hlen2, Nat.pow_succ]; omega
    · rw [hlen2, Nat.pow_succ]; omega
  · rw [if_neg hg]
    try simp only [Res.bind_ok]
    by_cases hg2 : t1.slots.length < t1.ndead * 4
    · rw [if_pos hg2, hlen1, hn]
      obtain ⟨t2, h2, hb2, hlen2, hd2, hn2⟩ := reinsert_ok0 (putAny (V := V) c 0) hb1 n (by omega)
        (by omega)
      have := hb2.dead
      refine ⟨t2, h2, hb2, ⟨?_, ?_, ?_⟩⟩
      · omega
      · omega
      · omega
    · rw [if_neg hg2]
      have := hb1.dead
      exact ⟨t1, rfl, hb1, ⟨by omega, by omega, by omega⟩⟩

theorem htidx_ok (c : Contract cmp hash) {t : Ht K V} (hb : Base0 hash t)
    (hl : Load t) (k : K) :
    (∃ i h' k' v, htidx cmp hash t k = .ok (some i) ∧
        t.slots[i]? = some (Slot.used h' k' v false) ∧ cmp k' k = true) ∨
    (htidx cmp hash t k = .ok none ∧
        ∀ (j h' : Nat) (k' : K) (v : V), t.slots[j]? = some (Slot.used h' k' v false) → cmp k' k = false) := by
  have := idx_spec c hb.inv (free_of_load hb hl.used hl.big) k (idxStop cmp (xhash hash k) k) rfl (by
    intro k' v' d
    simp only [idxStop]
    by_cases hc : cmp k' k = true
    · have := c.xhash hc
      cases d <;> simp [this, hc]
    · have hc : cmp k' k = false := by simpa using hc
      by_cases hx : xhash hash k' = xhash hash k <;> cases d <;> simp [hc, hx])
  rcases this with ⟨i, h', k', v, h1, h2, h3⟩ | ⟨i, h1, h2⟩
  · left
    exact ⟨i, h', k', v, by simp [htidx, h1], h2, h3⟩
  · right
    exact ⟨by simp [htidx, h1], h2⟩

theorem htget_ok (c : Contract cmp hash) {t : Ht K V} {m : K → Option V} (hb : Base cmp hash t m)
    (hl : Load t) (k : K) : htget cmp hash t k = .ok (m k) := by
  rcases htidx_ok c hb.base0 hl k with ⟨i, h', k', v, h1, h2, h3⟩ | ⟨h1, h2⟩
  · rw [(hb.rep k v).2 ⟨i, h', k', h2, h3⟩]
    simp [htget, h1, rdUB, h2]
  · have : m k = none := by
      cases hm : m k with
      | none => rfl
      | some v =>
        obtain ⟨i, h, k', hi, hc⟩ := (hb.rep k v).1 hm
        rw [h2 i h k' v hi] at hc; cases hc
    simp [htget, h1, this]

theorem hthas_ok (c : Contract cmp hash) {t : Ht K V} {m : K → Option V} (hb : Base cmp hash t m)
    (hl : Load t) (k : K) : hthas cmp hash t k = .ok (m k).isSome := by
  rcases htidx_ok c hb.base0 hl k with ⟨i, h', k', v, h1, h2, h3⟩ | ⟨h1, h2⟩
  · rw [(hb.rep k v).2 ⟨i, h', k', h2, h3⟩]
    simp [hthas, h1]
  · have : m k = none := by
      cases hm : m k with
      | none => rfl
      | some v =>
        obtain ⟨i, h, k', hi, hc⟩ := (hb.rep k v).1 hm
        rw [h2 i h k' v hi] at hc; cases hc
    simp [hthas, h1, this]

theorem htdel_ok (c : Contract cmp hash) {t : Ht K V} {m : K → Option V} (hb : Base cmp hash t m)
    (hl : Load t) (k : K) :
    ∃ t', htdel cmp hash t k = .ok t' ∧ Base cmp hash t' (upd cmp m k none) ∧ Load t' := by
  rcases htidx_ok c hb.base0 hl k with ⟨i, h', k', v, h1, h2, h3⟩ | ⟨h1, h2⟩
  · obtain ⟨hlt, h2'⟩ := List.getElem?_eq_some_iff.1 h2
    obtain ⟨h4, h5⟩ := del_inv c hb.inv hb.rep h2 h3
    have hll := live_del h2
    have hdd := dead_del h2
    have hbd := hb.dead
    have hbn := hb.nelt
    have := hl.half
    have := hl.used
    refine ⟨⟨t.slots.set i (Slot.used h' k' v true), t.nelt - 1, t.ndead + 1⟩, ?_,
      ⟨h4, h5, ?_, ?_⟩, ⟨by simpa using hl.big, ?_, ?_⟩⟩
    · simp [htdel, h1, rdUB, h2, wrUB_ok _ hlt]
    · simp only; omega
    · simp only; omega
    · simp only [List.length_set]; omega
    · simp only [List.length_set]; omega
  · refine ⟨t, by simp [htdel, h1], ⟨hb.inv, ?_, hb.nelt, hb.dead⟩, hl⟩
    intro x w
    unfold upd
    split
    · next hx =>
      simp only [reduceCtorEq, false_iff]
      rintro ⟨i, h, k', hi, hc⟩
      have := h2 i h k' w hi
      rw [c.trans _ _ _ hc (c.symm _ _ hx)] at this; cases this
    · exact hb.rep x w

theorem htdel_ok0 (c : Contract cmp hash) {t : Ht K V} (hb : Base0 hash t)
    (hl : Load t) (k : K) :
    ∃ t', htdel cmp hash t k = .ok t' ∧ Base0 hash t' ∧ Load t' := by
  rcases htidx_ok c hb hl k with ⟨i, h', k', v, h1, h2, h3⟩ | ⟨h1, h2⟩
  · obtain ⟨hlt, h2'⟩ := List.getElem?_eq_some_iff.1 h2
    have h4 := del_inv0 hb.inv h2
    have hll := live_del h2
    have hdd := dead_del h2
    have hbd := hb.dead
    have hbn := hb.nelt
    have := hl.half
    have := hl.used
    refine ⟨⟨t.slots.set i (Slot.used h' k' v true), t.nelt - 1, t.ndead + 1⟩, ?_,
      ⟨h4, ?_, ?_⟩, ⟨by simpa using hl.big, ?_, ?_⟩⟩
    · simp [htdel, h1, rdUB, h2, wrUB_ok _ hlt]
    · simp only; omega
    · simp only; omega
    · simp only [List.length_set]; omega
    · simp only [List.length_set]; omega
  · exact ⟨t, by simp [htdel, h1], hb, hl⟩

theorem htkeys_ok {t : Ht K V} (hb : Base0 hash t) :
    htkeys t = .ok ((entries t.slots).map Prod.fst) := by
  unfold htkeys
  rw [liveKeys_eq, if_pos]
  rw [List.length_map, length_entries, hb.nelt]

theorem load_mkht : Load (mkht : Ht K V) := by
  constructor <;> simp [mkht, fresh, isDead]

end Verif.CHtab
