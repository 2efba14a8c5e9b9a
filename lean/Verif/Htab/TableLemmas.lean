import Verif.Htab.Lemmas
import Verif.Htab.Model

/-! Lemmas about whole tables (no counterpart in /repo). -/

namespace Verif.Htab

variable {K V : Type}

/-- Table facts needed for memory safety and termination. -/
structure Base0 (hash : K → Nat) (t : Ht K V) : Prop where
  inv : Inv0 hash t.slots
  nelt : t.nelt = t.slots.countP isLive
  dead : t.slots.countP isDead ≤ t.ndead

/-- Table facts with the represented map. -/
structure Base (cmp : K → K → Bool) (hash : K → Nat) (t : Ht K V) (m : K → Option V) : Prop where
  inv : Inv cmp hash t.slots
  rep : Rep cmp t.slots m
  nelt : t.nelt = t.slots.countP isLive
  dead : t.slots.countP isDead ≤ t.ndead

theorem Base.base0 {cmp : K → K → Bool} {hash : K → Nat} {t : Ht K V} {m : K → Option V}
    (b : Base cmp hash t m) : Base0 hash t := ⟨b.inv.toInv0, b.nelt, b.dead⟩

theorem base_fresh (cmp : K → K → Bool) (hash : K → Nat) (n : Nat) :
    Base cmp hash (fresh (2^n) : Ht K V) (fun _ => none) := by
  refine ⟨inv_fresh _ _ _, rep_fresh _ _, ?_, ?_⟩
  · simp [fresh, List.countP_replicate, isLive]
  · simp [fresh, List.countP_replicate, isDead]

theorem foldlM_entries (put : Ht K V → K → V → Res (Ht K V)) (old : List (Slot K V)) (t : Ht K V) :
    old.foldlM (reinsertStep put) t = (entries old).foldlM (fun t e => put t e.1 e.2) t := by
  induction old generalizing t with
  | nil => rfl
  | cons a s ih =>
    cases a with
    | free =>
      have : entries (Slot.free :: s) = entries s := by simp [entries]
      rw [this, ← ih, List.foldlM_cons]; rfl
    | used h k v d =>
      cases d with
      | true =>
        have : entries (Slot.used h k v true :: s) = entries s := by simp [entries]
        rw [this, ← ih, List.foldlM_cons]; rfl
      | false =>
        have : entries (Slot.used h k v false :: s) = (k, v) :: entries s := by simp [entries]
        rw [this, List.foldlM_cons, List.foldlM_cons]
        simp only [ih, reinsertStep]

/-- A put that inserts a new key into a table without tombstones and with room
neither fails nor resizes. -/
def PutNew (cmp : K → K → Bool) (hash : K → Nat) (put : Ht K V → K → V → Res (Ht K V)) : Prop :=
  ∀ t m k v, Base cmp hash t m → t.ndead = 0 → 16 ≤ t.slots.length → m k = none →
    2 * (t.nelt + 1) ≤ t.slots.length →
    ∃ t', put t k v = .ok t' ∧ Base cmp hash t' (upd cmp m k (some v)) ∧
      t'.slots.length = t.slots.length ∧ t'.ndead = 0 ∧ t'.nelt = t.nelt + 1

theorem insert_all {cmp : K → K → Bool} {hash : K → Nat} (c : Contract cmp hash)
    {put : Ht K V → K → V → Res (Ht K V)} (hput : PutNew cmp hash put) (es : List (K × V)) :
    ∀ (t : Ht K V) (m : K → Option V), Base cmp hash t m → t.ndead = 0 → 16 ≤ t.slots.length →
      (∀ e ∈ es, m e.1 = none) → es.Pairwise (fun a b => cmp a.1 b.1 = false) →
      2 * (t.nelt + es.length) ≤ t.slots.length →
      ∃ t' m', es.foldlM (fun t e => put t e.1 e.2) t = .ok t' ∧ Base cmp hash t' m' ∧
        t'.slots.length = t.slots.length ∧ t'.ndead = 0 ∧ t'.nelt = t.nelt + es.length ∧
        ∀ k v, m' k = some v ↔ m k = some v ∨ ∃ k', (k', v) ∈ es ∧ cmp k' k = true := by
  induction es with
  | nil =>
    intro t m hb hd hl _ _ _
    exact ⟨t, m, rfl, hb, rfl, hd, rfl, by simp⟩
  | cons e es ih =>
    intro t m hb hd hl hnone hpw hroom
    obtain ⟨k, v⟩ := e
    rw [List.pairwise_cons] at hpw
    simp only [List.length_cons] at hroom
    obtain ⟨t1, h1, hb1, hl1, hd1, hn1⟩ := hput t m k v hb hd hl (hnone (k, v) (by simp)) (by omega)
    obtain ⟨t2, m2, h2, hb2, hl2, hd2, hn2, hm2⟩ := ih t1 _ hb1 hd1 (by omega) (by
        intro e he
        have := hpw.1 e he
        simp only at this
        simp only [upd, this, Bool.false_eq_true, if_false]
        exact hnone e (by simp [he])) hpw.2 (by omega)
    refine ⟨t2, m2, by simp [List.foldlM_cons, h1, h2], hb2, by omega, hd2, by simp; omega, ?_⟩
    intro x w
    rw [hm2]
    simp only [upd, List.mem_cons, Prod.mk.injEq]
    constructor
    · rintro (h | ⟨k', hk', hc⟩)
      · split at h
        · next hx => cases h; exact Or.inr ⟨k, Or.inl ⟨rfl, rfl⟩, hx⟩
        · exact Or.inl h
      · exact Or.inr ⟨k', Or.inr hk', hc⟩
    · rintro (h | ⟨k', hk' | hk', hc⟩)
      · left
        rw [if_neg]
        · exact h
        · intro hx
          have h0 := hnone (k, v) (by simp)
          obtain ⟨i, hh, kk, hi, hcc⟩ := (hb.rep x w).1 h
          have := (hb.rep k w).2 ⟨i, hh, kk, hi, c.trans _ _ _ hcc (c.symm _ _ hx)⟩
          simp only at h0
          rw [h0] at this; cases this
      · left
        obtain ⟨rfl, rfl⟩ := hk'
        simp [hc]
      · exact Or.inr ⟨k', hk', hc⟩

theorem reinsert_ok {cmp : K → K → Bool} {hash : K → Nat} (c : Contract cmp hash)
    {put : Ht K V → K → V → Res (Ht K V)} (hput : PutNew cmp hash put) {t : Ht K V}
    {m : K → Option V} (hb : Base cmp hash t m) (n : Nat) (hn : 4 ≤ n)
    (hroom : 2 * t.nelt ≤ 2^n) :
    ∃ t', reinsert put t.slots (2^n) = .ok t' ∧ Base cmp hash t' m ∧
      t'.slots.length = 2^n ∧ t'.ndead = 0 ∧ t'.nelt = t.nelt := by
  have h16 : 16 ≤ 2^n := Nat.pow_le_pow_right (n := 2) (by omega) hn
  have hlen : (fresh (2^n) : Ht K V).slots.length = 2^n := by simp [fresh]
  obtain ⟨t', m', h1, h2, h3, h4, h5, h6⟩ := insert_all c hput (entries t.slots)
    (fresh (2^n)) _ (base_fresh cmp hash n) rfl (by rw [hlen]; exact h16) (by simp)
    (entries_distinct hb.inv.uniq) (by
      rw [hlen, length_entries, ← hb.nelt]
      simpa [fresh] using hroom)
  refine ⟨t', by rw [reinsert, foldlM_entries]; exact h1, ⟨h2.inv, ?_, h2.nelt, h2.dead⟩, by rw [h3, hlen], h4, ?_⟩
  · have : m' = m := by
      funext k
      apply Option.ext
      intro v
      rw [h6, hb.rep]
      simp only [reduceCtorEq, false_or]
      constructor
      · rintro ⟨k', hk', hc⟩
        obtain ⟨i, h, hi⟩ := mem_entries.1 hk'
        exact ⟨i, h, k', hi, hc⟩
      · rintro ⟨i, h, k', hi, hc⟩
        exact ⟨k', mem_entries.2 ⟨i, h, hi⟩, hc⟩
    rw [← this]; exact h2.rep
  · rw [h5, length_entries, ← hb.nelt]; simp [fresh]

/-- A put into any consistent table with room neither fails nor resizes
(duplicates allowed). -/
def PutAny (hash : K → Nat) (put : Ht K V → K → V → Res (Ht K V)) : Prop :=
  ∀ t k v, Base0 hash t → t.ndead = 0 → 16 ≤ t.slots.length →
    2 * (t.nelt + 1) ≤ t.slots.length →
    ∃ t', put t k v = .ok t' ∧ Base0 hash t' ∧
      t'.slots.length = t.slots.length ∧ t'.ndead = 0 ∧ t'.nelt ≤ t.nelt + 1

theorem insert_all0 {hash : K → Nat}
    {put : Ht K V → K → V → Res (Ht K V)} (hput : PutAny hash put) (es : List (K × V)) :
    ∀ (t : Ht K V), Base0 hash t → t.ndead = 0 → 16 ≤ t.slots.length →
      2 * (t.nelt + es.length) ≤ t.slots.length →
      ∃ t', es.foldlM (fun t e => put t e.1 e.2) t = .ok t' ∧ Base0 hash t' ∧
        t'.slots.length = t.slots.length ∧ t'.ndead = 0 ∧ t'.nelt ≤ t.nelt + es.length := by
  induction es with
  | nil =>
    intro t hb hd hl _
    exact ⟨t, rfl, hb, rfl, hd, by simp⟩
  | cons e es ih =>
    intro t hb hd hl hroom
    obtain ⟨k, v⟩ := e
    simp only [List.length_cons] at hroom
    obtain ⟨t1, h1, hb1, hl1, hd1, hn1⟩ := hput t k v hb hd hl (by omega)
    obtain ⟨t2, h2, hb2, hl2, hd2, hn2⟩ := ih t1 hb1 hd1 (by omega) (by omega)
    exact ⟨t2, by simp [List.foldlM_cons, h1, h2], hb2, by omega, hd2, by simp; omega⟩

theorem reinsert_ok0 {hash : K → Nat}
    {put : Ht K V → K → V → Res (Ht K V)} (hput : PutAny hash put) {t : Ht K V}
    (hb : Base0 hash t) (n : Nat) (hn : 4 ≤ n) (hroom : 2 * t.nelt ≤ 2^n) :
    ∃ t', reinsert put t.slots (2^n) = .ok t' ∧ Base0 hash t' ∧
      t'.slots.length = 2^n ∧ t'.ndead = 0 ∧ t'.nelt ≤ t.nelt := by
  have h16 : 16 ≤ 2^n := Nat.pow_le_pow_right (n := 2) (by omega) hn
  have hlen : (fresh (2^n) : Ht K V).slots.length = 2^n := by simp [fresh]
  obtain ⟨t', h1, h2, h3, h4, h5⟩ := insert_all0 hput (entries t.slots)
    (fresh (2^n)) (base_fresh (fun _ _ => false) hash n).base0 rfl (by rw [hlen]; exact h16) (by
      rw [hlen, length_entries, ← hb.nelt]
      simpa [fresh] using hroom)
  refine ⟨t', by rw [reinsert, foldlM_entries]; exact h1, h2, by rw [h3, hlen], h4, ?_⟩
  rw [length_entries, ← hb.nelt] at h5; simpa [fresh] using h5

theorem live_put {cmp : K → K → Bool} {hash : K → Nat} {slots : List (Slot K V)} {k kk : K}
    {i h : Nat} {v : V} {found : Bool} (st : PutStop cmp hash slots k i found) :
    (slots.set i (Slot.used h kk v false)).countP isLive =
      slots.countP isLive + (if found then 0 else 1) := by
  have h1 := countP_set_live st.lt (Slot.used h kk v false)
  cases found with
  | true =>
    obtain ⟨h', k', v', hs, -⟩ := st.hit rfl
    obtain ⟨hlt, hs⟩ := List.getElem?_eq_some_iff.1 hs
    simp [hs, isLive] at h1 ⊢
    omega
  | false =>
    have hm := st.miss rfl
    have : isLive (slots[i]'st.lt) = false := by
      cases hs : slots[i]'st.lt with
      | free => rfl
      | used h' k' v' d =>
        cases d with
        | true => rfl
        | false => exact absurd (List.getElem?_eq_some_iff.2 ⟨st.lt, hs⟩) (hm h' k' v')
    rw [this] at h1
    simpa [isLive] using h1

theorem dead_put {slots : List (Slot K V)} {kk : K}
    {i h : Nat} {v : V} (hi : i < slots.length) :
    (slots.set i (Slot.used h kk v false)).countP isDead + (if isDead slots[i] then 1 else 0) =
      slots.countP isDead := by
  have h1 := countP_set_dead hi (Slot.used h kk v false)
  simpa [isDead] using h1

theorem live_del {slots : List (Slot K V)} {kk : K}
    {i h : Nat} {v : V} (hi : slots[i]? = some (Slot.used h kk v false)) :
    (slots.set i (Slot.used h kk v true)).countP isLive + 1 = slots.countP isLive := by
  obtain ⟨hlt, hs⟩ := List.getElem?_eq_some_iff.1 hi
  have h1 := countP_set_live hlt (Slot.used h kk v true)
  simpa [isLive, hs] using h1

theorem dead_del {slots : List (Slot K V)} {kk : K}
    {i h : Nat} {v : V} (hi : slots[i]? = some (Slot.used h kk v false)) :
    (slots.set i (Slot.used h kk v true)).countP isDead = slots.countP isDead + 1 := by
  obtain ⟨hlt, hs⟩ := List.getElem?_eq_some_iff.1 hi
  have h1 := countP_set_dead hlt (Slot.used h kk v true)
  simpa [isDead, hs] using h1

theorem habs {cmp : K → K → Bool} {hash : K → Nat} (c : Contract cmp hash) {t : Ht K V}
    {m : K → Option V} (hb : Base cmp hash t m) {k : K} {i : Nat} {found : Bool}
    (st : PutStop cmp hash t.slots k i found) (hsafe : t.ndead = 0 ∨ m k = none) :
    found = false → m k = none := by
  rintro rfl
  rcases hsafe with h | h
  · have hd := hb.dead
    have := miss_absent c hb.inv.toInv0 st (by omega)
    cases hm : m k with
    | none => rfl
    | some v =>
      obtain ⟨j, h', k', hj, hc⟩ := (hb.rep k v).1 hm
      rw [this j h' k' v hj] at hc; cases hc
  · exact h

theorem not_found {cmp : K → K → Bool} {hash : K → Nat} {t : Ht K V}
    {m : K → Option V} (hb : Base cmp hash t m) {k : K} {i : Nat} {found : Bool}
    (st : PutStop cmp hash t.slots k i found) (hm : m k = none) : found = false := by
  cases found with
  | false => rfl
  | true =>
    obtain ⟨h', k', v', hs, hc⟩ := st.hit rfl
    have := (hb.rep k v').2 ⟨i, h', k', hs, hc⟩
    rw [hm] at this; cases this

theorem liveKeys_eq (s : List (Slot K V)) : liveKeys s = (entries s).map Prod.fst := by
  induction s with
  | nil => rfl
  | cons a s ih =>
    cases a with
    | free => simpa [liveKeys, entries] using ih
    | used h k v d => cases d <;> simpa [liveKeys, entries] using ih

theorem free_of_load {hash : K → Nat} {t : Ht K V} (hb : Base0 hash t)
    (h : 4 * (t.nelt + t.slots.countP isDead) ≤ 3 * t.slots.length) (h16 : 16 ≤ t.slots.length) :
    Slot.free ∈ t.slots := by
  apply free_mem
  rw [← hb.nelt]; omega

end Verif.Htab
