import Verif.Htab.Probe

/-! Helper lemmas on open addressing (no counterpart in /repo). -/

namespace Verif.Htab

variable {K V : Type}

/-- The contract of the client's comparison and hash functions: `cmp` is an
equivalence and equal keys hash alike. -/
structure Contract (cmp : K → K → Bool) (hash : K → Nat) : Prop where
  refl : ∀ a, cmp a a = true
  symm : ∀ a b, cmp a b = true → cmp b a = true
  trans : ∀ a b c, cmp a b = true → cmp b c = true → cmp a c = true
  hash : ∀ a b, cmp a b = true → hash a = hash b

theorem Contract.xhash {cmp : K → K → Bool} {hash : K → Nat} (c : Contract cmp hash) {a b : K}
    (h : cmp a b = true) : xhash hash a = xhash hash b := by
  simp [Htab.xhash, c.hash a b h]

theorem mkSlot_xhash (hash : K → Nat) (k kk : K) (v : V) :
    mkSlot (xhash hash k) kk v = Slot.used (xhash hash k) kk v false := by
  have : xhash hash k ≠ 0 := by unfold xhash; split <;> simp_all
  simp [mkSlot, this]

/-- Slot holds a live entry. -/
def isLive : Slot K V → Bool
  | .used _ _ _ false => true
  | _ => false

/-- Slot holds a tombstone. -/
def isDead : Slot K V → Bool
  | .used _ _ _ true => true
  | _ => false

/-- Slot was never used. -/
def isFree : Slot K V → Bool
  | .free => true
  | _ => false

theorem counts (s : List (Slot K V)) :
    s.countP isLive + s.countP isDead + s.countP isFree = s.length := by
  induction s with
  | nil => rfl
  | cons a s ih =>
    cases a with
    | free => simp [List.countP_cons, isLive, isDead, isFree]; omega
    | used h k v d => cases d <;> simp [List.countP_cons, isLive, isDead, isFree] <;> omega

theorem free_mem {s : List (Slot K V)}
    (h : s.countP isLive + s.countP isDead < s.length) : Slot.free ∈ s := by
  have := counts s
  have h2 : 0 < s.countP isFree := by omega
  rw [List.countP_pos_iff] at h2
  obtain ⟨a, ha, hf⟩ := h2
  cases a with
  | free => exact ha
  | used => simp [isFree] at hf

theorem pos_eq (n h d : Nat) : pos (2^n) h d = (h + d) % 2^n := by
  simp [pos, Nat.and_two_pow_sub_one_eq_mod]

theorem pos_lt (n h d : Nat) : pos (2^n) h d < 2^n := by
  rw [pos_eq]; exact Nat.mod_lt _ (Nat.two_pow_pos n)

theorem pos_surj (n h i : Nat) (hi : i < 2^n) : ∃ d, d < 2^n ∧ pos (2^n) h d = i := by
  have hp := Nat.two_pow_pos n
  refine ⟨(i + (2^n - h % 2^n)) % 2^n, Nat.mod_lt _ hp, ?_⟩
  rw [pos_eq, Nat.add_mod_mod]
  have h1 := Nat.mod_lt h hp
  have h2 := Nat.div_add_mod h (2^n)
  have : h + (i + (2^n - h % 2^n)) = i + 2^n * (h / 2^n + 1) := by
    rw [Nat.mul_add]; omega
  rw [this, Nat.add_mul_mod_self_left, Nat.mod_eq_of_lt hi]

theorem pos_inj (n h d e : Nat) (hd : d < 2^n) (he : e < 2^n)
    (heq : pos (2^n) h d = pos (2^n) h e) : d = e := by
  rw [pos_eq, pos_eq] at heq
  have h1 := Nat.div_add_mod (h + d) (2^n)
  have h2 := Nat.div_add_mod (h + e) (2^n)
  have h3 : (2^n * ((h+d)/2^n) : Nat) + e = 2^n * ((h+e)/2^n) + d := by omega
  have h4 := congrArg (· % 2^n) h3
  simpa [Nat.mul_add_mod, Nat.mod_eq_of_lt, hd, he] using h4.symm

theorem scan_eq {S β : Type} (slots : List S) (f : S → Option β) (h : Nat)
    (fuel di d : Nat) (b : β) (s : S) (h1 : di ≤ d) (h2 : d < di + fuel)
    (hs : slots[pos slots.length h d]? = some s) (hb : f s = some b)
    (hbefore : ∀ e, di ≤ e → e < d → ∃ s', slots[pos slots.length h e]? = some s' ∧ f s' = none) :
    scan slots f h fuel di = .ok (pos slots.length h d, b) := by
  induction fuel generalizing di with
  | zero => omega
  | succ fuel ih =>
    unfold scan
    by_cases hdd : di = d
    · subst hdd
      simp [rdUB, hs, hb]
    · obtain ⟨s', hs', hf⟩ := hbefore di (Nat.le_refl _) (by omega)
      simp only [rdUB, hs', Res.bind_ok, hf]
      exact ih (di+1) (by omega) (by omega) (fun e h3 h4 => hbefore e (by omega) h4)

theorem scan_first {S β : Type} (slots : List S) (f : S → Option β) (h n : Nat)
    (hn : slots.length = 2^n) (s0 : S) (hs0 : s0 ∈ slots) (hf0 : f s0 ≠ none) :
    ∃ d s b, d < slots.length ∧ slots[pos slots.length h d]? = some s ∧ f s = some b ∧
      scan slots f h slots.length 0 = .ok (pos slots.length h d, b) ∧
      ∀ e, e < d → ∃ s', slots[pos slots.length h e]? = some s' ∧ f s' = none := by
  classical
  obtain ⟨i, hi⟩ := List.mem_iff_getElem?.1 hs0
  have hil : i < 2^n := by
    rw [← hn]; exact (List.getElem?_eq_some_iff.1 hi).1
  obtain ⟨d0, hd0, hp0⟩ := pos_surj n h i hil
  have hex : ∃ d, ∃ s b, slots[pos slots.length h d]? = some s ∧ f s = some b := by
    cases hb : f s0 with
    | none => exact absurd hb hf0
    | some b => exact ⟨d0, s0, b, by rw [hn, hp0]; exact hi, hb⟩
  have hle : Nat.find hex ≤ d0 := by
    apply Nat.find_min'
    cases hb : f s0 with
    | none => exact absurd hb hf0
    | some b => exact ⟨s0, b, by rw [hn, hp0]; exact hi, hb⟩
  obtain ⟨s, b, h1, h2⟩ := Nat.find_spec hex
  have hbef : ∀ e, e < Nat.find hex → ∃ s', slots[pos slots.length h e]? = some s' ∧ f s' = none := by
    intro e he
    have hlt : pos slots.length h e < slots.length := by rw [hn]; exact pos_lt n h e
    refine ⟨slots[pos slots.length h e], List.getElem?_eq_getElem hlt, ?_⟩
    cases hb : f slots[pos slots.length h e] with
    | none => rfl
    | some b' =>
      exact absurd ⟨_, b', List.getElem?_eq_getElem hlt, hb⟩ (Nat.find_min hex he)
  have hlt : Nat.find hex < slots.length := lt_of_le_of_lt hle (lt_of_lt_of_eq hd0 hn.symm)
  refine ⟨Nat.find hex, s, b, hlt, h1, h2, ?_, hbef⟩
  exact scan_eq slots f h _ 0 _ b s (by omega) (by omega) h1 h2 (fun e _ h4 => hbef e h4)

/-- Representation invariant of the slot array that holds in every history. -/
structure Inv0 (hash : K → Nat) (slots : List (Slot K V)) : Prop where
  pow : ∃ n, slots.length = 2^n
  hashed : ∀ (i h : Nat) (k : K) (v : V) (d : Bool), slots[i]? = some (Slot.used h k v d) → h = xhash hash k
  chain : ∀ (i h : Nat) (k : K) (v : V), slots[i]? = some (Slot.used h k v false) →
    ∃ d, d < slots.length ∧ i = pos slots.length h d ∧
      ∀ e, e < d → slots[pos slots.length h e]? ≠ some Slot.free

/-- Representation invariant including "each key is stored at most once". -/
structure Inv (cmp : K → K → Bool) (hash : K → Nat) (slots : List (Slot K V)) : Prop
    extends Inv0 hash slots where
  uniq : ∀ (i j h : Nat) (k : K) (v : V) (h' : Nat) (k' : K) (v' : V), slots[i]? = some (Slot.used h k v false) →
    slots[j]? = some (Slot.used h' k' v' false) → cmp k k' = true → i = j

/-- The slot array represents the map `m`. -/
def Rep (cmp : K → K → Bool) (slots : List (Slot K V)) (m : K → Option V) : Prop :=
  ∀ k v, m k = some v ↔ ∃ (i h : Nat) (k' : K), slots[i]? = some (Slot.used h k' v false) ∧ cmp k' k = true

/-- Map update at the equivalence class of `k`. -/
def upd (cmp : K → K → Bool) (m : K → Option V) (k : K) (o : Option V) : K → Option V :=
  fun x => if cmp k x = true then o else m x

theorem idx_spec {cmp : K → K → Bool} {hash : K → Nat} (c : Contract cmp hash)
    {slots : List (Slot K V)} (inv : Inv0 hash slots) (hfree : Slot.free ∈ slots) (k : K)
    (f : Slot K V → Option Bool) (hf0 : f Slot.free = some false)
    (hf1 : ∀ k' v' d, f (Slot.used (xhash hash k') k' v' d) =
      if xhash hash k' = xhash hash k ∧ d = false ∧ cmp k' k = true then some true else none) :
    (∃ i h' k' v, scan slots f (xhash hash k) slots.length 0 = .ok (i, true) ∧
        slots[i]? = some (Slot.used h' k' v false) ∧ cmp k' k = true) ∨
    (∃ i, scan slots f (xhash hash k) slots.length 0 = .ok (i, false) ∧
        ∀ (j h' : Nat) (k' : K) (v : V), slots[j]? = some (Slot.used h' k' v false) → cmp k' k = false) := by
  obtain ⟨n, hn⟩ := inv.pow
  obtain ⟨d, s, b, hd, hs, hb, hscan, hbef⟩ :=
    scan_first slots f (xhash hash k) n hn .free hfree (by simp [hf0])
  cases s with
  | free =>
    right
    rw [hf0] at hb
    cases hb
    refine ⟨_, hscan, ?_⟩
    intro j h' k' v hj
    by_contra hc
    have hc : cmp k' k = true := by simpa using hc
    have hh := inv.hashed _ _ _ _ _ hj
    obtain ⟨d', hd', hp, hch⟩ := inv.chain _ _ _ _ hj
    have hxx := c.xhash hc
    rw [hh, hxx] at hp hch
    rcases Nat.lt_trichotomy d d' with h | h | h
    · exact hch d h hs
    · subst h
      rw [← hp, hj] at hs
      cases hs
    · obtain ⟨s', hs', hf'⟩ := hbef d' h
      rw [← hp, hj] at hs'
      cases hs'
      rw [hh, hf1] at hf'
      simp [hxx, hc] at hf'
  | used h' k' v' dd =>
    left
    have hh := inv.hashed _ _ _ _ _ hs
    rw [hh, hf1] at hb
    split at hb
    · next hc =>
      cases hb
      obtain ⟨-, rfl, hc⟩ := hc
      exact ⟨_, _, _, _, hscan, hs, hc⟩
    · cases hb

/-- What the probing loop of a put delivers. -/
structure PutStop (cmp : K → K → Bool) (hash : K → Nat) (slots : List (Slot K V)) (k : K)
    (i : Nat) (found : Bool) : Prop where
  lt : i < slots.length
  chain : ∃ d, d < slots.length ∧ i = pos slots.length (xhash hash k) d ∧
    ∀ e, e < d → ∃ h' k' v', slots[pos slots.length (xhash hash k) e]? = some (Slot.used h' k' v' false)
      ∧ cmp k' k = false
  hit : found = true → ∃ h' k' v', slots[i]? = some (Slot.used h' k' v' false) ∧ cmp k' k = true
  miss : found = false → ∀ h' k' v', slots[i]? ≠ some (Slot.used h' k' v' false)

theorem put_scan {cmp : K → K → Bool} {hash : K → Nat} (c : Contract cmp hash)
    {slots : List (Slot K V)} (inv : Inv0 hash slots) (hfree : Slot.free ∈ slots) (k : K)
    (f : Slot K V → Option Bool) (hf0 : f Slot.free = some false)
    (hf1 : ∀ h' k' v', f (Slot.used h' k' v' true) = some false)
    (hf2 : ∀ h' k' v', f (Slot.used h' k' v' false) =
      if h' = xhash hash k ∧ cmp k' k = true then some true else none) :
    ∃ i found, scan slots f (xhash hash k) slots.length 0 = .ok (i, found) ∧
      PutStop cmp hash slots k i found := by
  obtain ⟨n, hn⟩ := inv.pow
  obtain ⟨d, s, b, hd, hs, hb, hscan, hbef⟩ :=
    scan_first slots f (xhash hash k) n hn .free hfree (by simp [hf0])
  refine ⟨_, b, hscan, ?_, ⟨d, hd, rfl, ?_⟩, ?_, ?_⟩
  · rw [hn]; exact pos_lt _ _ _
  · intro e he
    obtain ⟨s', hs', hf'⟩ := hbef e he
    cases s' with
    | free => rw [hf0] at hf'; cases hf'
    | used h' k' v' dd =>
      cases dd with
      | true => rw [hf1] at hf'; cases hf'
      | false =>
        refine ⟨h', k', v', hs', ?_⟩
        rw [hf2] at hf'
        by_contra hc
        have hc : cmp k' k = true := by simpa using hc
        rw [if_pos ⟨by rw [inv.hashed _ _ _ _ _ hs', c.xhash hc], hc⟩] at hf'
        cases hf'
  · intro hbt
    subst hbt
    cases s with
    | free => rw [hf0] at hb; cases hb
    | used h' k' v' dd =>
      cases dd with
      | true => rw [hf1] at hb; cases hb
      | false =>
        rw [hf2] at hb
        split at hb
        · next hc => exact ⟨h', k', v', hs, hc.2⟩
        · cases hb
  · intro hbf h' k' v' hs'
    subst hbf
    rw [hs] at hs'
    cases hs'
    rw [hf2] at hb
    split at hb <;> cases hb

theorem miss_absent {cmp : K → K → Bool} {hash : K → Nat} (c : Contract cmp hash)
    {slots : List (Slot K V)} (inv : Inv0 hash slots) {k : K} {i : Nat}
    (st : PutStop cmp hash slots k i false) (hnd : slots.countP isDead = 0) :
    ∀ (j h' : Nat) (k' : K) (v' : V), slots[j]? = some (Slot.used h' k' v' false) → cmp k' k = false := by
  intro j h' k' v' hj
  by_contra hc
  have hc : cmp k' k = true := by simpa using hc
  have hh := inv.hashed _ _ _ _ _ hj
  obtain ⟨d', hd', hp, hch⟩ := inv.chain _ _ _ _ hj
  have hxx := c.xhash hc
  rw [hh, hxx] at hp hch
  obtain ⟨d, hd, hpi, hbef⟩ := st.chain
  have hmiss := st.miss rfl
  have hsi : slots[i]? = some Slot.free := by
    rw [List.getElem?_eq_getElem st.lt]
    cases hq : slots[i]'st.lt with
    | free => rfl
    | used a b e dd =>
      cases dd with
      | false => exact absurd (by rw [List.getElem?_eq_getElem st.lt, hq]) (hmiss a b e)
      | true =>
        rw [List.countP_eq_zero] at hnd
        exact absurd (by simp [isDead]) (hnd (Slot.used a b e true) (by rw [← hq]; exact List.getElem_mem _))
  rcases Nat.lt_trichotomy d d' with h | h | h
  · rw [hpi] at hsi; exact hch d h hsi
  · subst h
    rw [← hpi] at hp
    subst hp
    exact hmiss _ _ _ hj
  · obtain ⟨h2, k2, v2, hs2, hc2⟩ := hbef d' h
    rw [← hp, hj] at hs2
    cases hs2
    rw [hc] at hc2; cases hc2

theorem put_inv0 {cmp : K → K → Bool} {hash : K → Nat} (c : Contract cmp hash)
    {slots : List (Slot K V)} (inv : Inv0 hash slots) {k kk : K} (v : V) {i : Nat} {found : Bool}
    (st : PutStop cmp hash slots k i found) (hkk : cmp kk k = true) :
    Inv0 hash (slots.set i (Slot.used (xhash hash k) kk v false)) := by
  have hlt := st.lt
  constructor
  · simpa using inv.pow
  · intro j h' k' v' d' hj
    rw [List.getElem?_set] at hj
    split at hj
    · try rw [if_pos hlt] at hj
      cases hj
      exact (c.xhash hkk).symm
    · exact inv.hashed _ _ _ _ _ hj
  · intro j h' k' v' hj
    rw [List.getElem?_set] at hj
    have nofree : ∀ p : Nat, slots[p]? ≠ some Slot.free →
        (slots.set i (Slot.used (xhash hash k) kk v false))[p]? ≠ some Slot.free := by
      intro p hp
      rw [List.getElem?_set]
      split
      · simp
      · exact hp
    split at hj
    · next hij =>
      try rw [if_pos hlt] at hj
      cases hj
      obtain ⟨d, hd, hpi, hbef⟩ := st.chain
      refine ⟨d, by simpa using hd, by simpa using hij.symm.trans hpi, ?_⟩
      intro e he
      rw [List.length_set]
      apply nofree
      obtain ⟨h2, k2, v2, hs2, hc2⟩ := hbef e he
      rw [hs2]; simp
    · obtain ⟨d, hd, hpi, hch⟩ := inv.chain _ _ _ _ hj
      refine ⟨d, by simpa using hd, by simpa using hpi, ?_⟩
      intro e he
      rw [List.length_set]
      exact nofree _ (hch e he)

theorem put_inv {cmp : K → K → Bool} {hash : K → Nat} (c : Contract cmp hash)
    {slots : List (Slot K V)} (inv : Inv cmp hash slots) {m : K → Option V}
    (rep : Rep cmp slots m) {k kk : K} (v : V) {i : Nat} {found : Bool}
    (st : PutStop cmp hash slots k i found) (hkk : cmp kk k = true)
    (habs : found = false → m k = none) :
    Inv cmp hash (slots.set i (Slot.used (xhash hash k) kk v false)) ∧
    Rep cmp (slots.set i (Slot.used (xhash hash k) kk v false)) (upd cmp m k (some v)) := by
  have absent : ∀ (j h' : Nat) (k' : K) (v' : V), j ≠ i → slots[j]? = some (Slot.used h' k' v' false) → cmp k' k = false := by
    intro j h' k' v' hji hj
    by_contra hc
    have hc : cmp k' k = true := by simpa using hc
    cases hfd : found with
    | false =>
      have := (rep k v').2 ⟨j, h', k', hj, hc⟩
      rw [habs hfd] at this; cases this
    | true =>
      obtain ⟨h2, k2, v2, hs2, hc2⟩ := st.hit hfd
      exact hji (inv.uniq _ _ _ _ _ _ _ _ hj hs2 (c.trans _ _ _ hc (c.symm _ _ hc2)))
  have hlt := st.lt
  constructor
  · refine ⟨put_inv0 c inv.toInv0 v st hkk, ?_⟩
    intro a b h1 k1 v1 h2 k2 v2 ha hb hc
    rw [List.getElem?_set] at ha hb
    split at ha
    · next hia =>
      split at hb
      · next hib => omega
      · next hib =>
        try rw [if_pos hlt] at ha
        cases ha
        have := absent _ _ _ _ (Ne.symm hib) hb
        rw [c.trans _ _ _ (c.symm _ _ hc) hkk] at this
        cases this
    · next hia =>
      split at hb
      · next hib =>
        try rw [if_pos hlt] at hb
        cases hb
        have := absent _ _ _ _ (Ne.symm hia) ha
        rw [c.trans _ _ _ hc hkk] at this
        cases this
      · exact inv.uniq _ _ _ _ _ _ _ _ ha hb hc
  · intro x w
    unfold upd
    split
    · next hkx =>
      constructor
      · intro hw
        cases hw
        exact ⟨i, xhash hash k, kk, by simp [hlt], c.trans _ _ _ hkk hkx⟩
      · rintro ⟨j, h', k', hj, hc⟩
        rw [List.getElem?_set] at hj
        split at hj
        · cases hj; rfl
        · next hij =>
          have := absent _ _ _ _ (Ne.symm hij) hj
          rw [c.trans _ _ _ hc (c.symm _ _ hkx)] at this
          cases this
    · next hkx =>
      rw [rep x w]
      constructor
      · rintro ⟨j, h', k', hj, hc⟩
        refine ⟨j, h', k', ?_, hc⟩
        rw [List.getElem?_set]
        split
        · next hij =>
          exfalso
          subst hij
          cases hfd : found with
          | false => exact st.miss hfd _ _ _ hj
          | true =>
            obtain ⟨h2, k2, v2, hs2, hc2⟩ := st.hit hfd
            rw [hj] at hs2
            cases hs2
            exact hkx (c.trans _ _ _ (c.symm _ _ hc2) hc)
        · exact hj
      · rintro ⟨j, h', k', hj, hc⟩
        rw [List.getElem?_set] at hj
        split at hj
        · try rw [if_pos hlt] at hj
          cases hj
          exact absurd (c.trans _ _ _ (c.symm _ _ hkk) hc) hkx
        · exact ⟨j, h', k', hj, hc⟩

theorem del_inv0 {hash : K → Nat} {slots : List (Slot K V)} (inv : Inv0 hash slots)
    {k' : K} {v : V} {h' : Nat} {i : Nat} (hi : slots[i]? = some (Slot.used h' k' v false)) :
    Inv0 hash (slots.set i (Slot.used h' k' v true)) := by
  have hlt : i < slots.length := (List.getElem?_eq_some_iff.1 hi).1
  have live : ∀ (j h1 : Nat) (k1 : K) (v1 : V), (slots.set i (Slot.used h' k' v true))[j]? = some (Slot.used h1 k1 v1 false) ↔
      j ≠ i ∧ slots[j]? = some (Slot.used h1 k1 v1 false) := by
    intro j h1 k1 v1
    rw [List.getElem?_set]
    split
    · next hij => simp [hlt, hij.symm]
    · next hij => simp [Ne.symm hij]
  constructor
  · simpa using inv.pow
  · intro j h1 k1 v1 d1 hj
    rw [List.getElem?_set] at hj
    split at hj
    · try rw [if_pos hlt] at hj
      cases hj
      exact inv.hashed _ _ _ _ _ hi
    · exact inv.hashed _ _ _ _ _ hj
  · intro j h1 k1 v1 hj
    obtain ⟨-, hj⟩ := (live _ _ _ _).1 hj
    obtain ⟨d, hd, hpi, hch⟩ := inv.chain _ _ _ _ hj
    refine ⟨d, by simpa using hd, by simpa using hpi, ?_⟩
    intro e he
    rw [List.length_set, List.getElem?_set]
    split
    · simp
    · exact hch e he

theorem del_inv {cmp : K → K → Bool} {hash : K → Nat} (c : Contract cmp hash)
    {slots : List (Slot K V)} (inv : Inv cmp hash slots) {m : K → Option V}
    (rep : Rep cmp slots m) {k k' : K} {v : V} {h' : Nat} {i : Nat}
    (hi : slots[i]? = some (Slot.used h' k' v false)) (hc : cmp k' k = true) :
    Inv cmp hash (slots.set i (Slot.used h' k' v true)) ∧
    Rep cmp (slots.set i (Slot.used h' k' v true)) (upd cmp m k none) := by
  have hlt : i < slots.length := (List.getElem?_eq_some_iff.1 hi).1
  have live : ∀ (j h1 : Nat) (k1 : K) (v1 : V), (slots.set i (Slot.used h' k' v true))[j]? = some (Slot.used h1 k1 v1 false) ↔
      j ≠ i ∧ slots[j]? = some (Slot.used h1 k1 v1 false) := by
    intro j h1 k1 v1
    rw [List.getElem?_set]
    split
    · next hij => simp [hlt, hij.symm]
    · next hij => simp [Ne.symm hij]
  constructor
  · refine ⟨del_inv0 inv.toInv0 hi, ?_⟩
    intro a b h1 k1 v1 h2 k2 v2 ha hb
    exact inv.uniq _ _ _ _ _ _ _ _ ((live _ _ _ _).1 ha).2 ((live _ _ _ _).1 hb).2
  · intro x w
    unfold upd
    split
    · next hkx =>
      simp only [reduceCtorEq, false_iff]
      rintro ⟨j, h1, k1, hj, hc1⟩
      obtain ⟨hji, hj⟩ := (live _ _ _ _).1 hj
      exact hji (inv.uniq _ _ _ _ _ _ _ _ hj hi
        (c.trans _ _ _ hc1 (c.symm _ _ (c.trans _ _ _ hc hkx))))
    · next hkx =>
      rw [rep x w]
      constructor
      · rintro ⟨j, h1, k1, hj, hc1⟩
        refine ⟨j, h1, k1, (live _ _ _ _).2 ⟨?_, hj⟩, hc1⟩
        rintro rfl
        rw [hi] at hj
        cases hj
        exact hkx (c.trans _ _ _ (c.symm _ _ hc) hc1)
      · rintro ⟨j, h1, k1, hj, hc1⟩
        exact ⟨j, h1, k1, ((live _ _ _ _).1 hj).2, hc1⟩

theorem inv_fresh (cmp : K → K → Bool) (hash : K → Nat) (n : Nat) :
    Inv cmp hash (List.replicate (2^n) (Slot.free : Slot K V)) := by
  have hno : ∀ (i h : Nat) (k : K) (v : V) (d : Bool), (List.replicate (2^n) (Slot.free : Slot K V))[i]? ≠ some (Slot.used h k v d) := by
    intro i h k v d
    rw [List.getElem?_replicate]
    split <;> simp
  refine ⟨⟨?_, ?_, ?_⟩, ?_⟩
  · exact ⟨n, by simp⟩
  · intro i h k v d hh; exact absurd hh (by apply hno)
  · intro i h k v hh; exact absurd hh (by apply hno)
  · intro i _ h k v _ _ _ hh; exact absurd hh (by apply hno)

theorem rep_fresh (cmp : K → K → Bool) (n : Nat) :
    Rep cmp (List.replicate n (Slot.free : Slot K V)) (fun _ => none) := by
  intro k v
  simp only [reduceCtorEq, false_iff]
  rintro ⟨i, h, k', hh, -⟩
  rw [List.getElem?_replicate] at hh
  split at hh <;> simp at hh

/-- Live entries in slot order. -/
def entries (slots : List (Slot K V)) : List (K × V) :=
  slots.filterMap fun
    | .used _ k v false => some (k, v)
    | _ => none

theorem mem_entries {slots : List (Slot K V)} {k : K} {v : V} :
    (k, v) ∈ entries slots ↔ ∃ (i h : Nat), slots[i]? = some (Slot.used h k v false) := by
  unfold entries
  rw [List.mem_filterMap]
  constructor
  · rintro ⟨s, hs, he⟩
    obtain ⟨i, hi⟩ := List.mem_iff_getElem?.1 hs
    cases s with
    | free => simp at he
    | used h k1 v1 d =>
      cases d with
      | true => simp at he
      | false => simp at he; obtain ⟨rfl, rfl⟩ := he; exact ⟨i, h, hi⟩
  · rintro ⟨i, h, hi⟩
    exact ⟨_, List.mem_of_getElem? hi, rfl⟩

theorem length_entries (slots : List (Slot K V)) :
    (entries slots).length = slots.countP isLive := by
  induction slots with
  | nil => rfl
  | cons a s ih =>
    cases a with
    | free => simpa [entries, List.countP_cons, isLive] using ih
    | used h k v d =>
      cases d <;> simpa [entries, List.countP_cons, isLive] using ih

/-- Pairwise inequivalent keys. -/
theorem entries_distinct {cmp : K → K → Bool} {slots : List (Slot K V)}
    (huniq : ∀ (i j h : Nat) (k : K) (v : V) (h' : Nat) (k' : K) (v' : V), slots[i]? = some (Slot.used h k v false) →
    slots[j]? = some (Slot.used h' k' v' false) → cmp k k' = true → i = j) :
    (entries slots).Pairwise fun a b => cmp a.1 b.1 = false := by
  induction slots with
  | nil => exact List.Pairwise.nil
  | cons a s ih =>
    have hs : (entries s).Pairwise fun a b => cmp a.1 b.1 = false := by
      apply ih
      intro i j h k v h' k' v' hi hj hc
      have := huniq (i+1) (j+1) h k v h' k' v' (by simpa using hi) (by simpa using hj) hc
      omega
    cases a with
    | free => simpa [entries] using hs
    | used h k v d =>
      cases d with
      | true => simpa [entries] using hs
      | false =>
        have : entries (Slot.used h k v false :: s) = (k, v) :: entries s := by simp [entries]
        rw [this, List.pairwise_cons]
        refine ⟨?_, hs⟩
        rintro ⟨k', v'⟩ hm
        obtain ⟨i, h', hi⟩ := mem_entries.1 hm
        by_contra hc
        have := huniq 0 (i+1) h k v h' k' v' (by simp) (by simpa using hi) (by simpa using hc)
        omega

theorem countP_set_live {slots : List (Slot K V)} {i : Nat} (hi : i < slots.length) (s : Slot K V) :
    (slots.set i s).countP isLive + (if isLive slots[i] then 1 else 0) =
      slots.countP isLive + (if isLive s then 1 else 0) := by
  rw [List.countP_set hi]
  have : isLive slots[i] = true → 0 < slots.countP isLive := fun h =>
    List.countP_pos_iff.2 ⟨_, List.getElem_mem hi, h⟩
  split <;> rename_i h
  · have := this h; omega
  · omega

theorem countP_set_dead {slots : List (Slot K V)} {i : Nat} (hi : i < slots.length) (s : Slot K V) :
    (slots.set i s).countP isDead + (if isDead slots[i] then 1 else 0) =
      slots.countP isDead + (if isDead s then 1 else 0) := by
  rw [List.countP_set hi]
  have : isDead slots[i] = true → 0 < slots.countP isDead := fun h =>
    List.countP_pos_iff.2 ⟨_, List.getElem_mem hi, h⟩
  split <;> rename_i h
  · have := this h; omega
  · omega

end Verif.Htab
