import Verif.Ini.Model
import Verif.Htab.Props

/-!
# Tables whose comparison always answers "equal"

Helper lemmas: with such a comparison the model of lib/std/htab.myr behaves as with the
comparison "same hash".
-/

namespace Verif.Ini

open Verif.Htab

variable {K V : Type}

/-- Keys are the same when their (non-zero) hashes are. -/
def eqH (hash : K → Nat) (a b : K) : Bool := xhash hash a == xhash hash b

theorem xhash_ne (hash : K → Nat) (k : K) : xhash hash k ≠ 0 := by
  unfold xhash; split <;> omega

theorem xhash_xhash (hash : K → Nat) : xhash (xhash hash) = xhash hash := by
  funext k
  show (if xhash hash k = 0 then 1 else xhash hash k) = xhash hash k
  rw [if_neg (xhash_ne hash k)]

theorem contract_eqH (hash : K → Nat) : Contract (eqH hash) (xhash hash) := by
  refine ⟨fun a => by simp [eqH], fun a b h => ?_, fun a b c h1 h2 => ?_, fun a b h => ?_⟩ <;>
    simp_all [eqH]

/-- Every stored hash is the hash of the stored key, and the stored keys meet `P`. -/
def Hashed (hash : K → Nat) (P : K → Prop) (t : Ht K V) : Prop :=
  ∀ h k v d, Slot.used h k v d ∈ t.slots → h = xhash hash k ∧ P k

theorem hashed_fresh (hash : K → Nat) (P : K → Prop) (n : Nat) : Hashed hash P (fresh n : Ht K V) := by
  intro h k v d hm
  simp [fresh] at hm

theorem scan_congr {S β : Type} (slots : List S) (f g : S → Option β) (h : Nat) (hfg : ∀ s ∈ slots, f s = g s) :
    ∀ fuel di, scan slots f h fuel di = scan slots g h fuel di := by
  intro fuel
  induction fuel with
  | zero => intro di; rfl
  | succ n ih =>
    intro di
    unfold scan
    unfold rdUB
    cases hs : slots[pos slots.length h di]? with
    | none => rfl
    | some s =>
      simp only [Res.bind_ok]
      rw [hfg s (List.mem_of_getElem? hs), ih]

variable {eqt : K → K → Bool} (ht : ∀ a b, eqt a b = true) (hash : K → Nat) {P : K → Prop}
include ht

theorem putStop_true {h : Nat} {k : K} (hk : h = xhash hash k) {s : Slot K V}
    (hs : ∀ h k v d, s = Slot.used h k v d → h = xhash hash k) :
    StdHtab.putStop eqt h k s = StdHtab.putStop (eqH hash) h k s := by
  cases s with
  | free => rfl
  | used h' k' v d =>
    have := hs _ _ _ _ rfl
    subst this hk
    simp only [StdHtab.putStop, ht, eqH]
    by_cases e : xhash hash k' = xhash hash k <;> simp [e]

theorem idxStop_true {h : Nat} {k : K} (hk : h = xhash hash k) {s : Slot K V}
    (hs : ∀ h k v d, s = Slot.used h k v d → h = xhash hash k) :
    StdHtab.idxStop eqt h k s = StdHtab.idxStop (eqH hash) h k s := by
  cases s with
  | free => rfl
  | used h' k' v d =>
    have := hs _ _ _ _ rfl
    subst this hk
    simp only [StdHtab.idxStop, ht, eqH]
    by_cases e : xhash hash k' = xhash hash k <;> simp [e]

theorem idx_true {t : Ht K V} (hh : Hashed hash P t) (k : K) :
    StdHtab.idx eqt hash t k = StdHtab.idx (eqH hash) (xhash hash) t k := by
  unfold StdHtab.idx
  simp only [xhash_xhash]
  rw [scan_congr t.slots _ _ _ fun s hs => idxStop_true ht hash rfl fun h k v d e => (hh h k v d (e ▸ hs)).1]

theorem hthas_true {t : Ht K V} (hh : Hashed hash P t) (k : K) :
    StdHtab.hthas eqt hash t k = StdHtab.hthas (eqH hash) (xhash hash) t k := by
  simp only [StdHtab.hthas, idx_true ht hash hh]

theorem htget_true {t : Ht K V} (hh : Hashed hash P t) (k : K) :
    StdHtab.htget eqt hash t k = StdHtab.htget (eqH hash) (xhash hash) t k := by
  simp only [StdHtab.htget, idx_true ht hash hh]

theorem htgetv_true {t : Ht K V} (hh : Hashed hash P t) (k : K) (d : V) :
    StdHtab.htgetv eqt hash t k d = StdHtab.htgetv (eqH hash) (xhash hash) t k d := by
  simp only [StdHtab.htgetv, idx_true ht hash hh]

theorem putCore_true {t : Ht K V} (hh : Hashed hash P t) (k : K) (v : V) :
    StdHtab.putCore eqt hash t k v = StdHtab.putCore (eqH hash) (xhash hash) t k v := by
  unfold StdHtab.putCore
  simp only [xhash_xhash]
  rw [scan_congr t.slots _ _ _ fun s hs => putStop_true ht hash rfl fun h k v d e => (hh h k v d (e ▸ hs)).1]

omit ht in
theorem scan_found {t : Ht K V} {k : K} {fuel : Nat} : ∀ {di : Nat} {i : Nat} {b : Bool},
    scan t.slots (StdHtab.putStop (eqH hash) (xhash hash k) k) (xhash hash k) fuel di = .ok (i, b) → b = true →
    ∃ h' k' v', t.slots[i]? = some (Slot.used h' k' v' false) ∧ xhash hash k' = xhash hash k := by
  induction fuel with
  | zero => intro di i b h; cases h
  | succ n ih =>
    intro di i b h hb
    unfold scan at h
    obtain ⟨s, h1, h2⟩ := Res.bind_eq_ok.1 h
    have h1' : t.slots[pos t.slots.length (xhash hash k) di]? = some s := by
      unfold rdUB at h1
      split at h1
      · injection h1 with h1; rw [← h1]; assumption
      · cases h1
    split at h2
    · next b' hf =>
      injection h2 with h2
      injection h2 with h2 h3
      subst h2 h3
      cases s with
      | free => simp [StdHtab.putStop] at hf; rw [hb] at hf; cases hf
      | used h' k' v' d =>
        simp only [StdHtab.putStop] at hf
        split at hf
        · rw [hb] at hf; cases hf
        · rename_i hd
          split at hf
          · rename_i hc
            rw [Bool.and_eq_true] at hc
            refine ⟨h', k', v', ?_, by simpa [eqH] using hc.2⟩
            rw [h1']; simp at hd; rw [hd]
          · cases hf
    · exact ih h2 hb

omit ht in
theorem putCore_hashed {t t' : Ht K V} (hh : Hashed hash P t) {k : K} (hP : P k) {v : V}
    (h : StdHtab.putCore (eqH hash) (xhash hash) t k v = .ok t') : Hashed hash P t' := by
  unfold StdHtab.putCore at h
  simp only [xhash_xhash] at h
  obtain ⟨⟨i, b⟩, h1, h2⟩ := Res.bind_eq_ok.1 h
  simp only at h2
  obtain ⟨s, h3, h4⟩ := Res.bind_eq_ok.1 h2
  obtain ⟨sl, h5, h6⟩ := Res.bind_eq_ok.1 h4
  injection h6 with h6
  subst h6
  have hsl : ∃ key, P key ∧ xhash hash key = xhash hash k ∧ sl = t.slots.set i (Slot.used (xhash hash k) key v false) := by
    have hset : ∀ (x : Slot K V) (key : K), wrChk t.slots i x = .ok sl → x = mkSlot (xhash hash k) key v →
        sl = t.slots.set i (Slot.used (xhash hash k) key v false) := by
      intro x key hx e
      subst e
      rw [mkSlot_xhash] at hx
      unfold wrChk at hx
      split at hx
      · injection hx with hx; exact hx.symm
      · cases hx
    cases b with
    | false => exact ⟨k, hP, rfl, hset _ _ h5 rfl⟩
    | true =>
      obtain ⟨h', k', v', e1, e2⟩ := scan_found hash h1 rfl
      have : s = .used h' k' v' false := by
        unfold rdChk at h3; rw [e1] at h3; injection h3 with h3; exact h3.symm
      subst this
      exact ⟨k', (hh _ _ _ _ (List.mem_of_getElem? e1)).2, e2, hset _ _ h5 rfl⟩
  obtain ⟨key, e0, e1, rfl⟩ := hsl
  intro h' k' v' d hm
  rcases List.mem_or_eq_of_mem_set hm with hm | hm
  · exact hh _ _ _ _ hm
  · injection hm with a1 a2 a3 a4
    subst a1 a2
    exact ⟨e1.symm, e0⟩

omit ht in
theorem fold_true {put₁ put₂ : Ht K V → K → V → Res (Ht K V)}
    (hp : ∀ t k v, Hashed hash P t → P k → put₁ t k v = put₂ t k v ∧ ∀ t', put₂ t k v = .ok t' → Hashed hash P t')
    (old : List (Slot K V)) (ho : ∀ h k v d, Slot.used h k v d ∈ old → P k) : ∀ t, Hashed hash P t →
    old.foldlM (reinsertStep put₁) t = old.foldlM (reinsertStep put₂) t ∧
      ∀ t', old.foldlM (reinsertStep put₂) t = .ok t' → Hashed hash P t' := by
  induction old with
  | nil => intro t hh; exact ⟨rfl, fun t' h => by injection h with h; exact h ▸ hh⟩
  | cons s old ih =>
    intro t hh
    rw [List.foldlM_cons, List.foldlM_cons]
    have hs : reinsertStep put₁ t s = reinsertStep put₂ t s ∧
        ∀ t', reinsertStep put₂ t s = .ok t' → Hashed hash P t' := by
      cases s with
      | free => exact ⟨rfl, fun t' h => by injection h with h; exact h ▸ hh⟩
      | used h k v d =>
        cases d with
        | false => exact hp t k v hh (ho _ _ _ _ List.mem_cons_self)
        | true => exact ⟨rfl, fun t' h => by injection h with h; exact h ▸ hh⟩
    rw [hs.1]
    cases hr : reinsertStep put₂ t s with
    | ok t1 => simpa only [Res.bind_ok] using ih (fun h k v d hm => ho h k v d (List.mem_cons_of_mem _ hm)) t1 (hs.2 t1 hr)
    | abort => exact ⟨rfl, fun t' h => by cases h⟩
    | ub => exact ⟨rfl, fun t' h => by cases h⟩
    | spin => exact ⟨rfl, fun t' h => by cases h⟩

theorem htputF_true (fuel : Nat) : ∀ (t : Ht K V) (k : K) (v : V), Hashed hash P t → P k →
    StdHtab.htputF eqt hash fuel t k v = StdHtab.htputF (eqH hash) (xhash hash) fuel t k v ∧
      ∀ t', StdHtab.htputF (eqH hash) (xhash hash) fuel t k v = .ok t' → Hashed hash P t' := by
  induction fuel with
  | zero => intro t k v _ _; exact ⟨rfl, fun t' h => by cases h⟩
  | succ n ih =>
    intro t k v hh hP
    unfold StdHtab.htputF
    rw [putCore_true ht hash hh]
    cases hr : StdHtab.putCore (eqH hash) (xhash hash) t k v with
    | ok t1 =>
      simp only [Res.bind_ok]
      split
      · exact fold_true hash ih t1.slots
          (fun h k v d hm => (putCore_hashed hash hh hP hr h k v d hm).2) _ (hashed_fresh hash P _)
      · exact ⟨rfl, fun t' h => by injection h with h; exact h ▸ putCore_hashed hash hh hP hr⟩
    | abort => exact ⟨rfl, fun t' h => by cases h⟩
    | ub => exact ⟨rfl, fun t' h => by cases h⟩
    | spin => exact ⟨rfl, fun t' h => by cases h⟩

/-- The table stands for the map `m` on keys up to equality of hashes, and
its keys meet `P`. -/
structure Stands (hash : K → Nat) (P : K → Prop) (t : Ht K V) (m : K → Option V) : Prop where
  hashed : Hashed hash P t
  base : Base (eqH hash) (xhash hash) t m
  load : StdHtab.Load t
  nodead : t.ndead = 0

omit ht in
theorem stands_mkht : Stands hash P (StdHtab.mkht : Ht K V) (fun _ => none) :=
  ⟨hashed_fresh hash P 32, base_fresh _ _ 5, StdHtab.load_mkht, rfl⟩

theorem Stands.put {t : Ht K V} {m : K → Option V} (s : Stands hash P t m) (k : K) (hP : P k) (v : V) :
    ∃ t', StdHtab.htput eqt hash t k v = .ok t' ∧ Stands hash P t' (upd (eqH hash) m k (some v)) := by
  obtain ⟨h1, h2⟩ := htputF_true ht hash 2 t k v s.hashed hP
  obtain ⟨t', e1, e2, e3, e4⟩ := StdHtab.htput_ok (contract_eqH hash) s.base s.load k v (Or.inl s.nodead)
  refine ⟨t', ?_, h2 t' e1, e2, e3, by have := s.nodead; omega⟩
  unfold StdHtab.htput
  rw [h1]; exact e1

theorem Stands.get {t : Ht K V} {m : K → Option V} (s : Stands hash P t m) (k : K) :
    StdHtab.htget eqt hash t k = .ok (m k) := by
  rw [htget_true ht hash s.hashed, StdHtab.htget_ok (contract_eqH hash) s.base s.load]

theorem Stands.getv {t : Ht K V} {m : K → Option V} (s : Stands hash P t m) (k : K) (d : V) :
    StdHtab.htgetv eqt hash t k d = .ok ((m k).getD d) := by
  rw [htgetv_true ht hash s.hashed, StdHtab.htgetv_ok (contract_eqH hash) s.base s.load]

theorem Stands.has {t : Ht K V} {m : K → Option V} (s : Stands hash P t m) (k : K) :
    StdHtab.hthas eqt hash t k = .ok (m k).isSome := by
  rw [hthas_true ht hash s.hashed, StdHtab.hthas_ok (contract_eqH hash) s.base s.load]

omit ht in
theorem Stands.keys {t : Ht K V} {m : K → Option V} (s : Stands hash P t m) :
    ∃ ks, StdHtab.htkeys t = .ok ks ∧ ListsDomain (eqH hash) m ks ∧ ∀ k ∈ ks, P k := by
  refine ⟨_, StdHtab.htkeys_ok s.base.base0, keys_list s.base, fun k hk => ?_⟩
  obtain ⟨⟨k', v⟩, hm, rfl⟩ := List.mem_map.1 hk
  obtain ⟨i, h, hi⟩ := mem_entries.1 hm
  exact (s.hashed _ _ _ _ (List.mem_of_getElem? hi)).2

end Verif.Ini
