import Verif.Htab.CLemmas
import Verif.Htab.StdLemmas
import Verif.Htab.Spec

/-!
# C02 and C03: the hash tables are finite maps

The full claims (`FullClaim` below) are false: `htput` stops probing at the
first tombstone, so re-putting a key that lives behind a tombstone stores it a
second time.  We prove

* the negation, with concrete histories (`htab_history_violated`,
  `htab_stale_value`);
* the full refinement for histories in which keys put after the first deletion
  are absent at that moment (`htab_history_partial`), in particular for all
  histories without deletions;
* for *all* histories: no undefined behaviour, no failed assertion, no endless
  probing (`htab_total`).
-/

namespace Verif.Htab

theorem specStep_put {K V : Type} (cmp : K → K → Bool) (m : K → Option V) (k : K) (v : V) :
    specStep cmp m (.put k v) = upd cmp m k (some v) := rfl

theorem specStep_del {K V : Type} (cmp : K → K → Bool) (m : K → Option V) (k : K) :
    specStep cmp m (.del k) = upd cmp m k none := rfl

theorem keys_list {K V : Type} {cmp : K → K → Bool} {hash : K → Nat} {t : Ht K V}
    {m : K → Option V} (hb : Base cmp hash t m) :
    ListsDomain cmp m ((entries t.slots).map Prod.fst) := by
  refine ⟨?_, ?_⟩
  · rw [List.pairwise_map]
    exact entries_distinct hb.inv.uniq
  · intro k
    rw [Option.isSome_iff_exists]
    constructor
    · rintro ⟨v, hv⟩
      obtain ⟨i, h, k', hi, hc⟩ := (hb.rep k v).1 hv
      exact ⟨k', List.mem_map.2 ⟨(k', v), mem_entries.2 ⟨i, h, hi⟩, rfl⟩, hc⟩
    · rintro ⟨k', hk', hc⟩
      obtain ⟨⟨k'', v⟩, hm, rfl⟩ := List.mem_map.1 hk'
      obtain ⟨i, h, hi⟩ := mem_entries.1 hm
      exact ⟨v, (hb.rep k v).2 ⟨i, h, _, hi, hc⟩⟩

end Verif.Htab

namespace Verif.CHtab
open Verif.Htab

variable {K V : Type}

/-- One call on the modelled util/htab.c. -/
def step (cmp : K → K → Bool) (hash : K → Nat) (t : Ht K V) : Op K V → Res (Ht K V)
  | .put k v => htput cmp hash t k v
  | .del k => htdel cmp hash t k

/-- A history of calls. -/
def run (cmp : K → K → Bool) (hash : K → Nat) (t : Ht K V) : List (Op K V) → Res (Ht K V)
  | [] => .ok t
  | o :: os => do let t ← step cmp hash t o; run cmp hash t os

/-- The table `t` answers every query like the map `m`. -/
def Answers (cmp : K → K → Bool) (hash : K → Nat) (t : Ht K V) (m : K → Option V) : Prop :=
  (∀ k, htget cmp hash t k = .ok (m k)) ∧ (∀ k, hthas cmp hash t k = .ok (m k).isSome) ∧
  ∃ ks, htkeys t = .ok ks ∧ ListsDomain cmp m ks

/-- The full claim C02. -/
def FullClaim (K V : Type) : Prop :=
  ∀ (cmp : K → K → Bool) (hash : K → Nat), Contract cmp hash → ∀ ops : List (Op K V),
    ∃ t, run cmp hash mkht ops = .ok t ∧ Answers cmp hash t (specRun cmp (fun _ => none) ops)

/-- **C02, part.** Missing for the full claim: histories that put a key which is
already present after some deletion (there the claim is false). -/
theorem htab_history_partial (cmp : K → K → Bool) (hash : K → Nat) (c : Contract cmp hash)
    (ops : List (Op K V)) (safe : Safe cmp (fun _ => none) false ops) :
    ∃ t, run cmp hash mkht ops = .ok t ∧ Answers cmp hash t (specRun cmp (fun _ => none) ops) := by
  have gen : ∀ (ops : List (Op K V)) (t : Ht K V) (m : K → Option V) (del : Bool),
      Base cmp hash t m → Load t → (del = false → t.ndead = 0) → Safe cmp m del ops →
      ∃ t', run cmp hash t ops = .ok t' ∧ Answers cmp hash t' (specRun cmp m ops) := by
    intro ops
    induction ops with
    | nil =>
      intro t m del hb hl _ _
      exact ⟨t, rfl, htget_ok c hb hl, hthas_ok c hb hl, _, htkeys_ok hb.base0, keys_list hb⟩
    | cons o os ih =>
      intro t m del hb hl hdel hs
      cases o with
      | put k v =>
        obtain ⟨h1, h2⟩ := hs
        obtain ⟨t1, he, hb1, hl1, hd1⟩ := htput_ok c hb hl k v (h1.imp hdel id)
        obtain ⟨t2, he2, ha⟩ := ih t1 _ del hb1 hl1 (fun h => by have := hdel h; omega) h2
        exact ⟨t2, by simp [run, step, he, he2], ha⟩
      | del k =>
        obtain ⟨t1, he, hb1, hl1⟩ := htdel_ok c hb hl k
        obtain ⟨t2, he2, ha⟩ := ih t1 _ true hb1 hl1 (fun h => by cases h) hs
        exact ⟨t2, by simp [run, step, he, he2], ha⟩
  exact gen ops mkht _ false (base_fresh cmp hash 4) load_mkht (fun _ => rfl) safe

/-- Every history without deletions is safe, hence covered by `htab_history_partial`. -/
theorem safe_of_no_del (cmp : K → K → Bool) (ops : List (Op K V)) (m : K → Option V)
    (h : ∀ k, Op.del k ∉ ops) : Safe cmp m false ops := by
  induction ops generalizing m with
  | nil => trivial
  | cons o os ih =>
    cases o with
    | put k v => exact ⟨Or.inl rfl, ih _ fun k hk => h k (by simp [hk])⟩
    | del k => exact absurd (by simp) (h k)

/-- The compiler never deletes while building symbol tables: complete refinement
for delete-free histories, whatever the hash function. -/
theorem htab_no_delete_partial (cmp : K → K → Bool) (hash : K → Nat) (c : Contract cmp hash)
    (ops : List (Op K V)) (h : ∀ k, Op.del k ∉ ops) :
    ∃ t, run cmp hash mkht ops = .ok t ∧ Answers cmp hash t (specRun cmp (fun _ => none) ops) :=
  htab_history_partial cmp hash c ops (safe_of_no_del cmp ops _ h)

/-- For every history, including those outside `Safe`: all calls and all
queries return (no undefined behaviour, no assertion failure, no endless probe
loop), and `htkeys` never overruns its array. -/
theorem htab_total (cmp : K → K → Bool) (hash : K → Nat) (c : Contract cmp hash)
    (ops : List (Op K V)) :
    ∃ t, run cmp hash mkht ops = .ok t ∧ (∀ k, ∃ r, htget cmp hash t k = .ok r) ∧
      (∀ k, ∃ r, hthas cmp hash t k = .ok r) ∧ ∃ ks, htkeys t = .ok ks := by
  have gen : ∀ (ops : List (Op K V)) (t : Ht K V), Base0 hash t → Load t →
      ∃ t', run cmp hash t ops = .ok t' ∧ Base0 hash t' ∧ Load t' := by
    intro ops
    induction ops with
    | nil => intro t hb hl; exact ⟨t, rfl, hb, hl⟩
    | cons o os ih =>
      intro t hb hl
      cases o with
      | put k v =>
        obtain ⟨t1, he, hb1, hl1⟩ := htput_ok0 c hb hl k v
        obtain ⟨t2, he2, ha⟩ := ih t1 hb1 hl1
        exact ⟨t2, by simp [run, step, he, he2], ha⟩
      | del k =>
        obtain ⟨t1, he, hb1, hl1⟩ := htdel_ok0 c hb hl k
        obtain ⟨t2, he2, ha⟩ := ih t1 hb1 hl1
        exact ⟨t2, by simp [run, step, he, he2], ha⟩
  obtain ⟨t, h1, hb, hl⟩ := gen ops mkht (base_fresh cmp hash 4).base0 load_mkht
  refine ⟨t, h1, ?_, ?_, _, htkeys_ok hb⟩
  · intro k
    rcases htidx_ok c hb hl k with ⟨i, h', k', v, h1, h2, h3⟩ | ⟨h1, h2⟩
    · exact ⟨some v, by simp [htget, h1, rdUB, h2]⟩
    · exact ⟨none, by simp [htget, h1]⟩
  · intro k
    rcases htidx_ok c hb hl k with ⟨i, h', k', v, h1, h2, h3⟩ | ⟨h1, h2⟩
    · exact ⟨true, by simp [hthas, h1]⟩
    · exact ⟨false, by simp [hthas, h1]⟩

/-- All keys collide; equality is equality of numbers. -/
theorem collide : Contract (fun a b : Nat => decide (a = b)) (fun _ => 7) :=
  ⟨by simp, by intro a b h; simpa using (of_decide_eq_true h).symm, by
    intro a b c h1 h2; simp_all, by intros; rfl⟩

/-- The full claim is false: after put 1, put 2, del 1, put 2, del 2 the key 2 is
still reported present. -/
theorem htab_history_violated : ¬ FullClaim Nat Nat := by
  intro h
  obtain ⟨t, h1, h2⟩ := h _ _ collide [.put 1 10, .put 2 20, .del 1, .put 2 30, .del 2]
  have hrun : (run (fun a b : Nat => decide (a = b)) (fun _ => 7) mkht
        [.put 1 10, .put 2 20, .del 1, .put 2 30, .del 2] >>= fun t =>
      hthas (fun a b : Nat => decide (a = b)) (fun _ => 7) t 2) = Res.ok true := by decide +kernel
  rw [h1, Res.bind_ok, h2.2.1 2] at hrun
  simp [specRun, specStep] at hrun

/-- The same defect without any later deletion: after growth the stale duplicate
overwrites the newer value, `htget` returns 20 although 30 was put last. -/
theorem htab_stale_value :
    (do let t ← run (fun a b : Nat => decide (a = b)) (fun _ => 7) mkht
          [.put 1 10, .put 2 20, .del 1, .put 2 30, .put 3 0, .put 4 0, .put 5 0, .put 6 0,
           .put 7 0, .put 8 0, .put 9 0, .put 10 0, .put 11 0]
        htget (fun a b : Nat => decide (a = b)) (fun _ => 7) t 2) = Res.ok (some 20) ∧
    specRun (fun a b : Nat => decide (a = b)) (fun _ => none)
          [.put 1 10, .put 2 20, .del 1, .put 2 30, .put 3 0, .put 4 0, .put 5 0, .put 6 0,
           .put 7 0, .put 8 0, .put 9 0, .put 10 0, .put 11 0] 2 = some 30 := by
  constructor
  · decide +kernel
  · simp [specRun, specStep]

/-- A history with a deletion, a re-insertion and growth that is `Safe`. -/
example : Safe (fun a b : Nat => decide (a = b)) (fun _ => none) false
    [.put 1 10, .put 2 20, .put 1 11, .del 1, .put 3 30, .put 1 12] := by
  simp [Safe, specStep]

end Verif.CHtab

namespace Verif.StdHtab
open Verif.Htab

variable {K V : Type}

/-- One call on the modelled lib/std/htab.myr. -/
def step (eq : K → K → Bool) (hash : K → Nat) (t : Ht K V) : Op K V → Res (Ht K V)
  | .put k v => htput eq hash t k v
  | .del k => htdel eq hash t k

/-- A history of calls. -/
def run (eq : K → K → Bool) (hash : K → Nat) (t : Ht K V) : List (Op K V) → Res (Ht K V)
  | [] => .ok t
  | o :: os => do let t ← step eq hash t o; run eq hash t os

/-- The table `t` answers every query like the map `m`. -/
def Answers (eq : K → K → Bool) (hash : K → Nat) (t : Ht K V) (m : K → Option V) : Prop :=
  (∀ k, htget eq hash t k = .ok (m k)) ∧ (∀ k, hthas eq hash t k = .ok (m k).isSome) ∧
  (∀ k d, htgetv eq hash t k d = .ok ((m k).getD d)) ∧
  ∃ ks, htkeys t = .ok ks ∧ ListsDomain eq m ks ∧ htcount t = ks.length

/-- The full claim C03. -/
def FullClaim (K V : Type) : Prop :=
  ∀ (eq : K → K → Bool) (hash : K → Nat), Contract eq hash → ∀ ops : List (Op K V),
    ∃ t, run eq hash mkht ops = .ok t ∧ Answers eq hash t (specRun eq (fun _ => none) ops)

/-- **C03, part.** Missing for the full claim: histories that put a key which is
already present after some deletion (there the claim is false). -/
theorem htab_history_partial (eq : K → K → Bool) (hash : K → Nat) (c : Contract eq hash)
    (ops : List (Op K V)) (safe : Safe eq (fun _ => none) false ops) :
    ∃ t, run eq hash mkht ops = .ok t ∧ Answers eq hash t (specRun eq (fun _ => none) ops) := by
  have gen : ∀ (ops : List (Op K V)) (t : Ht K V) (m : K → Option V) (del : Bool),
      Base eq hash t m → Load t → (del = false → t.ndead = 0) → Safe eq m del ops →
      ∃ t', run eq hash t ops = .ok t' ∧ Answers eq hash t' (specRun eq m ops) := by
    intro ops
    induction ops with
    | nil =>
      intro t m del hb hl _ _
      refine ⟨t, rfl, htget_ok c hb hl, hthas_ok c hb hl, htgetv_ok c hb hl, _,
        htkeys_ok hb.base0, keys_list hb, ?_⟩
      rw [List.length_map, length_entries]
      exact hb.nelt
    | cons o os ih =>
      intro t m del hb hl hdel hs
      cases o with
      | put k v =>
        obtain ⟨h1, h2⟩ := hs
        obtain ⟨t1, he, hb1, hl1, hd1⟩ := htput_ok c hb hl k v (h1.imp hdel id)
        obtain ⟨t2, he2, ha⟩ := ih t1 _ del hb1 hl1 (fun h => by have := hdel h; omega) h2
        exact ⟨t2, by simp [run, step, he, he2], ha⟩
      | del k =>
        obtain ⟨t1, he, hb1, hl1⟩ := htdel_ok c hb hl k
        obtain ⟨t2, he2, ha⟩ := ih t1 _ true hb1 hl1 (fun h => by cases h) hs
        exact ⟨t2, by simp [run, step, he, he2], ha⟩
  exact gen ops mkht _ false (base_fresh eq hash 5) load_mkht (fun _ => rfl) safe

/-- Complete refinement for delete-free histories, whatever the hash function. -/
theorem htab_no_delete_partial (eq : K → K → Bool) (hash : K → Nat) (c : Contract eq hash)
    (ops : List (Op K V)) (h : ∀ k, Op.del k ∉ ops) :
    ∃ t, run eq hash mkht ops = .ok t ∧ Answers eq hash t (specRun eq (fun _ => none) ops) :=
  htab_history_partial eq hash c ops (CHtab.safe_of_no_del eq ops _ h)

/-- For every history: all calls and all queries return (no failed bounds check,
no endless probe loop). -/
theorem htab_total (eq : K → K → Bool) (hash : K → Nat) (c : Contract eq hash)
    (ops : List (Op K V)) :
    ∃ t, run eq hash mkht ops = .ok t ∧ (∀ k, ∃ r, htget eq hash t k = .ok r) ∧
      (∀ k, ∃ r, hthas eq hash t k = .ok r) ∧ ∃ ks, htkeys t = .ok ks ∧ htcount t = ks.length := by
  have gen : ∀ (ops : List (Op K V)) (t : Ht K V), Base0 hash t → Load t →
      ∃ t', run eq hash t ops = .ok t' ∧ Base0 hash t' ∧ Load t' := by
    intro ops
    induction ops with
    | nil => intro t hb hl; exact ⟨t, rfl, hb, hl⟩
    | cons o os ih =>
      intro t hb hl
      cases o with
      | put k v =>
        obtain ⟨t1, he, hb1, hl1⟩ := htput_ok0 c hb hl k v
        obtain ⟨t2, he2, ha⟩ := ih t1 hb1 hl1
        exact ⟨t2, by simp [run, step, he, he2], ha⟩
      | del k =>
        obtain ⟨t1, he, hb1, hl1⟩ := htdel_ok0 c hb hl k
        obtain ⟨t2, he2, ha⟩ := ih t1 hb1 hl1
        exact ⟨t2, by simp [run, step, he, he2], ha⟩
  obtain ⟨t, h1, hb, hl⟩ := gen ops mkht (base_fresh eq hash 5).base0 load_mkht
  refine ⟨t, h1, ?_, ?_, _, htkeys_ok hb, ?_⟩
  · intro k
    rcases idx_ok c hb hl k with ⟨i, h', k', v, h1, h2, h3⟩ | ⟨h1, h2⟩
    · exact ⟨some v, by simp [htget, h1, rdChk, h2]⟩
    · exact ⟨none, by simp [htget, h1]⟩
  · intro k
    rcases idx_ok c hb hl k with ⟨i, h', k', v, h1, h2, h3⟩ | ⟨h1, h2⟩
    · exact ⟨true, by simp [hthas, h1]⟩
    · exact ⟨false, by simp [hthas, h1]⟩
  · rw [List.length_map, length_entries]; exact hb.nelt

/-- The full claim is false: after put 1, put 2, del 1, put 2, del 2 the key 2 is
still reported present. -/
theorem htab_history_violated : ¬ FullClaim Nat Nat := by
  intro h
  obtain ⟨t, h1, h2⟩ := h _ _ CHtab.collide [.put 1 10, .put 2 20, .del 1, .put 2 30, .del 2]
  have hrun : (run (fun a b : Nat => decide (a = b)) (fun _ => 7) mkht
        [.put 1 10, .put 2 20, .del 1, .put 2 30, .del 2] >>= fun t =>
      hthas (fun a b : Nat => decide (a = b)) (fun _ => 7) t 2) = Res.ok true := by decide +kernel
  rw [h1, Res.bind_ok, h2.2.1 2] at hrun
  simp [specRun, specStep] at hrun

/-- `htcount` disagrees as well: the table {2} is reported to hold two keys. -/
theorem htab_count_violated :
    (do let t ← run (fun a b : Nat => decide (a = b)) (fun _ => 7) mkht
          [.put 1 10, .put 2 20, .del 1, .put 2 30]
        pure (htcount t)) = Res.ok 2 ∧
    ∀ k, (specRun (fun a b : Nat => decide (a = b)) (fun _ => none)
      [.put 1 10, .put 2 20, .del 1, .put 2 30] k).isSome ↔ k = 2 := by
  constructor
  · decide +kernel
  · intro k
    by_cases h2 : k = 2
    · simp [specRun, specStep, h2]
    · by_cases h1 : k = 1
      · simp [specRun, specStep, h1]
      · simp [specRun, specStep, Ne.symm h2, Ne.symm h1, h2]

/-- A history with a deletion, a re-insertion and growth that is `Safe`. -/
example : Safe (fun a b : Nat => decide (a = b)) (fun _ => none) false
    [.put 1 10, .put 2 20, .put 1 11, .del 1, .put 3 30, .put 1 12] := by
  simp [Safe, specStep]

end Verif.StdHtab
