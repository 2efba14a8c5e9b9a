import Verif.Alloc.Ops
import Verif.Alloc.Spec

/-!
# C17 and C18: the heap
-/

namespace Verif.Alloc

/-! ## C18 -/

/-- **C18.** The bucket of a size has the smallest class which is large enough, it is one of the fourteen which exist, and
`allocsz` tells the size of its chunks. -/
theorem size_classes {sz : Nat} (h : sz ≤ 131072) : bktnum sz < 14 ∧ Tight sz (bsz (bktnum sz)) ∧ allocsz sz = .ok (bsz (bktnum sz)) := by
  obtain ⟨h1, h2, h3⟩ := bktnum_spec h
  refine ⟨h1, ⟨⟨_, bsz_eq _⟩, h2, fun k hk => ?_⟩, allocsz_small h⟩
  rw [bsz_eq]
  rcases h3 with h3 | h3
  · rw [h3]
    have := Nat.one_le_two_pow (n := k)
    omega
  · rw [bsz_eq] at h3
    have hlt : bktnum sz - 1 < k := by
      by_cases hc : bktnum sz - 1 < k
      · exact hc
      · have := Nat.pow_le_pow_right (n := 2) (by decide) (show k ≤ bktnum sz - 1 by omega)
        omega
    have := Nat.pow_le_pow_right (n := 2) (by decide) (show bktnum sz ≤ k by omega)
    omega

example : bktnum 17 = 1 ∧ Tight 17 32 ∧ bktnum 131072 = 13 ∧ bktnum 65537 = 13 ∧ bktnum 65536 = 12 := by
  refine ⟨by decide +kernel, ?_, by decide +kernel, by decide +kernel, by decide +kernel⟩
  have := (size_classes (sz := 17) (by decide)).2.1
  rwa [show bsz (bktnum 17) = 32 by decide +kernel] at this

/-- Larger requests are rounded to whole pages. -/
theorem large_classes {sz : Nat} (h : 131072 < sz) : ∃ n, allocsz sz = .ok n ∧ n % 4096 = 0 ∧ sz ≤ n ∧ n < sz + 4096 := by
  have := align_spec sz (a := 4096) (by decide)
  exact ⟨_, if_neg (by omega), this.2.1, this.1, this.2.2⟩

example : allocsz 131073 = .ok 135168 := rfl

/-! ## C17 -/

theorem reach_inv {st : St} {L : List (Nat × Nat)} (h : Reach Answers st L) : ∃ g, Inv st g L := by
  have grant : ∀ {st : St} {os : Nat → Option Nat} {sz : Nat}, Contract st os → Answers os sz → ∃ p, os (asks sz) = some p ∧ Grant st.mapped (asks sz) p := by
    intro st os sz hc ha
    obtain ⟨p, hp⟩ := Option.isSome_iff_exists.1 ha
    exact ⟨p, hp, hc _ p hp⟩
  induction h with
  | init m => exact ⟨_, init_inv m⟩
  | alloc hr hc ha he ih =>
    obtain ⟨g, hi⟩ := ih
    obtain ⟨p, st', g', e, i, -⟩ := bytealloc_ok hi (grant hc ha)
    rw [he] at e
    simp only [Res.ok.injEq, Prod.mk.injEq] at e
    obtain ⟨rfl, rfl⟩ := e
    exact ⟨g', i⟩
  | zalloc hr hc ha he ih =>
    obtain ⟨g, hi⟩ := ih
    obtain ⟨p, st', g', e, i, -⟩ := zbytealloc_ok hi (grant hc ha)
    rw [he] at e
    simp only [Res.ok.injEq, Prod.mk.injEq] at e
    obtain ⟨rfl, rfl⟩ := e
    exact ⟨g', i⟩
  | free hr hm he ih =>
    obtain ⟨g, hi⟩ := ih
    obtain ⟨st', g', e, i, -⟩ := bytefree_ok (hi.perm (List.perm_cons_erase hm))
    rw [he] at e
    simp only [Res.ok.injEq] at e
    subst e
    exact ⟨g', i⟩
  | @write _ _ sz _ _ hr hm hw ih =>
    obtain ⟨g, hi⟩ := ih
    exact ⟨g, hi.write hm fun x hx => hw x (by have := (room_ge sz).1; dsimp only at hx; omega)⟩

/-- **C17.** As long as the system has memory, blocks which are live have no byte in common, at every point of every history;
they are aligned to 16 bytes, and all of their bytes are memory obtained from the system. Missing from C17: what happens when
the system has no more memory, see `sound_violated`. -/
theorem sound_partial : Sound Answers := by
  intro st L h
  obtain ⟨g, hi⟩ := reach_inv h
  constructor
  · have key : ∀ L', (∃ L0, L.Perm (L0 ++ L')) → L'.Pairwise Disjoint := by
      intro L'
      induction L' with
      | nil => intro _; exact List.Pairwise.nil
      | cons x L' ih =>
        rintro ⟨L0, hp⟩
        refine List.pairwise_cons.2 ⟨fun y hy => ?_, ih ⟨L0 ++ [x], by simpa using hp⟩⟩
        have hi2 := hi.perm (hp.trans List.perm_middle)
        have hd := hi2.apart y (List.mem_append_right _ hy)
        have h1 := room_ge x.2
        have h2 := room_ge y.2
        unfold Dj at hd
        unfold Disjoint
        dsimp only at hd
        omega
    exact key L ⟨[], List.Perm.refl _⟩
  · intro x hx
    have hl := hi.live hx
    have hr := room_ge x.2
    exact ⟨by omega, hl.2.1, fun a ha ha2 => (hl.2.2.2 a ha (by omega)).1⟩

/-- **C17**: requests are answered as long as the system has memory: no undefined behaviour, no abort. -/
theorem alloc_total_partial {st : St} {L : List (Nat × Nat)} (h : Reach Answers st L) {os : Nat → Option Nat} {sz : Nat} (hc : Contract st os) (ha : Answers os sz) :
    (∃ p st', bytealloc os st sz = .ok (p, st')) ∧ ∃ p st', zbytealloc os st sz = .ok (p, st') := by
  obtain ⟨g, hi⟩ := reach_inv h
  obtain ⟨p, hp⟩ := Option.isSome_iff_exists.1 ha
  have hg : ∃ p, os (asks sz) = some p ∧ Grant st.mapped (asks sz) p := ⟨p, hp, hc _ p hp⟩
  obtain ⟨p1, st1, g1, e1, -⟩ := bytealloc_ok hi hg
  obtain ⟨p2, st2, g2, e2, -⟩ := zbytealloc_ok hi hg
  exact ⟨⟨p1, st1, e1⟩, p2, st2, e2⟩

/-- **C17**: any live block can be freed. -/
theorem free_total {st : St} {L : List (Nat × Nat)} (h : Reach Answers st L) {p sz : Nat} (hm : (p, sz) ∈ L) : ∃ st', bytefree st p sz = .ok st' := by
  obtain ⟨g, hi⟩ := reach_inv h
  obtain ⟨st', g', e, -⟩ := bytefree_ok (hi.perm (List.perm_cons_erase hm))
  exact ⟨st', e⟩

/-- **C17**: what is in a live block stays there when others are allocated or freed. -/
theorem contents_kept {st st' : St} {L : List (Nat × Nat)} (h : Reach Answers st L) :
    (∀ os sz p, Contract st os → Answers os sz → bytealloc os st sz = .ok (p, st') → ∀ y ∈ L, ∀ x, y.1 ≤ x → x < y.1 + y.2 → st'.mem x = st.mem x) ∧
    (∀ p sz, (p, sz) ∈ L → bytefree st p sz = .ok st' → ∀ y ∈ L.erase (p, sz), ∀ x, y.1 ≤ x → x < y.1 + y.2 → st'.mem x = st.mem x) := by
  obtain ⟨g, hi⟩ := reach_inv h
  constructor
  · intro os sz p hc ha he y hy x hx hx2
    obtain ⟨q, hq⟩ := Option.isSome_iff_exists.1 ha
    obtain ⟨p1, st1, g1, e1, -, f⟩ := bytealloc_ok hi ⟨q, hq, hc _ q hq⟩
    rw [he] at e1
    simp only [Res.ok.injEq, Prod.mk.injEq] at e1
    obtain ⟨rfl, rfl⟩ := e1
    exact f y hy x hx (by have := room_ge y.2; omega)
  · intro p sz hm he y hy x hx hx2
    obtain ⟨st1, g1, e1, -, f⟩ := bytefree_ok (hi.perm (List.perm_cons_erase hm))
    rw [he] at e1
    simp only [Res.ok.injEq] at e1
    subst e1
    exact f y hy x hx (by have := room_ge y.2; omega)

/-- **C17**: `zbytealloc` gives zeros, and leaves other blocks alone. -/
theorem zeroed {st st' : St} {L : List (Nat × Nat)} (h : Reach Answers st L) {os : Nat → Option Nat} {sz p : Nat} (hc : Contract st os) (ha : Answers os sz)
    (he : zbytealloc os st sz = .ok (p, st')) : (∀ x, p ≤ x → x < p + sz → st'.mem x = 0) ∧ ∀ y ∈ L, ∀ x, y.1 ≤ x → x < y.1 + y.2 → st'.mem x = st.mem x := by
  obtain ⟨g, hi⟩ := reach_inv h
  obtain ⟨q, hq⟩ := Option.isSome_iff_exists.1 ha
  obtain ⟨p1, st1, g1, e1, -, f1, f2⟩ := zbytealloc_ok hi ⟨q, hq, hc _ q hq⟩
  rw [he] at e1
  simp only [Res.ok.injEq, Prod.mk.injEq] at e1
  obtain ⟨rfl, rfl⟩ := e1
  exact ⟨f1, fun y hy x hx hx2 => f2 y hy x hx (by have := room_ge y.2; omega)⟩

/-- A system which has one slab to give. -/
def os1 (n : Nat) : Option Nat := if n = 1048576 then some 4096 else none

theorem os1_contract (m : Mem) : Contract (init m) os1 := by
  intro n p hp
  unfold os1 at hp
  split at hp
  · next e =>
    simp only [Option.some.injEq] at hp
    subst hp
    subst e
    exact ⟨by decide, by decide, by decide, fun _ _ _ => rfl⟩
  · simp at hp

/-- A history: the first block of 100 bytes. -/
example (m : Mem) : ∃ p st', bytealloc os1 (init m) 100 = .ok (p, st') ∧ Reach Answers st' [(p, 100)] ∧ Usable st' (p, 100) := by
  obtain ⟨p, st', e⟩ := (alloc_total_partial (Reach.init m) (os1_contract m) (sz := 100) rfl).1
  have hr := Reach.alloc (A := Answers) (Reach.init m) (os1_contract m) (sz := 100) rfl e
  exact ⟨p, st', e, hr, (sound_partial _ _ hr).2 _ (by simp)⟩

/-- The first two blocks of 131072 bytes, where they are. -/
example : (match bytealloc os1 (init fun _ => 0) 131072 with
    | .ok (p, st) => (match bytealloc os1 st 131072 with
      | .ok (q, _) => decide (p = 524288 + 48 ∧ q = p + 131072)
      | _ => false)
    | _ => false) = true := by decide +kernel

/-- When the system has no memory, a large request is answered with the negated error number as if it were an address
(`bytealloc.myr:202-205` compares with -1 only): C17 does not hold for such histories. -/
theorem sound_violated : ¬ Sound Any := by
  intro h
  have he : bytealloc (fun _ => none) (init fun _ => 0) 200000 = .ok (18446744073709551604, init fun _ => 0) := by
    unfold bytealloc
    rw [if_neg (by decide)]
    unfold bigalloc
    have hb : bigtake (align 200000 4096) (init fun _ => 0).big = none := by decide +kernel
    dsimp only
    rw [hb]
    rfl
  have hr : Reach Any (init fun _ => 0) [(18446744073709551604, 200000)] :=
    Reach.alloc (Reach.init _) (fun n p hp => by simp at hp) trivial he
  have := (h _ _ hr).2 (18446744073709551604, 200000) (by simp)
  exact absurd this.2.1 (by decide)

end Verif.Alloc
