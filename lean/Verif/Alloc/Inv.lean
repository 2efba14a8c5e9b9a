import Verif.Alloc.Lemmas

/-!
# What holds of the heap between operations
-/

namespace Verif.Alloc

/-! ## Regions of memory -/

/-- Two regions, given by address and size, have nothing in common. -/
def Dj (r q : Nat × Nat) : Prop := r.1 + r.2 ≤ q.1 ∨ q.1 + q.2 ≤ r.1

theorem Dj.symm {r q : Nat × Nat} (h : Dj r q) : Dj q r := h.elim Or.inr Or.inl

/-- A region as the system hands it out, all of it mapped. -/
def Reg (mp : Nat → Bool) (r : Nat × Nat) : Prop :=
  0 < r.1 ∧ 0 < r.2 ∧ r.1 % 4096 = 0 ∧ r.2 % 4096 = 0 ∧ r.1 + r.2 ≤ 2 ^ 47 ∧ ∀ x, r.1 ≤ x → x < r.1 + r.2 → mp x = true

/-- Regions which are mapped and have nothing in common. -/
def Sep (mp : Nat → Bool) (l : List (Nat × Nat)) : Prop := l.Pairwise Dj ∧ ∀ r ∈ l, Reg mp r

theorem Sep.perm {mp : Nat → Bool} {l l' : List (Nat × Nat)} (h : Sep mp l) (hp : l.Perm l') : Sep mp l' :=
  ⟨hp.pairwise h.1 fun h => Dj.symm h, fun r hr => h.2 r (hp.mem_iff.2 hr)⟩

/-- The addresses from `p` on are mapped. -/
def mapin (mp : Nat → Bool) (p n : Nat) : Nat → Bool := fun x => if p ≤ x ∧ x < p + n then true else mp x
/-- The addresses from `p` on are not mapped. -/
def mapout (mp : Nat → Bool) (p n : Nat) : Nat → Bool := fun x => if p ≤ x ∧ x < p + n then false else mp x

theorem Sep.add {mp : Nat → Bool} {l : List (Nat × Nat)} (h : Sep mp l) {p n : Nat} (h1 : 0 < p) (h2 : 0 < n) (h3 : p % 4096 = 0) (h4 : n % 4096 = 0)
    (h5 : p + n ≤ 2 ^ 47) (h6 : ∀ x, p ≤ x → x < p + n → mp x = false) : Sep (mapin mp p n) ((p, n) :: l) := by
  refine ⟨List.pairwise_cons.2 ⟨fun q hq => ?_, h.1⟩, fun r hr => ?_⟩
  · have hr := h.2 q hq
    unfold Dj
    dsimp only
    by_cases hc : p + n ≤ q.1 ∨ q.1 + q.2 ≤ p
    · exact hc
    · exfalso
      have ha := hr.2.2.2.2.2 (max p q.1) (by omega) (by have := hr.2.1; omega)
      rw [h6 _ (by omega) (by have := hr.2.1; omega)] at ha
      exact absurd ha (by decide)
  · rcases List.mem_cons.1 hr with rfl | hr
    · exact ⟨h1, h2, h3, h4, h5, fun x hx hx2 => if_pos ⟨hx, hx2⟩⟩
    · obtain ⟨a, b, c, d, e, f⟩ := h.2 r hr
      refine ⟨a, b, c, d, e, fun x hx hx2 => ?_⟩
      unfold mapin
      split
      · rfl
      · exact f x hx hx2

theorem Sep.del {mp : Nat → Bool} {p n : Nat} {l : List (Nat × Nat)} (h : Sep mp ((p, n) :: l)) : Sep (mapout mp p n) l := by
  obtain ⟨h1, h2⟩ := List.pairwise_cons.1 h.1
  refine ⟨h2, fun r hr => ?_⟩
  obtain ⟨a, b, c, d, e, f⟩ := h.2 r (List.mem_cons_of_mem _ hr)
  refine ⟨a, b, c, d, e, fun x hx hx2 => ?_⟩
  unfold mapout
  have := h1 r hr
  unfold Dj at this
  rw [if_neg (by dsimp only at this; omega)]
  exact f x hx hx2

theorem Sep.tail {mp : Nat → Bool} {r : Nat × Nat} {l : List (Nat × Nat)} (h : Sep mp (r :: l)) : Sep mp l :=
  ⟨(List.pairwise_cons.1 h.1).2, fun q hq => h.2 q (List.mem_cons_of_mem _ hq)⟩

theorem Sep.split {mp : Nat → Bool} {p a b : Nat} {l : List (Nat × Nat)} (ha : 0 < a) (hb : 0 < b) (ha2 : a % 4096 = 0)
    (h : Sep mp ((p, a + b) :: l)) : Sep mp ((p, a) :: (p + a, b) :: l) := by
  obtain ⟨h1, h2⟩ := List.pairwise_cons.1 h.1
  obtain ⟨r1, r2, r3, r4, r5, r6⟩ := h.2 _ (List.mem_cons_self ..)
  dsimp only at r1 r2 r3 r4 r5 r6
  refine ⟨List.pairwise_cons.2 ⟨fun q hq => ?_, List.pairwise_cons.2 ⟨fun q hq => ?_, h2⟩⟩, fun r hr => ?_⟩
  · rcases List.mem_cons.1 hq with rfl | hq
    · exact Or.inl (Nat.le_refl _)
    · have := h1 q hq
      unfold Dj at this ⊢
      dsimp only at this ⊢
      omega
  · have := h1 q hq
    unfold Dj at this ⊢
    dsimp only at this ⊢
    omega
  · simp only [List.mem_cons] at hr
    rcases hr with rfl | rfl | hr
    · exact ⟨r1, ha, r3, ha2, by dsimp only; omega, fun x hx hx2 => r6 x hx (by dsimp only at *; omega)⟩
    · exact ⟨by dsimp only; omega, hb, by dsimp only; omega, by dsimp only; omega, by dsimp only; omega, fun x hx hx2 => r6 x (by dsimp only at *; omega) (by dsimp only at *; omega)⟩
    · exact h.2 r (List.mem_cons_of_mem _ hr)

theorem Sep.merge {mp : Nat → Bool} {p a b : Nat} {l : List (Nat × Nat)} (h : Sep mp ((p, a) :: (p + a, b) :: l)) : Sep mp ((p, a + b) :: l) := by
  obtain ⟨h1, h2⟩ := List.pairwise_cons.1 h.1
  obtain ⟨h3, h4⟩ := List.pairwise_cons.1 h2
  obtain ⟨r1, r2, r3, r4, r5, r6⟩ := h.2 _ (List.mem_cons_self ..)
  obtain ⟨q1, q2, q3, q4, q5, q6⟩ := h.2 (p + a, b) (by simp)
  dsimp only at r1 r2 r3 r4 r5 r6 q1 q2 q3 q4 q5 q6
  refine ⟨List.pairwise_cons.2 ⟨fun q hq => ?_, h4⟩, fun r hr => ?_⟩
  · have e1 := h1 q (List.mem_cons_of_mem _ hq)
    have e2 := h3 q hq
    have e3 := (h.2 q (by simp [hq])).2.1
    unfold Dj at e1 e2 ⊢
    dsimp only at e1 e2 ⊢
    omega
  · rcases List.mem_cons.1 hr with rfl | hr
    · refine ⟨r1, by dsimp only; omega, r3, by dsimp only; omega, by dsimp only; omega, fun x hx hx2 => ?_⟩
      dsimp only at hx hx2
      by_cases hc : x < p + a
      · exact r6 x hx hc
      · exact q6 x (by omega) (by omega)
    · exact h.2 r (by simp [hr])

/-! ## The invariant -/

/-- What the heap consists of: the slabs, and of each the region it was carved from, its bucket and its free chunks; and the two
lists of slabs of each bucket. -/
structure G where
  slabs : List Nat
  hd : Nat → Nat
  bk : Nat → Nat
  fr : Nat → List Nat
  av : Nat → List Nat
  ca : Nat → List Nat

/-- The header of a slab and its free list. -/
structure SW (m : Mem) (hd : Nat) (fr : List Nat) (s : Nat) : Prop where
  head : rd m s = hd
  freehd : rd m (s + 24) = fr.headD 0
  nfree : rd m (s + 32) = fr.length
  magic : rd m (s + 40) = Magic
  link : Link m 0 fr

/-- What is in memory. -/
structure MInv (m : Mem) (g : G) : Prop where
  words : ∀ s ∈ g.slabs, SW m (g.hd s) (g.fr s) s
  dll : ∀ i, Seg m 0 (g.av i) 0
  sll : ∀ i, Link m 8 (g.ca i)
  cap : ∀ i, ∀ s ∈ g.ca i, rd m (s + 16) = 0

/-- Slabs, chunks and the lists of slabs. -/
structure GInv (bkt : Nat → Bkt) (g : G) : Prop where
  nodup : g.slabs.Nodup
  slab : ∀ s ∈ g.slabs, s % 524288 = 0 ∧ 0 < s ∧ s + 524288 ≤ 2 ^ 47 ∧ g.bk s < 14 ∧ g.hd s ≤ s ∧ s + 524288 ≤ g.hd s + 1048576
  frn : ∀ s ∈ g.slabs, (g.fr s).Nodup ∧ ∀ c ∈ g.fr s, c ∈ chunks (g.bk s) s
  bkts : ∀ i, (bkt i).slabs = (g.av i).headD 0 ∧ (bkt i).cache = (g.ca i).headD 0 ∧ (bkt i).ncache = (g.ca i).length
  avn : ∀ i, (g.av i).Nodup ∧ ∀ s ∈ g.av i, s ∈ g.slabs ∧ g.bk s = i ∧ g.fr s ≠ []
  can : ∀ i, (g.ca i).Nodup ∧ ∀ s ∈ g.ca i, s ∈ g.slabs ∧ g.bk s = i ∧ (g.fr s).length + 1 = nper i ∧ s ∉ g.av i
  full : ∀ s ∈ g.slabs, s ∉ g.av (g.bk s) → s ∉ g.ca (g.bk s) → g.fr s = []

/-- Small allocations are chunks which are not free. -/
structure LInv (g : G) (L : List (Nat × Nat)) : Prop where
  small : ∀ x ∈ L, x.2 ≤ 131072 → ∃ s ∈ g.slabs, g.bk s = bktnum x.2 ∧ x.1 ∈ chunks (g.bk s) s ∧ x.1 ∉ g.fr s ∧ s ∉ g.ca (g.bk s)
  ne : L.Pairwise fun x y => x.2 ≤ 131072 → y.2 ≤ 131072 → x.1 ≠ y.1

/-- All that was obtained from the system. -/
def regs (g : G) (big L : List (Nat × Nat)) : List (Nat × Nat) :=
  g.slabs.map (fun s => (g.hd s, 1048576)) ++ (((big.filter fun e => e.1 != 0).map fun e => (e.2, e.1)) ++
    ((L.filter fun x => decide (131072 < x.2)).map fun x => (x.1, align x.2 4096)))

structure Inv (st : St) (g : G) (L : List (Nat × Nat)) : Prop where
  mi : MInv st.mem g
  gi : GInv st.bkt g
  li : LInv g L
  sep : Sep st.mapped (regs g st.big L)
  bz : ∀ e ∈ st.big, e.1 = 0 → e.2 = 0

/-! ## Consequences -/

theorem GInv.chunk {bkt : Nat → Bkt} {g : G} (h : GInv bkt g) {s c : Nat} (hs : s ∈ g.slabs) (hc : c ∈ g.fr s) :
    s + 48 ≤ c ∧ c + bsz (g.bk s) ≤ s + 524288 ∧ c % 16 = 0 ∧ 48 ≤ c % 524288 ∧ c / 524288 * 524288 = s :=
  chunk_facts (h.slab s hs).2.2.2.1 (h.slab s hs).1 ((h.frn s hs).2 c hc)

theorem Inv.slabmap {st : St} {g : G} {L : List (Nat × Nat)} (h : Inv st g L) {s : Nat} (hs : s ∈ g.slabs) {x : Nat} (h1 : s ≤ x) (h2 : x < s + 524288) :
    st.mapped x = true := by
  have hr := h.sep.2 (g.hd s, 1048576) (by unfold regs; exact List.mem_append_left _ (List.mem_map.2 ⟨s, hs, rfl⟩))
  have hg := (h.gi.slab s hs).2.2.2.2
  exact hr.2.2.2.2.2 x (by dsimp only; omega) (by dsimp only; omega)

theorem Inv.slab8 {st : St} {g : G} {L : List (Nat × Nat)} (h : Inv st g L) {s : Nat} (hs : s ∈ g.slabs) {x : Nat} (h1 : s ≤ x) (h2 : x + 8 ≤ s + 524288) :
    ok8 st.mapped x := fun i hi => h.slabmap hs (by omega) (by omega)

theorem Link.wr {m : Mem} {off a v : Nat} {l : List Nat} (h : Link m off l) (ha : a % 8 = 0) (hl : ∀ c ∈ l, (c + off) % 8 = 0 ∧ a ≠ c + off) : Link (wr m a v) off l :=
  h.frame fun c hc => rd_wr_ne ha (hl c hc).1 (hl c hc).2

theorem Seg.wr {m : Mem} {p n a v : Nat} {l : List Nat} (h : Seg m p l n) (ha : a % 8 = 0) (hl : ∀ c ∈ l, c % 8 = 0 ∧ a ≠ c + 8 ∧ a ≠ c + 16) : Seg (wr m a v) p l n :=
  h.frame fun c hc => ⟨rd_wr_ne ha (by have := hl c hc; omega) (hl c hc).2.1, rd_wr_ne ha (by have := hl c hc; omega) (hl c hc).2.2⟩

theorem SW.wr {m : Mem} {hd : Nat} {fr : List Nat} {s a v : Nat} (h : SW m hd fr s) (hs : s % 8 = 0) (ha : a % 8 = 0)
    (hn : a ≠ s ∧ a ≠ s + 24 ∧ a ≠ s + 32 ∧ a ≠ s + 40) (hl : ∀ c ∈ fr, c % 8 = 0 ∧ a ≠ c) : SW (wr m a v) hd fr s :=
  ⟨by rw [rd_wr_ne ha hs hn.1]; exact h.head, by rw [rd_wr_ne ha (by omega) hn.2.1]; exact h.freehd, by rw [rd_wr_ne ha (by omega) hn.2.2.1]; exact h.nfree,
    by rw [rd_wr_ne ha (by omega) hn.2.2.2]; exact h.magic, h.link.wr ha fun c hc => by rw [Nat.add_zero]; exact hl c hc⟩

/-- Memory may change anywhere but in headers and free chunks. -/
theorem MInv.frame {m m' : Mem} {g : G} {bkt : Nat → Bkt} (h : MInv m g) (hg : GInv bkt g)
    (h1 : ∀ s ∈ g.slabs, ∀ x, s ≤ x → x < s + 48 → m' x = m x) (h2 : ∀ s ∈ g.slabs, ∀ c ∈ g.fr s, ∀ x, c ≤ x → x < c + 8 → m' x = m x) : MInv m' g where
  words := fun s hs =>
    have hw := h.words s hs
    have e : ∀ o, o + 8 ≤ 48 → rd m' (s + o) = rd m (s + o) := fun o ho => rd_congr fun x hx hx2 => h1 s hs x (by omega) (by omega)
    ⟨(e 0 (by omega)).trans hw.head, (e 24 (by omega)).trans hw.freehd, (e 32 (by omega)).trans hw.nfree, (e 40 (by omega)).trans hw.magic,
      hw.link.frame fun c hc => rd_congr fun x hx hx2 => h2 s hs c hc x (by omega) (by omega)⟩
  dll := fun i => (h.dll i).frame fun s hs => ⟨rd_congr fun x hx hx2 => h1 s ((hg.avn i).2 s hs).1 x (by omega) (by omega), rd_congr fun x hx hx2 => h1 s ((hg.avn i).2 s hs).1 x (by omega) (by omega)⟩
  sll := fun i => (h.sll i).frame fun s hs => rd_congr fun x hx hx2 => h1 s ((hg.can i).2 s hs).1 x (by omega) (by omega)
  cap := fun i s hs => (rd_congr fun x hx hx2 => h1 s ((hg.can i).2 s hs).1 x (by omega) (by omega)).trans (h.cap i s hs)

theorem GInv.slab_eq {bkt : Nat → Bkt} {g : G} (h : GInv bkt g) {s t c : Nat} (hs : s ∈ g.slabs) (ht : t ∈ g.slabs) (h1 : s ≤ c) (h2 : c < s + 524288) (h3 : t ≤ c) (h4 : c < t + 524288) : s = t := by
  have a := (h.slab s hs).1
  have b := (h.slab t ht).1
  omega

theorem LInv.perm {g : G} {L L' : List (Nat × Nat)} (h : LInv g L) (hp : L.Perm L') : LInv g L' :=
  ⟨fun x hx => h.small x (hp.mem_iff.2 hx), hp.pairwise h.ne fun hh a b => (hh b a).symm⟩

theorem regs_perm {g : G} {big big' L L' : List (Nat × Nat)} (hb : big.Perm big') (hp : L.Perm L') : (regs g big L).Perm (regs g big' L') :=
  List.Perm.append_left _ (((hb.filter _).map _).append ((hp.filter _).map _))

theorem Inv.perm {st : St} {g : G} {L L' : List (Nat × Nat)} (h : Inv st g L) (hp : L.Perm L') : Inv st g L' :=
  ⟨h.mi, h.gi, h.li.perm hp, h.sep.perm (regs_perm (List.Perm.refl _) hp), h.bz⟩

end Verif.Alloc
