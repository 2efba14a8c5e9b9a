import Verif.Alloc.Model
import Mathlib.Tactic.NormNum

/-!
# Memory: words, lists of slabs and chunks
-/

namespace Verif.Alloc

/-! ## Words -/

theorem rd_lt (m : Mem) (a : Nat) : rd m a < 2 ^ 64 := by
  unfold rd
  have h0 := (m a).isLt
  have h1 := (m (a + 1)).isLt
  have h2 := (m (a + 2)).isLt
  have h3 := (m (a + 3)).isLt
  have h4 := (m (a + 4)).isLt
  have h5 := (m (a + 5)).isLt
  have h6 := (m (a + 6)).isLt
  have h7 := (m (a + 7)).isLt
  omega

theorem rd_congr {m m' : Mem} {a : Nat} (h : ∀ x, a ≤ x → x < a + 8 → m' x = m x) : rd m' a = rd m a := by
  unfold rd
  rw [h a (by omega) (by omega), h (a + 1) (by omega) (by omega), h (a + 2) (by omega) (by omega), h (a + 3) (by omega) (by omega),
    h (a + 4) (by omega) (by omega), h (a + 5) (by omega) (by omega), h (a + 6) (by omega) (by omega), h (a + 7) (by omega) (by omega)]

theorem rd_wr_eq (m : Mem) (a : Nat) {v : Nat} (h : v < 2 ^ 64) : rd (wr m a v) a = v := by
  have key : ∀ i, i < 8 → (wr m a v (a + i)).toNat = v / 256 ^ i % 256 := by
    intro i hi
    unfold wr
    rw [if_pos ⟨by omega, by omega⟩, BitVec.toNat_ofNat, Nat.add_sub_cancel_left]
  unfold rd
  have h0 := key 0 (by omega)
  have h1 := key 1 (by omega)
  have h2 := key 2 (by omega)
  have h3 := key 3 (by omega)
  have h4 := key 4 (by omega)
  have h5 := key 5 (by omega)
  have h6 := key 6 (by omega)
  have h7 := key 7 (by omega)
  norm_num at h0 h1 h2 h3 h4 h5 h6 h7
  rw [h0, h1, h2, h3, h4, h5, h6, h7]
  omega

theorem wr_other {m : Mem} {a v x : Nat} (h : x < a ∨ a + 8 ≤ x) : wr m a v x = m x := by
  unfold wr
  rw [if_neg (by omega)]

theorem rd_wr_far {m : Mem} {a b v : Nat} (h : a + 8 ≤ b ∨ b + 8 ≤ a) : rd (wr m a v) b = rd m b :=
  rd_congr fun _ _ _ => wr_other (by omega)

theorem rd_wr_ne {m : Mem} {a b v : Nat} (ha : a % 8 = 0) (hb : b % 8 = 0) (h : a ≠ b) : rd (wr m a v) b = rd m b := rd_wr_far (by omega)

theorem ld_ok {st : St} {a : Nat} (h : ok8 st.mapped a) : ld st a = .ok (rd st.mem a) := if_pos h
theorem sw_ok {st : St} {a : Nat} (h : ok8 st.mapped a) (v : Nat) : sw st a v = .ok { st with mem := wr st.mem a v } := if_pos h

/-! ## Update of functions -/

/-- One value changed. -/
def upd {α : Type} (f : Nat → α) (i : Nat) (v : α) : Nat → α := fun j => if j = i then v else f j

@[simp] theorem upd_same {α : Type} (f : Nat → α) (i : Nat) (v : α) : upd f i v i = v := by simp [upd]
theorem upd_ne {α : Type} (f : Nat → α) {i j : Nat} (v : α) (h : j ≠ i) : upd f i v j = f j := by simp [upd, h]

/-! ## Lists -/

/-- The words at distance `off` from the members of the list lead to the next one, the last one holds zero. -/
def Link (m : Mem) (off : Nat) : List Nat → Prop
  | [] => True
  | c :: l => rd m (c + off) = l.headD 0 ∧ Link m off l

theorem Link.frame {m m' : Mem} {off : Nat} : ∀ {l : List Nat}, Link m off l → (∀ c ∈ l, rd m' (c + off) = rd m (c + off)) → Link m' off l
  | [], _, _ => trivial
  | c :: l, h, hf => ⟨by rw [hf c (by simp)]; exact h.1, Link.frame h.2 fun x hx => hf x (by simp [hx])⟩

/-- A part of a list linked in both directions, with what is before and after it. -/
def Seg (m : Mem) : Nat → List Nat → Nat → Prop
  | _, [], _ => True
  | p, s :: l, n => rd m (s + 16) = p ∧ rd m (s + 8) = l.headD n ∧ Seg m s l n

theorem Seg.frame {m m' : Mem} : ∀ {l : List Nat} {p n : Nat}, Seg m p l n → (∀ c ∈ l, rd m' (c + 8) = rd m (c + 8) ∧ rd m' (c + 16) = rd m (c + 16)) → Seg m' p l n
  | [], _, _, _, _ => trivial
  | s :: l, p, n, h, hf => ⟨by rw [(hf s (by simp)).2]; exact h.1, by rw [(hf s (by simp)).1]; exact h.2.1, Seg.frame h.2.2 fun x hx => hf x (by simp [hx])⟩

theorem Seg.append {m : Mem} : ∀ {l1 l2 : List Nat} {p n : Nat}, Seg m p (l1 ++ l2) n ↔ Seg m p l1 (l2.headD n) ∧ Seg m (l1.getLastD p) l2 n
  | [], l2, p, n => by simp [Seg]
  | s :: l1, l2, p, n => by
    rw [List.cons_append, Seg, Seg, Seg.append]
    have e1 : (l1 ++ l2).headD n = l1.headD (l2.headD n) := by cases l1 <;> simp
    have e2 : (s :: l1).getLastD p = l1.getLastD s := List.getLastD_cons
    rw [e1, e2]
    simp only [and_assoc]

/-- Another predecessor. -/
theorem Seg.prev {m m' : Mem} {p p' n : Nat} : ∀ {l : List Nat}, Seg m p l n → l.Nodup →
    (∀ c ∈ l, rd m' (c + 8) = rd m (c + 8)) → (∀ c ∈ l.tail, rd m' (c + 16) = rd m (c + 16)) → (∀ s, l.head? = some s → rd m' (s + 16) = p') → Seg m' p' l n
  | [], _, _, _, _, _ => trivial
  | s :: l, h, hn, h1, h2, h3 =>
    ⟨h3 s rfl, by rw [h1 s (by simp)]; exact h.2.1, Seg.frame h.2.2 fun c hc => ⟨h1 c (by simp [hc]), h2 c hc⟩⟩

/-- Another successor. -/
theorem Seg.next {m m' : Mem} {n n' : Nat} : ∀ {l : List Nat} {p : Nat}, Seg m p l n → l.Nodup →
    (∀ c ∈ l, rd m' (c + 16) = rd m (c + 16)) → (∀ c ∈ l.dropLast, rd m' (c + 8) = rd m (c + 8)) → (∀ s, l.getLast? = some s → rd m' (s + 8) = n') → Seg m' p l n'
  | [], _, _, _, _, _, _ => trivial
  | [s], p, h, hn, h1, h2, h3 => ⟨by rw [h1 s (by simp)]; exact h.1, h3 s rfl, trivial⟩
  | s :: t :: l, p, h, hn, h1, h2, h3 =>
    ⟨by rw [h1 s (by simp)]; exact h.1, by rw [h2 s (by simp)]; exact h.2.1,
      Seg.next (l := t :: l) h.2.2 (List.nodup_cons.1 hn).2 (fun c hc => h1 c (List.mem_cons_of_mem _ hc)) (fun c hc => h2 c (by rw [List.dropLast_cons_cons]; exact List.mem_cons_of_mem _ hc))
        fun x hx => h3 x (by rw [List.getLast?_cons_cons]; exact hx)⟩

/-! ## Chunks -/

theorem bsz_eq (i : Nat) : bsz i = 16 * 2 ^ i := by
  unfold bsz align
  have : 16 * 2 ^ i + 16 - 1 = 15 + 16 * 2 ^ i := by omega
  rw [this, Nat.add_mul_div_left _ _ (by decide)]
  omega

theorem nper_facts {i : Nat} (h : i < 14) : 3 ≤ nper i ∧ 48 + nper i * bsz i ≤ 524288 ∧ nper i < 2 ^ 16 ∧ 16 ≤ bsz i ∧ bsz i % 16 = 0 ∧ bsz i < 2 ^ 18 := by
  unfold nper
  rw [bsz_eq]
  have : i = 0 ∨ i = 1 ∨ i = 2 ∨ i = 3 ∨ i = 4 ∨ i = 5 ∨ i = 6 ∨ i = 7 ∨ i = 8 ∨ i = 9 ∨ i = 10 ∨ i = 11 ∨ i = 12 ∨ i = 13 := by omega
  rcases this with rfl | rfl | rfl | rfl | rfl | rfl | rfl | rfl | rfl | rfl | rfl | rfl | rfl | rfl <;> decide

/-- The chunks of a slab. -/
def chunks (i s : Nat) : List Nat := (List.range (nper i)).map fun k => s + 48 + k * bsz i

theorem mem_chunks {i s c : Nat} : c ∈ chunks i s ↔ ∃ k, k < nper i ∧ c = s + 48 + k * bsz i := by
  unfold chunks
  simp only [List.mem_map, List.mem_range]
  constructor
  · rintro ⟨k, h, e⟩; exact ⟨k, h, e.symm⟩
  · rintro ⟨k, h, e⟩; exact ⟨k, h, e.symm⟩

/-- Where a chunk is. -/
theorem chunk_facts {i s c : Nat} (hi : i < 14) (hs : s % 524288 = 0) (h : c ∈ chunks i s) :
    s + 48 ≤ c ∧ c + bsz i ≤ s + 524288 ∧ c % 16 = 0 ∧ 48 ≤ c % 524288 ∧ c / 524288 * 524288 = s := by
  obtain ⟨k, hk, rfl⟩ := mem_chunks.1 h
  obtain ⟨h1, h2, h3, h4, h5, h6⟩ := nper_facts hi
  have e1 : k * bsz i + bsz i ≤ nper i * bsz i := by
    have := Nat.mul_le_mul_right (bsz i) (show k + 1 ≤ nper i from hk)
    rw [Nat.add_mul] at this
    omega
  have e2 : k * bsz i % 16 = 0 := by rw [Nat.mul_mod, h5]; simp
  generalize k * bsz i = x at *
  omega

theorem chunk_disjoint {i s c d : Nat} (hc : c ∈ chunks i s) (hd : d ∈ chunks i s) (h : c ≠ d) : c + bsz i ≤ d ∨ d + bsz i ≤ c := by
  obtain ⟨k, hk, rfl⟩ := mem_chunks.1 hc
  obtain ⟨j, hj, rfl⟩ := mem_chunks.1 hd
  rcases Nat.lt_trichotomy k j with h1 | h1 | h1
  · have := Nat.mul_le_mul_right (bsz i) (show k + 1 ≤ j from h1)
    rw [Nat.add_mul] at this
    omega
  · subst h1; omega
  · have := Nat.mul_le_mul_right (bsz i) (show j + 1 ≤ k from h1)
    rw [Nat.add_mul] at this
    omega

/-! ## Setting up a slab -/

theorem chain_spec {sz : Nat} (hsz : 8 ≤ sz) : ∀ (n b bnext : Nat) (st : St), (∀ x, bnext ≤ x → x < bnext + n * sz → st.mapped x = true) → bnext + n * sz < 2 ^ 64 →
    ∃ m', chain sz n b bnext st = .ok (if n = 0 then b else bnext + (n - 1) * sz, { st with mem := m' }) ∧
      (∀ k, k < n → rd m' (bnext + k * sz) = bnext + (k + 1) * sz) ∧ ∀ x, (x < bnext ∨ bnext + n * sz ≤ x) → m' x = st.mem x
  | 0, b, bnext, st, _, _ => ⟨st.mem, rfl, fun k hk => by omega, fun _ _ => rfl⟩
  | n + 1, b, bnext, st, hm, hlt => by
    have e : (n + 1) * sz = n * sz + sz := Nat.succ_mul n sz
    have hm : ∀ x, bnext ≤ x → x < bnext + n * sz + sz → st.mapped x = true := fun x h1 h2 => hm x h1 (by omega)
    have hlt : bnext + n * sz + sz < 2 ^ 64 := by omega
    have hok : ok8 st.mapped bnext := fun i hi => hm _ (by omega) (by omega)
    obtain ⟨m', h1, h2, h3⟩ := chain_spec hsz n bnext (bnext + sz) { st with mem := wr st.mem bnext (bnext + sz) }
      (fun x hx hx2 => hm x (by omega) (by omega)) (by omega)
    refine ⟨m', ?_, ?_, ?_⟩
    · rw [chain, sw_ok hok, Res.bind_ok, h1]
      congr 2
      rw [if_neg (c := n + 1 = 0) (by omega), Nat.add_sub_cancel]
      rcases Nat.eq_zero_or_pos n with h0 | h0
      · subst h0; rw [if_pos rfl, Nat.zero_mul, Nat.add_zero]
      · rw [if_neg (by omega)]
        obtain ⟨j, rfl⟩ : ∃ j, n = j + 1 := ⟨n - 1, by omega⟩
        rw [Nat.add_sub_cancel, Nat.succ_mul]
        omega
    · intro k hk
      cases k with
      | zero =>
        rw [Nat.zero_mul, Nat.add_zero, Nat.zero_add, Nat.one_mul]
        rw [rd_congr (m := wr st.mem bnext (bnext + sz)) (fun x hx hx2 => h3 x (by omega))]
        exact rd_wr_eq _ _ (by omega)
      | succ k =>
        have := h2 k (by omega)
        rw [show bnext + (k + 1) * sz = bnext + sz + k * sz by rw [Nat.succ_mul]; omega, this]
        rw [Nat.succ_mul (k + 1), Nat.succ_mul k]
        omega
    · intro x hx
      rw [e] at hx
      rw [h3 x (by omega)]
      exact wr_other (by omega)

theorem link_range {m : Mem} {sz b : Nat} (n : Nat) (h : ∀ k, k + 1 < n → rd m (b + k * sz) = b + (k + 1) * sz) (hl : 0 < n → rd m (b + (n - 1) * sz) = 0) :
    Link m 0 ((List.range n).map fun k => b + k * sz) := by
  have key : ∀ j, j ≤ n → Link m 0 (((List.range n).drop (n - j)).map fun k => b + k * sz) := by
    intro j
    induction j with
    | zero => intro _; rw [Nat.sub_zero, List.drop_of_length_le (by rw [List.length_range])]; exact trivial
    | succ j ih =>
      intro hj
      have e : (List.range n).drop (n - (j + 1)) = (n - (j + 1)) :: (List.range n).drop (n - j) := by
        rw [List.drop_eq_getElem_cons (by rw [List.length_range]; omega), List.getElem_range]
        congr 2
        omega
      rw [e, List.map_cons]
      refine ⟨?_, ih (by omega)⟩
      rw [Nat.add_zero]
      cases j with
      | zero =>
        have := hl (by omega)
        rw [this]
        simp
      | succ j =>
        rw [h _ (by omega)]
        have e2 : (List.range n).drop (n - (j + 1)) = (n - (j + 1)) :: (List.range n).drop (n - j) := by
          rw [List.drop_eq_getElem_cons (by rw [List.length_range]; omega), List.getElem_range]
          congr 2
          omega
        rw [e2, List.map_cons, List.headD_cons, show n - (j + 1 + 1) + 1 = n - (j + 1) by omega]
  have := key n (Nat.le_refl n)
  rwa [Nat.sub_self, List.drop_zero] at this

end Verif.Alloc
