import Verif.Crypto.Stream
import Verif.Endian.Props

/-! Lemmas: words, rotations, loading a block and storing a digest. -/

namespace Verif.Crypto

open Spec (part)

theorem get_upd {α : Type} {n : Nat} (r : Vector α n) (i j : Fin n) (v : α) :
    get (upd r i v) j = if i = j then v else get r j := by
  unfold get upd
  rw [Vector.getElem_set]
  by_cases h : i = j
  · rw [if_pos h, if_pos (congrArg Fin.val h)]
  · rw [if_neg h, if_neg (fun hv => h (Fin.ext hv))]

theorem get_zipWith {α : Type} {n : Nat} (f : α → α → α) (a b : Vector α n) (i : Fin n) :
    get (Vector.zipWith f a b) i = f (get a i) (get b i) := by
  unfold get
  rw [Vector.getElem_zipWith]

theorem rot_left {w l r : Nat} (x : BitVec w) (h : l < w) (hr : r = w - l) : rot x l r = x.rotateLeft l := by
  rw [BitVec.rotateLeft_eq_rotateLeftAux_of_lt h, hr]; rfl

theorem rot_right {w l r : Nat} (x : BitVec w) (h : r < w) (hl : l = w - r) : rot x l r = x.rotateRight r := by
  rw [BitVec.rotateRight_eq_rotateRightAux_of_lt h, hl]
  show x <<< (w - r) ||| x >>> r = x >>> r ||| x <<< (w - r)
  exact BitVec.or_comm _ _

/-! ## Loading -/

theorem unpack_le {b : List Byte} (h : b.length = 4) : unpack 32 b unLe 0#32 = .ok (BitVec.ofNat 32 (Spec.leNum b)) := by
  obtain ⟨a0, a1, a2, a3, t, rfl⟩ := Endian.list4 (buf := b) (by omega)
  have : t = [] := by
    apply List.length_eq_zero_iff.1; simpa using h
  subst this
  show Res.ok (0#32 ||| a0.setWidth 32 <<< 0 ||| a1.setWidth 32 <<< 8 ||| a2.setWidth 32 <<< 16 ||| a3.setWidth 32 <<< 24) = _
  rw [BitVec.zero_or, Endian.or_rev4, Endian.combine4]
  rw [← Endian.leVal_reverse]
  rfl

theorem unpack_be {b : List Byte} (h : b.length = 4) : unpack 32 b unBe 0#32 = .ok (BitVec.ofNat 32 (Spec.beNum b)) := by
  obtain ⟨a0, a1, a2, a3, t, rfl⟩ := Endian.list4 (buf := b) (by omega)
  have : t = [] := by
    apply List.length_eq_zero_iff.1; simpa using h
  subst this
  show Res.ok (0#32 ||| a0.setWidth 32 <<< 24 ||| a1.setWidth 32 <<< 16 ||| a2.setWidth 32 <<< 8 ||| a3.setWidth 32 <<< 0) = _
  rw [BitVec.zero_or, Endian.combine4]
  rfl

theorem unpack_be64 {b : List Byte} (h : b.length = 8) : unpack 64 b unBe64 0#64 = .ok (BitVec.ofNat 64 (Spec.beNum b)) := by
  obtain ⟨a0, a1, a2, a3, a4, a5, a6, a7, t, rfl⟩ := Endian.list8 (buf := b) (by omega)
  have : t = [] := by
    apply List.length_eq_zero_iff.1; simpa using h
  subst this
  show Res.ok (0#64 ||| a0.setWidth 64 <<< 56 ||| a1.setWidth 64 <<< 48 ||| a2.setWidth 64 <<< 40 ||| a3.setWidth 64 <<< 32 |||
    a4.setWidth 64 <<< 24 ||| a5.setWidth 64 <<< 16 ||| a6.setWidth 64 <<< 8 ||| a7.setWidth 64 <<< 0) = _
  rw [BitVec.zero_or, Endian.combine8]
  rfl

theorem slice_part {n i : Nat} {msg : List Byte} (h : n * i + n ≤ msg.length) :
    slice msg (n * i) (n * i + n) = .ok (part n msg i) := by
  rw [slice_ok (by omega) h]
  unfold part
  rw [List.drop_take, Nat.add_sub_cancel_left]

theorem load_ok {w m n : Nat} {un : List (Nat × Nat)} {val : List Byte → BitVec w} {msg : List Byte}
    (hun : ∀ b, b.length = n → unpack w b un 0#w = .ok (val b)) : ∀ (is : List (Fin m)) (s : Vector (BitVec w) m),
    (∀ i ∈ is, n * i.val + n ≤ msg.length) →
    ∃ s', load n un msg is s = .ok s' ∧ ∀ j, get s' j = if j ∈ is then val (part n msg j.val) else get s j
  | [], s, _ => ⟨s, rfl, fun j => by rw [if_neg (by simp)]⟩
  | i :: is, s, h => by
    have hi := h i (List.mem_cons_self ..)
    obtain ⟨s', h1, h2⟩ := load_ok (n := n) hun is (upd s i (val (part n msg i.val))) (fun j hj => h j (List.mem_cons_of_mem _ hj))
    refine ⟨s', ?_, ?_⟩
    · unfold load
      rw [slice_part hi, Res.bind_ok, hun _ (part_length hi), Res.bind_ok, h1]
    · intro j
      rw [h2 j, get_upd]
      by_cases h3 : j ∈ is
      · rw [if_pos h3, if_pos (List.mem_cons_of_mem _ h3)]
      · rw [if_neg h3]
        by_cases h4 : i = j
        · subst h4
          rw [if_pos rfl, if_pos (List.mem_cons_self ..)]
        · rw [if_neg h4, if_neg]
          intro h5
          rcases List.mem_cons.1 h5 with h6 | h6
          · exact h4 h6.symm
          · exact h3 h6

/-! ## Storing -/

/-- Byte `k / 8` of a word. -/
def byteAt {w : Nat} (v : BitVec w) (k : Nat) : Byte := (v >>> k).setWidth 8

theorem byteAt_eq {w : Nat} (v : BitVec w) (k : Nat) : byteAt v k = BitVec.ofNat 8 (v.toNat / 2 ^ k) := by
  apply BitVec.eq_of_toNat_eq
  unfold byteAt
  rw [BitVec.toNat_setWidth, BitVec.toNat_ushiftRight, Nat.shiftRight_eq_div_pow, BitVec.toNat_ofNat]

/-- Assignments to consecutive places. -/
def idx3 {m : Nat} (base : Nat) : List (Fin m × Nat) → List (Nat × Fin m × Nat)
  | [] => []
  | q :: t => (base, q) :: idx3 (base + 1) t

theorem putBytes_ok {w m : Nat} (x : Vector (BitVec w) m) : ∀ (qs : List (Fin m × Nat)) (pre old post : List Byte), old.length = qs.length →
    putBytes x (idx3 pre.length qs) (pre ++ old ++ post) = .ok (pre ++ qs.map (fun q => byteAt (get x q.1) q.2) ++ post)
  | [], pre, old, post, h => by
    have : old = [] := List.length_eq_zero_iff.1 h
    subst this; rfl
  | q :: t, pre, [], post, h => by cases h
  | q :: t, pre, o :: old, post, h => by
    simp only [idx3, putBytes]
    rw [show pre ++ o :: old ++ post = pre ++ o :: (old ++ post) by simp, wrChk_mid, Res.bind_ok]
    have := putBytes_ok x t (pre ++ [byteAt (get x q.1) q.2]) old post (by simpa using h)
    rw [List.length_append, List.length_singleton] at this
    simpa [byteAt] using this

theorem putBytes_all {w m : Nat} (x : Vector (BitVec w) m) (qs : List (Fin m × Nat)) (r : List Byte) (h : qs.length ≤ r.length) :
    putBytes x (idx3 0 qs) r = .ok (qs.map (fun q => byteAt (get x q.1) q.2) ++ r.drop qs.length) := by
  have := putBytes_ok x qs [] (r.take qs.length) (r.drop qs.length) (by rw [List.length_take]; omega)
  rw [List.nil_append, List.take_append_drop, List.nil_append] at this
  exact this

theorem packAt_ok {w : Nat} (v : BitVec w) {n : Nat} {ps : List (Nat × Nat)} {ks : List Nat}
    (hps : ps.map (fun p => ((p.1, 0, p.2) : Nat × Fin 1 × Nat)) = idx3 0 (ks.map fun k => (0, k))) (hk : ks.length = n)
    (pre old post : List Byte) (ho : old.length = n) :
    packAt (pre ++ old ++ post) pre.length (pre.length + n) v ps = .ok (pre ++ ks.map (byteAt v) ++ post) := by
  unfold packAt
  rw [slice_ok (by omega) (by simp; omega), Res.bind_ok, hps]
  have e1 : ((pre ++ old ++ post).take (pre.length + n)).drop pre.length = old := by
    rw [List.take_left' (by simp [ho]), List.drop_left]
  rw [e1, putBytes_all _ _ _ (by simp [hk, ho]), Res.bind_ok]
  have e2 : (pre ++ old ++ post).take pre.length = pre := by rw [List.append_assoc, List.take_left]
  have e3 : (pre ++ old ++ post).drop (pre.length + n) = post := List.drop_left' (by simp [ho])
  have e4 : old.drop (ks.map fun k => ((0 : Fin 1), k)).length = [] := by
    apply List.drop_eq_nil_of_le; simp; omega
  rw [e2, e3, e4, List.append_nil, List.map_map]
  rfl

theorem packAll_ok {w m n : Nat} {ps : List (Nat × Nat)} {ks : List Nat}
    (hps : ps.map (fun p => ((p.1, 0, p.2) : Nat × Fin 1 × Nat)) = idx3 0 (ks.map fun k => (0, k))) (hk : ks.length = n)
    (x : Vector (BitVec w) m) : ∀ (js : List (Fin m)) (c : Nat) (pre rest : List Byte), js.map (·.val) = List.range' c js.length →
    pre.length = n * c → n * js.length ≤ rest.length →
    packAll n ps x js (pre ++ rest) = .ok (pre ++ js.flatMap (fun j => ks.map (byteAt (get x j))) ++ rest.drop (n * js.length))
  | [], c, pre, rest, _, _, _ => by simp [packAll]
  | j :: js, c, pre, rest, h1, h2, h3 => by
    rw [List.length_cons, List.map_cons, List.range'_succ, List.cons.injEq] at h1
    obtain ⟨h1, h4⟩ := h1
    rw [List.length_cons, Nat.mul_succ] at h3
    have hn : n ≤ rest.length := by omega
    unfold packAll
    rw [h1, ← h2]
    have e := packAt_ok (get x j) hps hk pre (rest.take n) (rest.drop n) (by rw [List.length_take]; omega)
    rw [List.append_assoc, List.take_append_drop] at e
    rw [e, Res.bind_ok]
    have e2 := packAll_ok hps hk x js (c + 1) (pre ++ ks.map (byteAt (get x j))) (rest.drop n) h4
      (by rw [List.length_append, List.length_map, hk, h2, Nat.mul_succ]) (by rw [List.length_drop]; omega)
    rw [e2, List.drop_drop, List.length_cons, Nat.mul_succ, Nat.add_comm n]
    simp

theorem packAll_all {w m n : Nat} {ps : List (Nat × Nat)} {ks : List Nat}
    (hps : ps.map (fun p => ((p.1, 0, p.2) : Nat × Fin 1 × Nat)) = idx3 0 (ks.map fun k => (0, k))) (hk : ks.length = n)
    (x : Vector (BitVec w) m) (js : List (Fin m)) (r : List Byte) (h1 : js.map (·.val) = List.range' 0 js.length)
    (h2 : n * js.length ≤ r.length) :
    packAll n ps x js r = .ok (js.flatMap (fun j => ks.map (byteAt (get x j))) ++ r.drop (n * js.length)) := by
  have := packAll_ok hps hk x js 0 [] r h1 rfl h2
  simpa using this

theorem be4 (v : BitVec 32) : [24, 16, 8, 0].map (byteAt v) = Spec.be 4 v.toNat := by
  simp only [List.map_cons, List.map_nil, byteAt_eq]
  rfl

theorem le4 (v : BitVec 32) : [0, 8, 16, 24].map (byteAt v) = Spec.le 4 v.toNat := by
  simp only [List.map_cons, List.map_nil, byteAt_eq]
  rfl

theorem be8 (v : BitVec 64) : [56, 48, 40, 32, 24, 16, 8, 0].map (byteAt v) = Spec.be 8 v.toNat := by
  simp only [List.map_cons, List.map_nil, byteAt_eq]
  rfl

/-! ## The length field -/

theorem lenLe_eq (n : Nat) : Spec.le 8 (8 * n) = List.replicate (8 - 8) 0#8 ++
    [0, 8, 16, 24, 32, 40, 48, 56].map (fun k => ((BitVec.ofNat 64 n * 8#64) >>> k).setWidth 8) := by
  simp only [List.map_cons, List.map_nil]
  rw [len_byte n 0 (by decide), len_byte n 8 (by decide), len_byte n 16 (by decide), len_byte n 24 (by decide),
    len_byte n 32 (by decide), len_byte n 40 (by decide), len_byte n 48 (by decide), len_byte n 56 (by decide)]
  rfl

theorem lenBe_eq (n : Nat) : Spec.be 8 (8 * n) = List.replicate (8 - 8) 0#8 ++
    [56, 48, 40, 32, 24, 16, 8, 0].map (fun k => ((BitVec.ofNat 64 n * 8#64) >>> k).setWidth 8) := by
  simp only [List.map_cons, List.map_nil]
  rw [len_byte n 0 (by decide), len_byte n 8 (by decide), len_byte n 16 (by decide), len_byte n 24 (by decide),
    len_byte n 32 (by decide), len_byte n 40 (by decide), len_byte n 48 (by decide), len_byte n 56 (by decide)]
  rfl

/-- The upper half of the field of SHA-512 is never stored. -/
theorem lenBe512_eq (n : Nat) (h : n < 2 ^ 61) : Spec.be 16 (8 * n) = List.replicate (16 - 8) 0#8 ++
    [56, 48, 40, 32, 24, 16, 8, 0].map (fun k => ((BitVec.ofNat 64 n * 8#64) >>> k).setWidth 8) := by
  have e : Spec.be 16 (8 * n) = (List.range 8).map (fun i => BitVec.ofNat 8 (8 * n / 256 ^ (15 - i))) ++ Spec.be 8 (8 * n) := rfl
  rw [e, lenBe_eq n]
  congr 1
  have : ∀ i ∈ List.range 8, BitVec.ofNat 8 (8 * n / 256 ^ (15 - i)) = 0#8 := by
    intro i hi
    have hi : i < 8 := List.mem_range.1 hi
    rw [Nat.div_eq_of_lt]
    calc 8 * n < 256 ^ 8 := by have : (256 : Nat) ^ 8 = 8 * 2 ^ 61 := by decide
                               omega
      _ ≤ 256 ^ (15 - i) := Nat.pow_le_pow_right (by decide) (by omega)
  rw [List.map_congr_left this]
  rfl

end Verif.Crypto
