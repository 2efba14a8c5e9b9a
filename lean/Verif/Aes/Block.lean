import Verif.Aes.Rounds
import Verif.Chacha.Lemmas

/-! # Blocks and words -/

namespace Verif.Aes

open Spec (State)

/-! ## Bytes of words -/

theorem byteOf_eq {n m : Nat} {x : BitVec n} {y : BitVec m} {i j : Nat} (h : ∀ k < 8, x.getLsbD (8 * i + k) = y.getLsbD (8 * j + k)) :
    byteOf x i = byteOf y j := by
  apply byte_ext
  intro k hk
  rw [byteOf_bit _ _ hk, byteOf_bit _ _ hk, h k hk]

theorem inter_even (u v : BitVec 32) {r : Nat} (hr : r < 4) : byteOf (spread u ||| spread v <<< 8) (2 * r) = byteOf u r := by
  apply byteOf_eq
  intro k hk
  rw [BitVec.getLsbD_or, BitVec.getLsbD_shiftLeft, spread_bit u (by omega), if_pos (by omega),
    show 8 * ((8 * (2 * r) + k) / 16) + (8 * (2 * r) + k) % 16 = 8 * r + k by omega]
  by_cases h : 8 * (2 * r) + k < 8
  · simp [h]
  · rw [spread_bit v (by omega), if_neg (by omega)]
    simp

theorem inter_odd (u v : BitVec 32) {r : Nat} (hr : r < 4) : byteOf (spread u ||| spread v <<< 8) (2 * r + 1) = byteOf v r := by
  apply byteOf_eq
  intro k hk
  rw [BitVec.getLsbD_or, BitVec.getLsbD_shiftLeft, spread_bit u (by omega), if_neg (by omega), spread_bit v (by omega), if_pos (by omega),
    show 8 * ((8 * (2 * r + 1) + k - 8) / 16) + (8 * (2 * r + 1) + k - 8) % 16 = 8 * r + k by omega]
  have h1 : 8 * (2 * r + 1) + k < 64 := by omega
  have h2 : ¬ 8 * (2 * r + 1) + k < 8 := by omega
  simp [h1, h2]

theorem gather_even (x : BitVec 64) {r : Nat} (hr : r < 4) : byteOf (gather x) r = byteOf x (2 * r) := by
  apply byteOf_eq
  intro k hk
  rw [gather_bit x (by omega)]
  congr 1
  omega

theorem gather_odd (x : BitVec 64) {r : Nat} (hr : r < 4) : byteOf (gather (x >>> 8)) r = byteOf x (2 * r + 1) := by
  apply byteOf_eq
  intro k hk
  rw [gather_bit _ (by omega), BitVec.getLsbD_ushiftRight]
  congr 1
  omega

/-- Four words. -/
abbrev W4 := BitVec 32 × BitVec 32 × BitVec 32 × BitVec 32

/-- One of four words. -/
def W4.get (w : W4) : Nat → BitVec 32
  | 0 => w.1 | 1 => w.2.1 | 2 => w.2.2.1 | _ => w.2.2.2

/-- Four words are the columns of a state. -/
def Cols (w : W4) (s : State) : Prop := ∀ r c, r < 4 → c < 4 → byteOf (w.get c) r = s.at r c

theorem in_rep {w : W4} {s : State} (h : Cols w s) (q : Q) :
    Rep (ortho { q with q0 := (interleavein w.1 w.2.1 w.2.2.1 w.2.2.2).1, q4 := (interleavein w.1 w.2.1 w.2.2.1 w.2.2.2).2 }) s := by
  intro r c hr hc
  rw [← h r c hr hc, show 16 * r + 4 * c = 8 * (2 * r + c / 2) + 4 * (c % 2) by omega, ortho_at _ (by omega) (by omega)]
  have : c = 0 ∨ c = 1 ∨ c = 2 ∨ c = 3 := by omega
  rcases this with rfl | rfl | rfl | rfl
  · exact inter_even _ _ hr
  · exact inter_even _ _ hr
  · exact inter_odd _ _ hr
  · exact inter_odd _ _ hr

theorem out_rep {q : Q} {s : State} (h : Rep q s) : Cols (interleaveout (ortho q).q0 (ortho q).q4) s := by
  intro r c hr hc
  rw [← h r c hr hc]
  have g := fun c (hc : c < 4) => ortho_byte q (show 2 * r + c / 2 < 8 by omega) (show 4 * (c % 2) < 8 by omega)
  have : c = 0 ∨ c = 1 ∨ c = 2 ∨ c = 3 := by omega
  rcases this with rfl | rfl | rfl | rfl
  · have := g 0 (by decide)
    rw [show 16 * r + 4 * 0 = 8 * (2 * r + 0 / 2) + 4 * (0 % 2) by omega, ← this]
    exact gather_even _ hr
  · have := g 1 (by decide)
    rw [show 16 * r + 4 * 1 = 8 * (2 * r + 1 / 2) + 4 * (1 % 2) by omega, ← this]
    exact gather_even _ hr
  · have := g 2 (by decide)
    rw [show 16 * r + 4 * 2 = 8 * (2 * r + 2 / 2) + 4 * (2 % 2) by omega, ← this]
    exact gather_odd _ hr
  · have := g 3 (by decide)
    rw [show 16 * r + 4 * 3 = 8 * (2 * r + 3 / 2) + 4 * (3 % 2) by omega, ← this]
    exact gather_odd _ hr

/-- Work on the words is a function of the state. -/
def Does (work : Q → Res Q) (F : State → State) : Prop := ∀ q s, Rep q s → ∃ q', work q = .ok q' ∧ Rep q' (F s)

theorem through_ok {work : Q → Res Q} {F : State → State} (hw : Does work F) {w : W4} {s : State} (h : Cols w s) (q : Q) :
    ∃ q' w', through work q w = .ok (q', w') ∧ Cols w' (F s) := by
  obtain ⟨q', h1, h2⟩ := hw _ _ (in_rep h q)
  refine ⟨ortho q', interleaveout (ortho q').q0 (ortho q').q4, ?_, out_rep h2⟩
  unfold through
  dsimp only
  rw [h1, Res.bind_ok]
  rfl

/-! ## Bytes of memory -/

/-- The word of four bytes from `4 i` on. -/
def wordAt (m : List Byte) (i : Nat) : BitVec 32 :=
  (m.getD (4 * i) 0).setWidth 32 ||| (m.getD (4 * i + 1) 0).setWidth 32 <<< 8 ||| (m.getD (4 * i + 2) 0).setWidth 32 <<< 16 |||
    (m.getD (4 * i + 3) 0).setWidth 32 <<< 24

theorem four_bytes (a b c d : Byte) {j : Nat} (hj : j < 4) :
    byteOf (a.setWidth 32 ||| b.setWidth 32 <<< 8 ||| c.setWidth 32 <<< 16 ||| d.setWidth 32 <<< 24) j = [a, b, c, d].getD j 0 := by
  apply byte_ext
  intro k hk
  rw [byteOf_bit _ _ hk]
  simp only [BitVec.getLsbD_or, BitVec.getLsbD_shiftLeft, BitVec.getLsbD_setWidth]
  interval_cases j <;> interval_cases k <;> simp

theorem wordAt_byte (m : List Byte) (i : Nat) {j : Nat} (hj : j < 4) : byteOf (wordAt m i) j = m.getD (4 * i + j) 0 := by
  unfold wordAt
  rw [four_bytes _ _ _ _ hj]
  interval_cases j <;> rfl

theorem four (l : List Byte) (h : l.length = 4) : ∃ a b c d, l = [a, b, c, d] := by
  match l, h with
  | [a, b, c, d], _ => exact ⟨a, b, c, d, rfl⟩

theorem part4 {m : List Byte} {i : Nat} (h : 4 * i + 4 ≤ m.length) :
    (m.take (4 * i + 4)).drop (4 * i) = [m.getD (4 * i) 0, m.getD (4 * i + 1) 0, m.getD (4 * i + 2) 0, m.getD (4 * i + 3) 0] := by
  apply List.ext_getElem
  · simp; omega
  · intro k h1 h2
    have hk : k < 4 := by simpa using h2
    rw [List.getElem_drop, List.getElem_take]
    have l0 : 4 * i < m.length := by omega
    have l1 : 4 * i + 1 < m.length := by omega
    have l2 : 4 * i + 2 < m.length := by omega
    have l3 : 4 * i + 3 < m.length := by omega
    interval_cases k <;> simp [List.getD_eq_getElem?_getD, l0, l1, l2, l3]

theorem getword {m : List Byte} {i : Nat} (h : 4 * i + 4 ≤ m.length) :
    (slice m (4 * i) (4 * i + 4) >>= Endian.getle32 32) = .ok (wordAt m i) := by
  rw [slice_ok (by omega) h, Res.bind_ok, part4 h]
  unfold wordAt
  generalize m.getD (4 * i) 0 = a; generalize m.getD (4 * i + 1) 0 = b; generalize m.getD (4 * i + 2) 0 = c; generalize m.getD (4 * i + 3) 0 = d
  show Res.ok _ = _
  congr 1
  show Endian.shl _ 0 ||| Endian.shl _ 8 ||| Endian.shl _ 16 ||| Endian.shl _ 24 = _
  simp [Endian.shl, Endian.cnt]

theorem getwords_ok {m : List Byte} (h : 16 ≤ m.length) :
    getwords m = .ok (wordAt m 0, wordAt m 1, wordAt m 2, wordAt m 3) := by
  unfold getwords
  have h0 := getword (m := m) (i := 0) (by omega)
  have h1 := getword (m := m) (i := 1) (by omega)
  have h2 := getword (m := m) (i := 2) (by omega)
  have h3 := getword (m := m) (i := 3) (by omega)
  rw [show 4 * 0 + 4 = 4 from rfl, show 4 * 0 = 0 from rfl] at h0
  rw [show 4 * 1 + 4 = 8 from rfl, show 4 * 1 = 4 from rfl] at h1
  rw [show 4 * 2 + 4 = 12 from rfl, show 4 * 2 = 8 from rfl] at h2
  rw [show 4 * 3 + 4 = 16 from rfl, show 4 * 3 = 12 from rfl] at h3
  rw [h0, Res.bind_ok, h1, Res.bind_ok, h2, Res.bind_ok, h3, Res.bind_ok]
  rfl

theorem getwords_cols (m : List Byte) : Cols (wordAt m 0, wordAt m 1, wordAt m 2, wordAt m 3) (Spec.toState m) := by
  intro r c hr hc
  have hs : (Spec.toState m).at r c = m.getD (r + 4 * c) 0 := by
    unfold Spec.State.at Spec.toState
    rw [Vector.getElem_ofFn]
    show m.getD (r % 4 + 4 * (c % 4)) 0 = _
    rw [Nat.mod_eq_of_lt hr, Nat.mod_eq_of_lt hc]
  rw [hs, Nat.add_comm]
  have : c = 0 ∨ c = 1 ∨ c = 2 ∨ c = 3 := by omega
  rcases this with rfl | rfl | rfl | rfl <;> exact wordAt_byte m _ hr

/-- The bytes of a word. -/
def bytesOf (w : BitVec 32) : List Byte := [byteOf w 0, byteOf w 1, byteOf w 2, byteOf w 3]

theorem low_byte (w : BitVec 32) (i : Nat) (hi : i < 4) (x : BitVec 64) (hx : x = (w.setWidth 64) >>> (8 * i)) :
    (x &&& 0xff#64).setWidth 8 = byteOf w i := by
  subst hx
  apply byte_ext
  intro k hk
  rw [byteOf_bit _ _ hk]
  simp only [BitVec.getLsbD_setWidth, BitVec.getLsbD_and, BitVec.getLsbD_ushiftRight]
  interval_cases i <;> interval_cases k <;> simp

theorem putword_ok {c : List Byte} {i : Nat} (h : 4 * i + 4 ≤ c.length) (w : BitVec 32) :
    putword c i w = .ok (c.take (4 * i) ++ bytesOf w ++ c.drop (4 * i + 4)) := by
  unfold putword
  rw [slice_ok (by omega) h, Res.bind_ok, part4 h]
  generalize c.getD (4 * i) 0 = a; generalize c.getD (4 * i + 1) 0 = b; generalize c.getD (4 * i + 2) 0 = x; generalize c.getD (4 * i + 3) 0 = d
  have e : Endian.putle [a, b, x, d] (w.setWidth 64) 4 = .ok (bytesOf w, 4) := by
    show Res.ok (_, 4) = _
    rw [show bytesOf w = [((w.setWidth 64) &&& 0xff#64).setWidth 8, ((w.setWidth 64) >>> 8 &&& 0xff#64).setWidth 8,
      ((w.setWidth 64) >>> 8 >>> 8 &&& 0xff#64).setWidth 8, ((w.setWidth 64) >>> 8 >>> 8 >>> 8 &&& 0xff#64).setWidth 8] from ?_]
    · rfl
    · unfold bytesOf
      rw [low_byte w 0 (by decide) _ (by simp), low_byte w 1 (by decide) _ rfl, low_byte w 2 (by decide) _ (by rw [← BitVec.shiftRight_add]),
        low_byte w 3 (by decide) _ (by rw [← BitVec.shiftRight_add, ← BitVec.shiftRight_add])]
  rw [e, Res.bind_ok]
  rfl

theorem putwords_ok {c : List Byte} (h : 16 ≤ c.length) (w : W4) :
    putwords c w = .ok (bytesOf w.1 ++ bytesOf w.2.1 ++ bytesOf w.2.2.1 ++ bytesOf w.2.2.2 ++ c.drop 16) := by
  obtain ⟨w0, w1, w2, w3⟩ := w
  have l4 : ∀ w, (bytesOf w).length = 4 := fun _ => rfl
  unfold putwords
  rw [putword_ok (by omega), Res.bind_ok]
  simp only [Nat.mul_zero, List.take_zero, List.nil_append, Nat.zero_add]
  rw [putword_ok (by simp [l4]; omega), Res.bind_ok]
  rw [List.take_append_of_le_length (by rw [l4]), List.take_of_length_le (by rw [l4]), List.drop_append, l4,
    List.drop_of_length_le (by rw [l4]; decide), List.nil_append, List.drop_drop]
  rw [putword_ok (by simp [l4]; omega), Res.bind_ok]
  rw [List.take_append_of_le_length (by simp [l4]), List.take_of_length_le (by simp [l4]), List.drop_append,
    List.drop_of_length_le (by simp [l4]), List.nil_append, List.drop_drop]
  rw [putword_ok (by simp [l4]; omega)]
  rw [List.take_append_of_le_length (by simp [l4]), List.take_of_length_le (by simp [l4]), List.drop_append,
    List.drop_of_length_le (by simp [l4]), List.nil_append, List.drop_drop]
  simp [l4]

theorem cols_bytes {w : W4} {s : State} (h : Cols w s) :
    bytesOf w.1 ++ bytesOf w.2.1 ++ bytesOf w.2.2.1 ++ bytesOf w.2.2.2 = s.toList := by
  have key : ∀ c (hc : c < 4), bytesOf (w.get c) = [s.at 0 c, s.at 1 c, s.at 2 c, s.at 3 c] := by
    intro c hc
    unfold bytesOf
    rw [h 0 c (by decide) hc, h 1 c (by decide) hc, h 2 c (by decide) hc, h 3 c (by decide) hc]
  have k0 := key 0 (by decide)
  have k1 := key 1 (by decide)
  have k2 := key 2 (by decide)
  have k3 := key 3 (by decide)
  simp only [W4.get] at k0 k1 k2 k3
  rw [k0, k1, k2, k3]
  apply List.ext_getElem
  · simp
  · intro i h1 h2
    have hi : i < 16 := by simpa using h2
    rw [Vector.getElem_toList]
    interval_cases i <;> rfl

end Verif.Aes
