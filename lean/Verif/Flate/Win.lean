import Verif.Flate.Bits

/-! # Lemmas: the window -/

namespace Verif.Flate

/-- The window holds the last bytes of the output (auxiliary). -/
structure Win.Inv (w : Win) : Prop where
  len : w.wlen = w.out.length
  size : w.wbuf.length = WinSz
  le : w.wpos ≤ WinSz
  pos : w.wpos % WinSz = w.out.length % WinSz
  full : w.wpos = WinSz → WinSz ≤ w.out.length
  buf : ∀ j, j < w.out.length → w.out.length - j ≤ WinSz → w.wbuf[j % WinSz]? = w.out[j]?

theorem WinSz_pos : 0 < WinSz := by decide

theorem mod_ne {j n : Nat} (h1 : j < n) (h2 : n - j < WinSz) : j % WinSz ≠ n % WinSz := by
  intro h
  have h3 := Nat.sub_mod_eq_zero_of_mod_eq h.symm
  rw [Nat.mod_eq_of_lt h2] at h3
  omega

theorem Win.Inv.next {w : Win} (h : w.Inv) (b : Byte) (p : Nat) (hp : p ≤ WinSz)
    (hpos : p % WinSz = (w.out.length + 1) % WinSz) (hfull : p = WinSz → WinSz ≤ w.out.length + 1) :
    Win.Inv ⟨w.out ++ [b], p, w.wlen + 1, w.wbuf.set (w.out.length % WinSz) b⟩ := by
  have hlt : w.out.length % WinSz < w.wbuf.length := by rw [h.size]; exact Nat.mod_lt _ WinSz_pos
  constructor <;> dsimp only
  · rw [h.len]; simp
  · rw [List.length_set]; exact h.size
  · exact hp
  · rw [hpos]; simp
  · simpa using hfull
  · intro j h1 h2
    rw [List.length_append, List.length_singleton] at h1 h2
    by_cases e : j = w.out.length
    · subst e; rw [List.getElem?_set_self hlt]; simp
    · rw [List.getElem?_set_ne (fun e' => mod_ne (j := j) (n := w.out.length) (by omega) (by omega) e'.symm),
        h.buf j (by omega) (by omega), List.getElem?_append_left (by omega)]

theorem outb_ok (w : Win) (h : w.Inv) (b : Byte) :
    ∃ w', outb w b = FM.ret w' ∧ w'.Inv ∧ w'.out = w.out ++ [b] := by
  have hW := WinSz_pos
  have hle := h.le
  have hsz := h.size
  rw [outb]
  by_cases hp : w.wpos = WinSz
  · have hz : w.out.length % WinSz = 0 := by rw [← h.pos, hp, Nat.mod_self]
    rw [if_pos hp, if_pos (by rw [h.len]; exact h.full hp), wrChk_ok _ (by omega), FM.lift_ok, FM.bind_ret]
    have hn := h.next b (0 + 1) (by omega) (by rw [Nat.add_mod w.out.length, hz, Nat.add_mod 0]; simp) (by
      have := h.full hp; omega)
    rw [hz] at hn
    exact ⟨_, rfl, hn, rfl⟩
  · have hz : w.out.length % WinSz = w.wpos := by rw [← h.pos, Nat.mod_eq_of_lt (by omega)]
    rw [if_neg hp, wrChk_ok _ (by omega), FM.lift_ok, FM.bind_ret]
    have hn := h.next b (w.wpos + 1) (by omega) (by rw [Nat.add_mod, h.pos, ← Nat.add_mod]) (by
      intro e
      have := Nat.mod_le w.out.length WinSz
      omega)
    rw [hz] at hn
    exact ⟨_, rfl, hn, rfl⟩

theorem copyLoop_ok (n : Nat) (w : Win) (h : w.Inv) (d : Nat) (h1 : 1 ≤ d) (h2 : d ≤ WinSz) (h3 : d ≤ w.out.length) :
    ∃ w', copyLoop n w ((w.out.length - d) % WinSz) = FM.ret w' ∧ w'.Inv ∧ w'.out = copyBack d n w.out := by
  induction n generalizing w with
  | zero => exact ⟨w, rfl, h, rfl⟩
  | succ n ih =>
    have hb := h.buf (w.out.length - d) (by omega) (by omega)
    have hget : w.out[w.out.length - d]? = some w.out[w.out.length - d] := List.getElem?_eq_getElem (by omega)
    obtain ⟨w₁, e1, e2, e3⟩ := outb_ok w h w.out[w.out.length - d]
    obtain ⟨w', e4, e5, e6⟩ := ih w₁ e2 (by rw [e3]; simp; omega)
    refine ⟨w', ?_, e5, ?_⟩
    · rw [copyLoop, rdChk, hb, hget]
      simp only [FM.lift_ok, FM.bind_ret, e1]
      rw [← e4, e3, List.length_append, List.length_singleton, Nat.mod_add_mod,
        show w.out.length - d + 1 = w.out.length + 1 - d by omega]
    · rw [e6, copyBack, hget, e3]

/-- A reference back into the output. -/
theorem copy_ok (w : Win) (h : w.Inv) (n d : Nat) (h1 : 1 ≤ d) (h2 : d ≤ WinSz) (h3 : d ≤ w.out.length) :
    ∃ w', copy w n d = FM.ret w' ∧ w'.Inv ∧ w'.out = copyBack d n w.out := by
  have hidx : (WinSz + w.wpos - d) % WinSz = (w.out.length - d) % WinSz := by
    have hdm := Nat.div_add_mod w.out.length WinSz
    have hle := h.le
    have hpos := h.pos
    by_cases hp : w.wpos = WinSz
    · have hz : w.out.length % WinSz = 0 := by rw [← h.pos, hp, Nat.mod_self]
      have hf := h.full hp
      obtain ⟨q, hq⟩ : ∃ q, w.out.length / WinSz = q + 1 :=
        ⟨w.out.length / WinSz - 1, by have := Nat.div_pos hf WinSz_pos; omega⟩
      rw [hz, hq, Nat.mul_add, Nat.mul_one] at hdm
      rw [← hdm, hp, show WinSz + WinSz - d = WinSz - d + WinSz by omega, Nat.add_mod_right,
        show WinSz * q + WinSz + 0 - d = WinSz * q + (WinSz - d) by omega, Nat.mul_add_mod]
    · rw [Nat.mod_eq_of_lt (by omega : w.wpos < WinSz)] at hpos
      rw [← hpos] at hdm
      rcases Nat.eq_zero_or_pos (w.out.length / WinSz) with hq | hq
      · rw [hq, Nat.mul_zero, Nat.zero_add] at hdm
        rw [← hdm, show WinSz + w.wpos - d = w.wpos - d + WinSz by omega, Nat.add_mod_right]
      · obtain ⟨q, hq⟩ : ∃ q, w.out.length / WinSz = q + 1 := ⟨w.out.length / WinSz - 1, by omega⟩
        rw [hq, Nat.mul_add, Nat.mul_one] at hdm
        rw [← hdm, show WinSz * q + WinSz + w.wpos - d = WinSz * q + (WinSz + w.wpos - d) by omega, Nat.mul_add_mod]
  have := copyLoop_ok n w h d h1 h2 h3
  rw [copy, if_neg (by rw [h.len]; omega), hidx]
  exact this

theorem copy_far (w : Win) (h : w.Inv) (n d : Nat) (h3 : w.out.length < d) : copy w n d = FM.err .format := by
  rw [copy, if_pos (by rw [h.len]; exact h3)]

theorem init_inv : Win.Inv ⟨[], 0, 0, List.replicate WinSz 0⟩ := by
  constructor <;> dsimp only
  · rfl
  · exact List.length_replicate
  · exact Nat.zero_le _
  · rfl
  · intro h; exact absurd h (by decide)
  · intro j h; simp at h

/-! ## What `copyBack` means -/

theorem copyBack_length (d : Nat) (n : Nat) (out : List Byte) (h1 : 1 ≤ d) (h : d ≤ out.length) :
    (copyBack d n out).length = out.length + n := by
  induction n generalizing out with
  | zero => rfl
  | succ n ih =>
    rw [copyBack, List.getElem?_eq_getElem (by omega)]
    dsimp only
    rw [ih _ (by simp; omega)]; simp; omega

theorem copyBack_prefix (d : Nat) (n : Nat) (out : List Byte) : out <+: copyBack d n out := by
  induction n generalizing out with
  | zero => exact List.prefix_refl _
  | succ n ih =>
    rw [copyBack]
    split
    · exact List.IsPrefix.trans (List.prefix_append _ _) (ih _)
    · exact List.prefix_refl _

theorem copyBack_get (d : Nat) (n : Nat) (out : List Byte) (h1 : 1 ≤ d) (h : d ≤ out.length) (i : Nat) (hi : i < n) :
    (copyBack d n out)[out.length + i]? = (copyBack d n out)[out.length + i - d]? := by
  induction n generalizing out i with
  | zero => omega
  | succ n ih =>
    rw [copyBack, List.getElem?_eq_getElem (show out.length - d < out.length by omega)]
    dsimp only
    cases i with
    | zero =>
      have hp := copyBack_prefix d n (out ++ [out[out.length - d]])
      obtain ⟨t, ht⟩ := hp
      rw [← ht, Nat.add_zero, List.append_assoc, List.getElem?_append_right (Nat.le_refl _), Nat.sub_self,
        List.getElem?_append_left (show out.length - d < out.length by omega)]
      simp
    | succ i =>
      have := ih (out ++ [out[out.length - d]]) (by simp; omega) i (by omega)
      rw [List.length_append, List.length_singleton] at this
      rw [show out.length + (i + 1) = out.length + 1 + i by omega]
      exact this

end Verif.Flate
