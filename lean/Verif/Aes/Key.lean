import Verif.Aes.Block

/-! # The key schedule -/

namespace Verif.Aes

open Spec (Word)

/-- A word of the code as a word of the standard. -/
def wd (w : BitVec 32) : Word := Vector.ofFn fun i => byteOf w i.val

theorem wd_get (w : BitVec 32) (r : Nat) (hr : r < 4) : (wd w)[r] = byteOf w r := by
  unfold wd
  rw [Vector.getElem_ofFn]

theorem word_ext {a b : Word} (h : ∀ r (hr : r < 4), a[r] = b[r]) : a = b := Vector.ext h

theorem wd_xor (a b : BitVec 32) : wd (a ^^^ b) = Spec.wxor (wd a) (wd b) := by
  apply word_ext
  intro r hr
  unfold Spec.wxor
  rw [wd_get _ r hr, Vector.getElem_ofFn]
  show _ = (wd a)[r] ^^^ (wd b)[r]
  rw [wd_get _ r hr, wd_get _ r hr]
  apply byte_ext
  intro k hk
  rw [BitVec.getLsbD_xor, byteOf_bit _ _ hk, byteOf_bit _ _ hk, byteOf_bit _ _ hk, BitVec.getLsbD_xor]

theorem wxor_comm (a b : Word) : Spec.wxor a b = Spec.wxor b a := by
  apply word_ext
  intro r hr
  unfold Spec.wxor
  rw [Vector.getElem_ofFn, Vector.getElem_ofFn, BitVec.xor_comm]

theorem wd_rot (w : BitVec 32) : wd (w <<< 24 ||| w >>> 8) = Spec.rotWord (wd w) := by
  apply word_ext
  intro r hr
  unfold Spec.rotWord
  rw [wd_get _ r hr, Vector.getElem_ofFn]
  have e : (wd w)[(⟨r, hr⟩ + 1 : Fin 4)] = byteOf w ((r + 1) % 4) := by
    show (wd w)[(⟨r, hr⟩ + 1 : Fin 4).val]'_ = _
    rw [wd_get _ _ (Fin.isLt _)]
    rfl
  rw [e]
  apply byte_ext
  intro k hk
  rw [byteOf_bit _ _ hk, byteOf_bit _ _ hk]
  simp only [BitVec.getLsbD_or, BitVec.getLsbD_shiftLeft, BitVec.getLsbD_ushiftRight]
  interval_cases r <;> interval_cases k <;> simp

theorem subword_byte (w : BitVec 32) {i : Nat} (hi : i < 4) : byteOf (subword w) i = Spec.sub (byteOf w i) := by
  unfold subword
  have h1 : ∀ x : BitVec 64, byteOf (x.truncate 32) i = byteOf x i := by
    intro x
    apply byteOf_eq
    intro k hk
    have : 8 * i + k < 32 := by omega
    simp [this]
  have h2 : byteOf (w.zeroExtend 64) i = byteOf w i := by
    apply byteOf_eq
    intro k hk
    have : 8 * i + k < 64 := by omega
    simp [this]
  rw [h1]
  have g := ortho_byte (sbox (ortho ⟨w.zeroExtend 64, 0, 0, 0, 0, 0, 0, 0⟩)) (show i < 8 by omega) (show 0 < 8 by decide)
  rw [show ∀ o : Q, o.q0 = o.get 0 from fun _ => rfl, g, sbox_at _ (by omega), ortho_at _ (by omega) (by decide)]
  show Spec.sub (byteOf (w.zeroExtend 64) i) = _
  rw [h2]

theorem wd_sub (w : BitVec 32) : wd (subword w) = Spec.subWord (wd w) := by
  apply word_ext
  intro r hr
  unfold Spec.subWord
  rw [wd_get _ r hr, Vector.getElem_ofFn, subword_byte w hr]
  show _ = Spec.sub (wd w)[r]
  rw [wd_get _ r hr]

theorem rcon_ok : ∀ k : Fin 10, ∃ h : k.val < rcon.length, wd (rcon[k.val]) = Spec.rcon (k.val + 1) := by
  decide +kernel

/-! ## The loop -/

theorem take_set {α : Type} (l : List α) (i : Nat) (v : α) (h : i < l.length) : (l.set i v).take (i + 1) = l.take i ++ [v] := by
  rw [List.take_succ_eq_append_getElem (by simpa using h), List.take_set_of_le (Nat.le_refl _), List.getElem_set_self]

/-- Steps of the loop are words of the schedule. -/
theorem keyloop_ok (nk : Nat) (hk : 4 ≤ nk) (hk8 : nk ≤ 8) : ∀ (n : Nat) (skey : List (BitVec 32)) (tmp : BitVec 32) (i j k : Nat) (ws : List Word),
    skey.length = 60 → (skey.take i).map wd = ws → nk ≤ i → i + n ≤ 60 → ws.getLastD 0 = wd tmp → j = i % nk → k = i / nk - 1 →
    i + n ≤ 11 * nk →
    ∃ skey', keyloop nk skey tmp i j k n = .ok skey' ∧ skey'.length = 60 ∧ (skey'.take (i + n)).map wd = Spec.expandKey nk n ws
  | 0, skey, tmp, i, j, k, ws, hl, hw, _, _, _, _, _, _ => ⟨skey, rfl, hl, hw⟩
  | n + 1, skey, tmp, i, j, k, ws, hl, hw, hi, hn, ht, hj, hkk, hm => by
    have hlen : ws.length = i := by rw [← hw, List.length_map, List.length_take]; omega
    have hi1 : 1 ≤ i / nk := (Nat.one_le_div_iff (by omega)).mpr hi
    have hi2 : i / nk < 11 := Nat.div_lt_of_lt_mul (by rw [Nat.mul_comm]; omega)
    -- the word that is added
    have hstep : ∃ t, keystep nk tmp j k = .ok t ∧
        wd t = (if i % nk = 0 then Spec.wxor (Spec.subWord (Spec.rotWord (wd tmp))) (Spec.rcon (i / nk))
          else if nk > 6 ∧ i % nk = 4 then Spec.subWord (wd tmp) else wd tmp) := by
      unfold keystep
      rw [hj]
      by_cases h0 : i % nk = 0
      · obtain ⟨hr1, hr2⟩ := rcon_ok ⟨i / nk - 1, by omega⟩
        refine ⟨_, by rw [if_pos h0, hkk, rdChk_ok hr1, Res.bind_ok]; rfl, ?_⟩
        rw [if_pos h0, wd_xor, wd_sub, wd_rot, hr2]
        congr 2
        show i / nk - 1 + 1 = _
        omega
      · by_cases h4 : nk > 6 ∧ i % nk = 4
        · exact ⟨_, by rw [if_neg h0, if_pos h4]; rfl, by rw [if_neg h0, if_pos h4, wd_sub]⟩
        · exact ⟨_, by rw [if_neg h0, if_neg h4]; rfl, by rw [if_neg h0, if_neg h4]⟩
    obtain ⟨t, ht1, ht2⟩ := hstep
    have hrd : i - nk < skey.length := by omega
    have hold : ws.getD (i - nk) 0 = wd (skey[i - nk]'hrd) := by
      rw [← hw, List.getD_eq_getElem?_getD, List.getElem?_map, List.getElem?_take_of_lt (by omega), List.getElem?_eq_getElem hrd]
      rfl
    have hnext : Spec.nextWord nk ws = wd (t ^^^ skey[i - nk]'hrd) := by
      unfold Spec.nextWord
      simp only [hlen, ht, hold]
      rw [wd_xor, wxor_comm, ht2]
    have hw' : ((skey.set i (t ^^^ skey[i - nk]'hrd)).take (i + 1)).map wd = ws ++ [Spec.nextWord nk ws] := by
      rw [take_set _ _ _ (by omega), List.map_append, hw, hnext]
      rfl
    have hlast : (ws ++ [Spec.nextWord nk ws]).getLastD 0 = wd (t ^^^ skey[i - nk]'hrd) := by
      rw [List.getLastD_concat, hnext]
    have hsl : (skey.set i (t ^^^ skey[i - nk]'hrd)).length = 60 := by rw [List.length_set, hl]
    unfold keyloop
    rw [ht1, Res.bind_ok, rdChk_ok hrd, Res.bind_ok]
    dsimp only
    rw [wrChk_ok _ (by omega), Res.bind_ok]
    have hdm := Nat.div_add_mod i nk
    by_cases hc : j + 1 = nk
    · rw [if_pos hc]
      have e : i + 1 = nk * (i / nk + 1) := by rw [Nat.mul_succ]; omega
      obtain ⟨s', h1, h2, h3⟩ := keyloop_ok nk hk hk8 n _ (t ^^^ skey[i - nk]'hrd) (i + 1) 0 (k + 1) _ hsl hw' (by omega) (by omega) hlast
        (by rw [e, Nat.mul_mod_right]) (by rw [e, Nat.mul_div_cancel_left _ (by omega)]; omega) (by omega)
      exact ⟨s', h1, h2, by rw [show i + (n + 1) = i + 1 + n by omega]; exact h3⟩
    · rw [if_neg hc]
      have hjl : i % nk < nk := Nat.mod_lt _ (by omega)
      have e : i + 1 = (i % nk + 1) + nk * (i / nk) := by omega
      obtain ⟨s', h1, h2, h3⟩ := keyloop_ok nk hk hk8 n _ (t ^^^ skey[i - nk]'hrd) (i + 1) (j + 1) k _ hsl hw' (by omega) (by omega) hlast
        (by rw [e, Nat.add_mul_mod_self_left, Nat.mod_eq_of_lt (by omega), hj])
        (by rw [e, Nat.add_mul_div_left _ _ (by omega), Nat.div_eq_of_lt (by omega), hkk]; omega) (by omega)
      exact ⟨s', h1, h2, by rw [show i + (n + 1) = i + 1 + n by omega]; exact h3⟩

theorem wd_wordAt (key : List Byte) (i : Nat) : wd (wordAt key i) = Vector.ofFn fun j : Fin 4 => key.getD (4 * i + j) 0 := by
  apply word_ext
  intro r hr
  rw [wd_get _ r hr, Vector.getElem_ofFn, wordAt_byte _ _ hr]

theorem loadkey_ok (key : List Byte) : ∀ (n i : Nat) (skey : List (BitVec 32)), skey.length = 60 → 4 * (i + n) ≤ key.length → i + n ≤ 60 →
    (skey.take i).map wd = (List.range i).map (fun i => wd (wordAt key i)) →
    ∃ skey', loadkey key skey i n = .ok skey' ∧ skey'.length = 60 ∧
      (skey'.take (i + n)).map wd = (List.range (i + n)).map (fun i => wd (wordAt key i))
  | 0, i, skey, hl, _, _, h => ⟨skey, rfl, hl, h⟩
  | n + 1, i, skey, hl, h1, h2, h => by
    unfold loadkey
    rw [getword (by omega), Res.bind_ok, wrChk_ok _ (by omega), Res.bind_ok]
    obtain ⟨s', g1, g2, g3⟩ := loadkey_ok key n (i + 1) (skey.set i (wordAt key i)) (by rw [List.length_set, hl]) (by omega) (by omega)
      (by rw [take_set _ _ _ (by omega), List.map_append, h, List.range_succ, List.map_append]; rfl)
    refine ⟨s', g1, g2, ?_⟩
    rw [show i + (n + 1) = i + 1 + n by omega]
    exact g3

/-! ## Round keys -/

/-- The words that `expand` makes of two words of the context. -/
def widened (a b : BitVec 64) : Q :=
  ⟨widen 0x1111111111111111#64 0 a, widen 0x2222222222222222#64 1 a, widen 0x4444444444444444#64 2 a, widen 0x8888888888888888#64 3 a,
    widen 0x1111111111111111#64 0 b, widen 0x2222222222222222#64 1 b, widen 0x4444444444444444#64 2 b, widen 0x8888888888888888#64 3 b⟩

theorem fill (x : BitVec 64) (h : ∀ p, x.getLsbD p = true → p % 4 = 0) {n : Nat} :
    (x <<< 4 - x).getLsbD (4 * n) = x.getLsbD (4 * n) := by
  have e : x <<< 4 - x = x + x <<< 1 + x <<< 2 + x <<< 3 := by
    simp only [BitVec.shiftLeft_eq_mul_twoPow]
    rw [show BitVec.twoPow 64 4 = 16#64 from rfl, show BitVec.twoPow 64 3 = 8#64 from rfl, show BitVec.twoPow 64 2 = 4#64 from rfl,
      show BitVec.twoPow 64 1 = 2#64 from rfl]
    grind
  have d1 : x &&& x <<< 1 = 0#64 := by
    apply BitVec.eq_of_getLsbD_eq
    intro i hi
    simp only [BitVec.getLsbD_and, BitVec.getLsbD_shiftLeft, BitVec.getLsbD_zero, Bool.and_eq_false_iff]
    by_contra hc
    simp at hc
    have := h _ hc.1
    have := h _ hc.2.2
    omega
  have d2 : (x ||| x <<< 1) &&& x <<< 2 = 0#64 := by
    apply BitVec.eq_of_getLsbD_eq
    intro i hi
    simp only [BitVec.getLsbD_and, BitVec.getLsbD_or, BitVec.getLsbD_shiftLeft, BitVec.getLsbD_zero]
    by_contra hc
    simp at hc
    have h3 := h _ hc.2.2.2
    rcases hc.1 with h1 | h1
    · have := h _ h1
      omega
    · have := h _ h1.2
      have := h1.1
      omega
  have d3 : (x ||| x <<< 1 ||| x <<< 2) &&& x <<< 3 = 0#64 := by
    apply BitVec.eq_of_getLsbD_eq
    intro i hi
    simp only [BitVec.getLsbD_and, BitVec.getLsbD_or, BitVec.getLsbD_shiftLeft, BitVec.getLsbD_zero]
    by_contra hc
    simp at hc
    have h3 := h _ hc.2.2.2
    rcases hc.1 with (h1 | h1) | h1
    · have := h _ h1
      omega
    · have := h _ h1.2
      have := h1.1
      omega
    · have := h _ h1.2
      have := h1.1
      omega
  rw [e, BitVec.add_eq_or_of_and_eq_zero _ _ d1, BitVec.add_eq_or_of_and_eq_zero _ _ d2, BitVec.add_eq_or_of_and_eq_zero _ _ d3]
  have k : ∀ m, 0 < m → m < 4 → (x <<< m).getLsbD (4 * n) = false := by
    intro m h1 h2
    rw [BitVec.getLsbD_shiftLeft]
    by_contra hc
    simp at hc
    have := h _ hc.2.2
    omega
  rw [BitVec.getLsbD_or, BitVec.getLsbD_or, BitVec.getLsbD_or, k 1 (by decide) (by decide), k 2 (by decide) (by decide), k 3 (by decide) (by decide)]
  simp

theorem widen_bit (m : BitVec 64) (b : Nat) (hm : ∀ p : Fin 64, (m >>> b).getLsbD p.val = decide (p.val % 4 = 0)) (k : BitVec 64) {n : Nat} (hn : n < 16) :
    (widen m b k).getLsbD (4 * n) = k.getLsbD (4 * n + b) := by
  have e : (k &&& m) >>> b = (k >>> b) &&& (m >>> b) := BitVec.ushiftRight_and_distrib ..
  have hb : ∀ p, ((k &&& m) >>> b).getLsbD p = (k.getLsbD (b + p) && (m >>> b).getLsbD p) := by
    intro p
    rw [e, BitVec.getLsbD_and, BitVec.getLsbD_ushiftRight]
  unfold widen
  rw [fill _ _, hb, hm ⟨4 * n, by omega⟩, Nat.add_comm]
  · simp
  · intro p hp
    rw [hb, Bool.and_eq_true] at hp
    by_cases h : p < 64
    · have := hp.2
      rw [hm ⟨p, h⟩] at this
      simpa using this
    · rw [BitVec.getLsbD_of_ge _ _ (by omega)] at hp
      simp at hp

theorem widen0 (k : BitVec 64) {n : Nat} (hn : n < 16) : (widen 0x1111111111111111#64 0 k).getLsbD (4 * n) = k.getLsbD (4 * n + 0) :=
  widen_bit _ _ (by decide) k hn
theorem widen1 (k : BitVec 64) {n : Nat} (hn : n < 16) : (widen 0x2222222222222222#64 1 k).getLsbD (4 * n) = k.getLsbD (4 * n + 1) :=
  widen_bit _ _ (by decide) k hn
theorem widen2 (k : BitVec 64) {n : Nat} (hn : n < 16) : (widen 0x4444444444444444#64 2 k).getLsbD (4 * n) = k.getLsbD (4 * n + 2) :=
  widen_bit _ _ (by decide) k hn
theorem widen3 (k : BitVec 64) {n : Nat} (hn : n < 16) : (widen 0x8888888888888888#64 3 k).getLsbD (4 * n) = k.getLsbD (4 * n + 3) :=
  widen_bit _ _ (by decide) k hn

theorem pick (a b c d : BitVec 64) {n : Nat} (hn : n < 16) :
    let x := (a &&& 0x1111111111111111#64) ||| (b &&& 0x2222222222222222#64) ||| (c &&& 0x4444444444444444#64) ||| (d &&& 0x8888888888888888#64)
    x.getLsbD (4 * n + 0) = a.getLsbD (4 * n + 0) ∧ x.getLsbD (4 * n + 1) = b.getLsbD (4 * n + 1) ∧
    x.getLsbD (4 * n + 2) = c.getLsbD (4 * n + 2) ∧ x.getLsbD (4 * n + 3) = d.getLsbD (4 * n + 3) := by
  simp only [BitVec.getLsbD_or, BitVec.getLsbD_and]
  interval_cases n <;> simp

/-- The round key comes back from the context. -/
theorem widened_rep (w0 w1 w2 w3 : BitVec 32) :
    KeyRep (widened (compress w0 w1 w2 w3).1 (compress w0 w1 w2 w3).2) (fun c => wd (W4.get (w0, w1, w2, w3) c)) := by
  intro r c hr hc
  rw [wd_get _ r hr]
  have hw : ∀ n, n < 16 → (widened (compress w0 w1 w2 w3).1 (compress w0 w1 w2 w3).2).at (4 * n) =
      byteOf (if n % 2 = 0 then (interleavein w0 w1 w2 w3).1 else (interleavein w0 w1 w2 w3).2) (n / 2) := by
    intro n hn
    apply byte_ext
    intro k hk
    rw [get_at _ _ hk, byteOf_bit _ _ hk]
    generalize hab : interleavein w0 w1 w2 w3 = ab
    have hcp : compress w0 w1 w2 w3 = (let q := ortho ⟨ab.1, ab.1, ab.1, ab.1, ab.2, ab.2, ab.2, ab.2⟩
      ((q.q0 &&& 0x1111111111111111#64) ||| (q.q1 &&& 0x2222222222222222#64) ||| (q.q2 &&& 0x4444444444444444#64) ||| (q.q3 &&& 0x8888888888888888#64),
        (q.q4 &&& 0x1111111111111111#64) ||| (q.q5 &&& 0x2222222222222222#64) ||| (q.q6 &&& 0x4444444444444444#64) ||| (q.q7 &&& 0x8888888888888888#64))) := by
      unfold compress
      rw [hab]
    have hq : ∀ b, b < 4 → ∀ k, k < 8 → ((ortho ⟨ab.1, ab.1, ab.1, ab.1, ab.2, ab.2, ab.2, ab.2⟩ : Q).get k).getLsbD (4 * n + b) =
        (if n % 2 = 0 then ab.1 else ab.2).getLsbD (8 * (n / 2) + k) := by
      intro b hb k hk
      rw [show 4 * n + b = 8 * (n / 2) + (4 * (n % 2) + b) by omega, ortho_bit _ (by omega) (by omega) hk]
      rcases Nat.mod_two_eq_zero_or_one n with h | h
      · rw [h, if_pos rfl]
        interval_cases b <;> rfl
      · rw [h, if_neg (by decide)]
        interval_cases b <;> rfl
    rw [hcp]
    generalize (ortho ⟨ab.1, ab.1, ab.1, ab.1, ab.2, ab.2, ab.2, ab.2⟩ : Q) = q at hq
    obtain ⟨p0, p1, p2, p3⟩ := pick q.q0 q.q1 q.q2 q.q3 hn
    obtain ⟨p4, p5, p6, p7⟩ := pick q.q4 q.q5 q.q6 q.q7 hn
    interval_cases k
    · exact (widen0 _ hn).trans (p0.trans (hq 0 (by decide) 0 (by decide)))
    · exact (widen1 _ hn).trans (p1.trans (hq 1 (by decide) 1 (by decide)))
    · exact (widen2 _ hn).trans (p2.trans (hq 2 (by decide) 2 (by decide)))
    · exact (widen3 _ hn).trans (p3.trans (hq 3 (by decide) 3 (by decide)))
    · exact (widen0 _ hn).trans (p4.trans (hq 0 (by decide) 4 (by decide)))
    · exact (widen1 _ hn).trans (p5.trans (hq 1 (by decide) 5 (by decide)))
    · exact (widen2 _ hn).trans (p6.trans (hq 2 (by decide) 6 (by decide)))
    · exact (widen3 _ hn).trans (p7.trans (hq 3 (by decide) 7 (by decide)))
  rw [show 16 * r + 4 * c = 4 * (4 * r + c) by omega, hw _ (by omega)]
  have : c = 0 ∨ c = 1 ∨ c = 2 ∨ c = 3 := by omega
  rcases this with rfl | rfl | rfl | rfl
  · rw [if_pos (by omega), show (4 * r + 0) / 2 = 2 * r by omega]
    exact inter_even _ _ hr
  · rw [if_neg (by omega), show (4 * r + 1) / 2 = 2 * r by omega]
    exact inter_even _ _ hr
  · rw [if_pos (by omega), show (4 * r + 2) / 2 = 2 * r + 1 by omega]
    exact inter_odd _ _ hr
  · rw [if_neg (by omega), show (4 * r + 3) / 2 = 2 * r + 1 by omega]
    exact inter_odd _ _ hr

end Verif.Aes
