import Verif.Aes.Key

/-! # The cipher on the words -/

namespace Verif.Aes

open Spec (State Word)

/-! ## Round keys in the context -/

/-- The words of a round in the context. -/
def Holds (skey : List (BitVec 64)) (ws : List (BitVec 32)) (r : Nat) : Prop :=
  skey[2 * r]? = some (compress (ws.getD (4 * r) 0) (ws.getD (4 * r + 1) 0) (ws.getD (4 * r + 2) 0) (ws.getD (4 * r + 3) 0)).1 ∧
  skey[2 * r + 1]? = some (compress (ws.getD (4 * r) 0) (ws.getD (4 * r + 1) 0) (ws.getD (4 * r + 2) 0) (ws.getD (4 * r + 3) 0)).2

theorem rd4 {α : Type} [Inhabited α] {l : List α} {i : Nat} (d : α) (h : 4 * i + 4 ≤ l.length) :
    (l.take (4 * i + 4)).drop (4 * i) = [l.getD (4 * i) d, l.getD (4 * i + 1) d, l.getD (4 * i + 2) d, l.getD (4 * i + 3) d] := by
  apply List.ext_getElem
  · simp; omega
  · intro k h1 h2
    have hk : k < 4 := by simpa using h2
    rw [List.getElem_drop, List.getElem_take]
    have l0 : 4 * i < l.length := by omega
    have l1 : 4 * i + 1 < l.length := by omega
    have l2 : 4 * i + 2 < l.length := by omega
    have l3 : 4 * i + 3 < l.length := by omega
    interval_cases k <;> simp [List.getD_eq_getElem?_getD, l0, l1, l2, l3]

theorem comploop_ok (ws : List (BitVec 32)) : ∀ (n i : Nat) (out : List (BitVec 64)), out.length = 30 → i + n ≤ 15 → 4 * (i + n) ≤ ws.length →
    (∀ r < i, Holds out ws r) →
    ∃ out', comploop ws out i n = .ok out' ∧ out'.length = 30 ∧ ∀ r < i + n, Holds out' ws r
  | 0, i, out, hl, _, _, h => ⟨out, rfl, hl, h⟩
  | n + 1, i, out, hl, h1, h2, h => by
    unfold comploop
    rw [slice_ok (by omega) (by omega), Res.bind_ok, rd4 0 (by omega)]
    generalize hc : compress (ws.getD (4 * i) 0) (ws.getD (4 * i + 1) 0) (ws.getD (4 * i + 2) 0) (ws.getD (4 * i + 3) 0) = ab
    have e : ∀ (a b c d : BitVec 32), rdChk [a, b, c, d] 0 = .ok a ∧ rdChk [a, b, c, d] 1 = .ok b ∧ rdChk [a, b, c, d] 2 = .ok c ∧
      rdChk [a, b, c, d] 3 = .ok d := fun _ _ _ _ => ⟨rfl, rfl, rfl, rfl⟩
    obtain ⟨e0, e1, e2, e3⟩ := e (ws.getD (4 * i) 0) (ws.getD (4 * i + 1) 0) (ws.getD (4 * i + 2) 0) (ws.getD (4 * i + 3) 0)
    rw [e0, Res.bind_ok, e1, Res.bind_ok, e2, Res.bind_ok, e3, Res.bind_ok, hc, wrChk_ok _ (by omega), Res.bind_ok,
      wrChk_ok _ (by rw [List.length_set]; omega), Res.bind_ok]
    obtain ⟨o', g1, g2, g3⟩ := comploop_ok ws n (i + 1) ((out.set (2 * i) ab.1).set (2 * i + 1) ab.2)
      (by rw [List.length_set, List.length_set, hl]) (by omega) (by omega) (by
        intro r hr
        by_cases hri : r = i
        · subst hri
          unfold Holds
          rw [hc, List.getElem?_set_ne (by omega), List.getElem?_set_self (by omega), List.getElem?_set_self (by rw [List.length_set]; omega)]
          exact ⟨rfl, rfl⟩
        · have := h r (by omega)
          unfold Holds at this ⊢
          rw [List.getElem?_set_ne (by omega), List.getElem?_set_ne (by omega), List.getElem?_set_ne (by omega), List.getElem?_set_ne (by omega)]
          exact this)
    exact ⟨o', g1, g2, fun r hr => g3 r (by omega)⟩

/-- The four words made of a word of the context. -/
def Wide (ek key : List (BitVec 64)) (u : Nat) : Prop :=
  ∃ k, key[u]? = some k ∧ ek[4 * u]? = some (widen 0x1111111111111111#64 0 k) ∧ ek[4 * u + 1]? = some (widen 0x2222222222222222#64 1 k) ∧
    ek[4 * u + 2]? = some (widen 0x4444444444444444#64 2 k) ∧ ek[4 * u + 3]? = some (widen 0x8888888888888888#64 3 k)

theorem expand_ok (key : List (BitVec 64)) : ∀ (n u : Nat) (ek : List (BitVec 64)), ek.length = 240 → u + n ≤ 60 → u + n ≤ key.length →
    (∀ v < u, Wide ek key v) →
    ∃ ek', expand ek key u n = .ok ek' ∧ ek'.length = 240 ∧ ∀ v < u + n, Wide ek' key v
  | 0, u, ek, hl, _, _, h => ⟨ek, rfl, hl, h⟩
  | n + 1, u, ek, hl, h1, h2, h => by
    unfold expand
    have hu : u < key.length := by omega
    rw [rdChk_ok hu, Res.bind_ok]
    generalize hk : key[u] = k
    rw [wrChk_ok _ (by omega), Res.bind_ok, wrChk_ok _ (by simp only [List.length_set]; omega), Res.bind_ok,
      wrChk_ok _ (by simp only [List.length_set]; omega), Res.bind_ok, wrChk_ok _ (by simp only [List.length_set]; omega), Res.bind_ok]
    obtain ⟨o', g1, g2, g3⟩ := expand_ok key n (u + 1) ((((ek.set (4 * u + 0) (widen 0x1111111111111111#64 0 k)).set (4 * u + 1) (widen 0x2222222222222222#64 1 k)).set (4 * u + 2)
      (widen 0x4444444444444444#64 2 k)).set (4 * u + 3) (widen 0x8888888888888888#64 3 k)) (by simp only [List.length_set]; exact hl) (by omega) (by omega) (by
        intro r hr
        by_cases hri : r = u
        · subst hri
          refine ⟨k, by rw [List.getElem?_eq_getElem hu, hk], ?_, ?_, ?_, ?_⟩
          · rw [List.getElem?_set_ne (by omega), List.getElem?_set_ne (by omega), List.getElem?_set_ne (by omega)]
            exact List.getElem?_set_self (by omega)
          · rw [List.getElem?_set_ne (by omega), List.getElem?_set_ne (by omega), List.getElem?_set_self (by simp only [List.length_set]; omega)]
          · rw [List.getElem?_set_ne (by omega), List.getElem?_set_self (by simp only [List.length_set]; omega)]
          · rw [List.getElem?_set_self (by simp only [List.length_set]; omega)]
        · obtain ⟨k', a0, a1, a2, a3, a4⟩ := h r (by omega)
          have ne : ∀ x, x < 4 * u → ∀ a b c d : BitVec 64, ((((ek.set (4 * u + 0) a).set (4 * u + 1) b).set (4 * u + 2) c).set (4 * u + 3) d)[x]? = ek[x]? := by
            intro x hx a b c d
            rw [List.getElem?_set_ne (by omega), List.getElem?_set_ne (by omega), List.getElem?_set_ne (by omega), List.getElem?_set_ne (by omega)]
          refine ⟨k', a0, ?_, ?_, ?_, ?_⟩ <;> rw [ne _ (by omega)] <;> assumption)
    exact ⟨o', g1, g2, fun r hr => g3 r (by omega)⟩

/-- Eight words of the expanded key hold a round key. -/
def RoundAt (ek : List (BitVec 64)) (w : List Word) (r : Nat) : Prop :=
  ∃ k, (slice ek (r * 8) (r * 8 + 8) >>= oct) = .ok k ∧ KeyRep k (Spec.roundKey w r)

theorem oct_ok {ek : List (BitVec 64)} {r : Nat} {a b c d e f g h : BitVec 64} (hl : 8 * r + 8 ≤ ek.length)
    (h0 : ek[8 * r]? = some a) (h1 : ek[8 * r + 1]? = some b) (h2 : ek[8 * r + 2]? = some c) (h3 : ek[8 * r + 3]? = some d)
    (h4 : ek[8 * r + 4]? = some e) (h5 : ek[8 * r + 5]? = some f) (h6 : ek[8 * r + 6]? = some g) (h7 : ek[8 * r + 7]? = some h) :
    (slice ek (r * 8) (r * 8 + 8) >>= oct) = .ok ⟨a, b, c, d, e, f, g, h⟩ := by
  rw [slice_ok (by omega) (by omega), Res.bind_ok]
  have hg : ∀ k < 8, ((ek.take (r * 8 + 8)).drop (r * 8))[k]? = ek[8 * r + k]? := by
    intro k hk
    rw [List.getElem?_drop, List.getElem?_take_of_lt (by omega), Nat.mul_comm]
  have e0 := hg 0 (by decide)
  have e1 := hg 1 (by decide)
  have e2 := hg 2 (by decide)
  have e3 := hg 3 (by decide)
  have e4 := hg 4 (by decide)
  have e5 := hg 5 (by decide)
  have e6 := hg 6 (by decide)
  have e7 := hg 7 (by decide)
  have h0' : ek[8 * r + 0]? = some a := h0
  unfold oct rdChk
  rw [e0, e1, e2, e3, e4, e5, e6, e7, h0', h1, h2, h3, h4, h5, h6, h7]
  rfl

theorem round_at {ek key : List (BitVec 64)} {ws : List (BitVec 32)} {r : Nat} (hl : 8 * r + 8 ≤ ek.length) (hh : Holds key ws r)
    (h1 : Wide ek key (2 * r)) (h2 : Wide ek key (2 * r + 1)) (hw : 4 * r + 4 ≤ ws.length) : RoundAt ek (ws.map wd) r := by
  obtain ⟨k1, a0, a1, a2, a3, a4⟩ := h1
  obtain ⟨k2, b0, b1, b2, b3, b4⟩ := h2
  obtain ⟨c1, c2⟩ := hh
  rw [a0, Option.some.injEq] at c1
  rw [b0, Option.some.injEq] at c2
  refine ⟨widened k1 k2, ?_, ?_⟩
  · refine oct_ok hl ?_ ?_ ?_ ?_ ?_ ?_ ?_ ?_
    · rw [← a1]; congr 1; omega
    · rw [← a2]; congr 1; omega
    · rw [← a3]; congr 1; omega
    · rw [← a4]; congr 1; omega
    · rw [← b1]; congr 1; omega
    · rw [← b2]; congr 1; omega
    · rw [← b3]; congr 1; omega
    · rw [← b4]; congr 1; omega
  · rw [c1, c2]
    have := widened_rep (ws.getD (4 * r) 0) (ws.getD (4 * r + 1) 0) (ws.getD (4 * r + 2) 0) (ws.getD (4 * r + 3) 0)
    intro x c hx hc
    rw [this x c hx hc]
    have e : ∀ j, j < 4 → wd (ws.getD (4 * r + j) 0) = Spec.roundKey (ws.map wd) r j := by
      intro j hj
      unfold Spec.roundKey
      rw [List.getD_eq_getElem?_getD, List.getD_eq_getElem?_getD, List.getElem?_map, List.getElem?_eq_getElem (by omega)]
      rfl
    have : c = 0 ∨ c = 1 ∨ c = 2 ∨ c = 3 := by omega
    rcases this with rfl | rfl | rfl | rfl
    · simp only [← e 0 (by decide)]; rfl
    · simp only [← e 1 (by decide)]; rfl
    · simp only [← e 2 (by decide)]; rfl
    · simp only [← e 3 (by decide)]; rfl

theorem addkey_ok {ek : List (BitVec 64)} {w : List Word} {r : Nat} (hr : RoundAt ek w r) {q : Q} {s : State} (h : Rep q s) :
    ∃ q', addkey ek r q = .ok q' ∧ Rep q' (Spec.addRoundKey s (Spec.roundKey w r)) := by
  obtain ⟨k, h1, h2⟩ := hr
  refine ⟨addroundkey q k, ?_, addroundkey_rep h h2⟩
  unfold addkey
  rw [h1, Res.bind_ok]
  rfl

/-! ## Rounds -/

theorem encrounds_ok {ek : List (BitVec 64)} {w : List Word} : ∀ (n i : Nat) (q : Q) (s : State), (∀ r < i + n, RoundAt ek w r) → Rep q s →
    ∃ q', encrounds ek i q n = .ok q' ∧ Rep q' (Spec.cipherRounds w i s n)
  | 0, _, q, _, _, h => ⟨q, rfl, h⟩
  | n + 1, i, q, s, hr, h => by
    obtain ⟨q1, h1, h2⟩ := addkey_ok (hr i (by omega)) (mixcols_rep (shiftrows_rep (sbox_rep h)))
    obtain ⟨q2, h3, h4⟩ := encrounds_ok n (i + 1) q1 _ (fun r hrr => hr r (by omega)) h2
    refine ⟨q2, ?_, h4⟩
    unfold encrounds
    rw [h1, Res.bind_ok, h3]

theorem encrypt64_ok {ek : List (BitVec 64)} {w : List Word} {nr : Nat} (h0 : 0 < nr) (hr : ∀ r ≤ nr, RoundAt ek w r) :
    Does (encrypt64 nr ek) (Spec.cipher w nr) := by
  intro q s h
  obtain ⟨k, k1, k2⟩ := hr 0 (by omega)
  have k1' : oct ek = .ok k := by
    by_cases hl : ek.length < 8
    · rw [show slice ek (0 * 8) (0 * 8 + 8) = .abort from if_pos (by omega)] at k1
      cases k1
    · rw [slice_ok (by omega) (by omega), Res.bind_ok] at k1
      rw [← k1]
      unfold oct rdChk
      simp only [Nat.zero_mul, Nat.zero_add, List.drop_zero, List.getElem?_take, show 0 < 8 from by decide, show 1 < 8 from by decide,
        show 2 < 8 from by decide, show 3 < 8 from by decide, show 4 < 8 from by decide, show 5 < 8 from by decide, show 6 < 8 from by decide,
        show 7 < 8 from by decide, if_true]
  obtain ⟨q1, h1, h2⟩ := encrounds_ok (nr - 1) 1 _ _ (fun r hrr => hr r (by omega)) (addroundkey_rep h k2)
  obtain ⟨q2, h3, h4⟩ := addkey_ok (hr nr (by omega)) (shiftrows_rep (sbox_rep h2))
  refine ⟨q2, ?_, h4⟩
  unfold encrypt64
  rw [k1', Res.bind_ok]
  dsimp only
  rw [h1, Res.bind_ok, h3]

theorem decrounds_ok {ek : List (BitVec 64)} {w : List Word} : ∀ (u : Nat) (q : Q) (s : State), (∀ r ≤ u, RoundAt ek w r) → Rep q s →
    ∃ q', decrounds ek q u = .ok q' ∧ Rep q' (Spec.invRounds w s u)
  | 0, q, _, _, h => ⟨q, rfl, h⟩
  | u + 1, q, s, hr, h => by
    obtain ⟨q1, h1, h2⟩ := addkey_ok (hr (u + 1) (by omega)) (invsbox_rep (invshiftrows_rep h))
    obtain ⟨q2, h3, h4⟩ := decrounds_ok u (invmixcols q1) _ (fun r hrr => hr r (by omega)) (invmixcols_rep h2)
    refine ⟨q2, ?_, h4⟩
    unfold decrounds
    rw [h1, Res.bind_ok, h3]

theorem decrypt64_ok {ek : List (BitVec 64)} {w : List Word} {nr : Nat} (hr : ∀ r ≤ nr, RoundAt ek w r) :
    Does (decrypt64 nr ek) (Spec.invCipher w nr) := by
  intro q s h
  obtain ⟨q1, h1, h2⟩ := addkey_ok (hr nr (by omega)) h
  obtain ⟨q2, h3, h4⟩ := decrounds_ok (nr - 1) q1 _ (fun r hrr => hr r (by omega)) h2
  obtain ⟨q3, h5, h6⟩ := addkey_ok (hr 0 (by omega)) (invsbox_rep (invshiftrows_rep h4))
  refine ⟨q3, ?_, h6⟩
  unfold decrypt64
  rw [h1, Res.bind_ok, h3, Res.bind_ok, h5]

end Verif.Aes
