import Verif.Str.Model
import Verif.Str.Spec
import Verif.Utf.Props
import Verif.Chartype.Props

namespace Verif.Str
open Verif.Utf (Char32 decode charlen charstep)

theorem occursAt_iff (n h : List Byte) (i : Nat) :
    OccursAt n h i ↔ i + n.length ≤ h.length ∧ n <+: h.drop i := by
  constructor
  · rintro ⟨a, b, rfl, rfl⟩
    simp [List.append_assoc]
  · rintro ⟨h1, b, hb⟩
    refine ⟨h.take i, b, ?_, by simp; omega⟩
    rw [List.append_assoc, hb, List.take_append_drop]

theorem matchLoop_spec (h n : List Byte) (i : Nat) (hi : i + n.length ≤ h.length) (k : Nat) (hk : k ≤ n.length) :
    matchLoop h n i k = .ok (decide (n.drop (n.length - k) <+: h.drop (i + (n.length - k)))) := by
  induction k with
  | zero => simp [matchLoop]
  | succ k ih =>
    have h1 : i + (n.length - (k + 1)) < h.length := by omega
    have h2 : n.length - (k + 1) < n.length := by omega
    have e1 : n.length - (k + 1) + 1 = n.length - k := by omega
    have e2 : i + (n.length - (k + 1)) + 1 = i + (n.length - k) := by omega
    have key : (n.drop (n.length - (k + 1)) <+: h.drop (i + (n.length - (k + 1)))) ↔
        (n[n.length - (k + 1)] = h[i + (n.length - (k + 1))] ∧
          n.drop (n.length - k) <+: h.drop (i + (n.length - k))) := by
      rw [List.drop_eq_getElem_cons h2, List.drop_eq_getElem_cons h1, List.cons_prefix_cons, e1, e2]
    have key2 : decide (n.drop (n.length - (k + 1)) <+: h.drop (i + (n.length - (k + 1)))) =
        decide (n[n.length - (k + 1)] = h[i + (n.length - (k + 1))] ∧
          n.drop (n.length - k) <+: h.drop (i + (n.length - k))) := decide_eq_decide.2 key
    unfold matchLoop
    rw [rdChk_ok h1, rdChk_ok h2, Res.bind_ok, Res.bind_ok, ih (by omega), key2]
    split
    · next hne =>
      have : ¬ (n[n.length - (k + 1)] = h[i + (n.length - (k + 1))]) := fun e => hne e.symm
      simp [this]
    · next he =>
      have : n[n.length - (k + 1)] = h[i + (n.length - (k + 1))] := by
        by_contra e; exact he (fun e' => e e'.symm)
      simp [this]

theorem matchLoop_full (h n : List Byte) (i : Nat) (hi : i + n.length ≤ h.length) :
    matchLoop h n i n.length = .ok (decide (n <+: h.drop i)) := by
  rw [matchLoop_spec h n i hi n.length (Nat.le_refl _)]
  simp

/-- The least occurrence at or after `i`. -/
theorem findLoop_spec (h n : List Byte) (i : Nat) :
    (∃ j, findLoop h n i = .ok (some j) ∧ i ≤ j ∧ OccursAt n h j ∧ ∀ k, i ≤ k → k < j → ¬ OccursAt n h k) ∨
    (findLoop h n i = .ok none ∧ ∀ k, i ≤ k → ¬ OccursAt n h k) := by
  fun_induction findLoop h n i with
  | case1 i hi ih =>
    rw [matchLoop_full h n i hi, Res.bind_ok]
    by_cases hp : n <+: h.drop i
    · left
      refine ⟨i, by simp [hp], by omega, (occursAt_iff n h i).2 ⟨hi, hp⟩, fun k _ _ => by omega⟩
    · rw [if_neg (by simpa using hp)]
      have hno : ¬ OccursAt n h i := fun e => hp ((occursAt_iff n h i).1 e).2
      rcases ih with ⟨j, h1, h2, h3, h4⟩ | ⟨h1, h2⟩
      · left
        refine ⟨j, h1, by omega, h3, ?_⟩
        intro k hk1 hk2
        by_cases e : k = i
        · subst e; exact hno
        · exact h4 k (by omega) hk2
      · right
        refine ⟨h1, ?_⟩
        intro k hk
        by_cases e : k = i
        · subst e; exact hno
        · exact h2 k (by omega)
  | case2 i hi =>
    right
    refine ⟨rfl, ?_⟩
    intro k hk e
    have := ((occursAt_iff n h k).1 e).1
    omega

theorem occursAt_le {n h : List Byte} {i : Nat} (e : OccursAt n h i) : i + n.length ≤ h.length :=
  ((occursAt_iff n h i).1 e).1

/-- `strfind` returns the least occurrence. -/
theorem strfind_cases (h n : List Byte) :
    (∃ j, strfind h n = .ok (some j) ∧ OccursAt n h j ∧ ∀ k, k < j → ¬ OccursAt n h k) ∨
    (strfind h n = .ok none ∧ ∀ k, ¬ OccursAt n h k) := by
  unfold strfind
  split
  · next hl => exact Or.inr ⟨rfl, fun k e => by have := occursAt_le e; omega⟩
  · split
    · next hz =>
      left
      refine ⟨0, rfl, ?_, by omega⟩
      have h1 := List.length_eq_zero_iff.1 hz.1
      have h2 := List.length_eq_zero_iff.1 hz.2
      subst h1 h2
      exact ⟨[], [], rfl, rfl⟩
    · rcases findLoop_spec h n 0 with ⟨j, h1, -, h3, h4⟩ | ⟨h1, h2⟩
      · exact Or.inl ⟨j, h1, h3, fun k => h4 k (by omega)⟩
      · exact Or.inr ⟨h1, fun k => h2 k (by omega)⟩

theorem rfindLoop_spec (h n : List Byte) (i : Nat) (hi : i + n.length ≤ h.length) :
    (∃ j, rfindLoop h n i = .ok (some j) ∧ j ≤ i ∧ OccursAt n h j ∧ ∀ k, j < k → k ≤ i → ¬ OccursAt n h k) ∨
    (rfindLoop h n i = .ok none ∧ ∀ k, k ≤ i → ¬ OccursAt n h k) := by
  induction i with
  | zero =>
    unfold rfindLoop
    rw [matchLoop_full h n 0 hi, Res.bind_ok]
    by_cases hp : n <+: h.drop 0
    · exact Or.inl ⟨0, by rw [if_pos (by simpa using hp)]; rfl, by omega, (occursAt_iff n h 0).2 ⟨hi, hp⟩,
        by omega⟩
    · right
      refine ⟨by rw [if_neg (by simpa using hp)]; rfl, ?_⟩
      intro k hk e
      have : k = 0 := by omega
      subst this
      exact hp ((occursAt_iff n h 0).1 e).2
  | succ i ih =>
    unfold rfindLoop
    rw [matchLoop_full h n (i + 1) hi, Res.bind_ok]
    by_cases hp : n <+: h.drop (i + 1)
    · exact Or.inl ⟨i + 1, by rw [if_pos (by simpa using hp)]; rfl, by omega,
        (occursAt_iff n h _).2 ⟨hi, hp⟩, by omega⟩
    · rw [if_neg (by simpa using hp)]
      have hno : ¬ OccursAt n h (i + 1) := fun e => hp ((occursAt_iff n h _).1 e).2
      rcases ih (by omega) with ⟨j, h1, h2, h3, h4⟩ | ⟨h1, h2⟩
      · left
        refine ⟨j, h1, by omega, h3, ?_⟩
        intro k hk1 hk2
        by_cases e : k = i + 1
        · subst e; exact hno
        · exact h4 k hk1 (by omega)
      · right
        refine ⟨h1, ?_⟩
        intro k hk
        by_cases e : k = i + 1
        · subst e; exact hno
        · exact h2 k (by omega)

/-- One step of splitting: the text before the least occurrence and the text after it. -/
theorem strfind_split (s d : List Byte) (hd : d ≠ []) :
    (∃ p t, strfind s d = .ok (some p.length) ∧ s = p ++ d ++ t ∧
      slice s 0 p.length = .ok p ∧ slice s (p.length + d.length) s.length = .ok t ∧ t.length < s.length ∧
      ∀ k, k < p.length → ¬ OccursAt d (p ++ d) k) ∨
    (strfind s d = .ok none ∧ ¬ Occurs d s) := by
  rcases strfind_cases s d with ⟨j, h1, ⟨p, t, rfl, rfl⟩, h3⟩ | ⟨h1, h2⟩
  · left
    have hdl : 0 < d.length := List.length_pos_iff.2 hd
    refine ⟨p, t, h1, rfl, ?_, ?_, by simp; omega, ?_⟩
    · rw [slice_prefix (by simp)]; simp [List.append_assoc]
    · rw [slice_suffix (by simp)]
      have : p.length + d.length = (p ++ d).length := by simp
      rw [this, List.drop_left]
    · rintro k hk ⟨a, b, hab, rfl⟩
      refine h3 _ hk ⟨a, b ++ t, ?_, rfl⟩
      rw [hab]; simp [List.append_assoc]
  · exact Or.inr ⟨h1, fun ⟨k, e⟩ => h2 k e⟩

/-- If `d` does not occur in `p ++ d` before `p`'s end, it does not occur in `p`. -/
theorem not_occurs_of_leftmost {p d : List Byte} (hd : d ≠ [])
    (h : ∀ k, k < p.length → ¬ OccursAt d (p ++ d) k) : ¬ Occurs d p := by
  rintro ⟨k, a, b, rfl, rfl⟩
  have hdl : 0 < d.length := List.length_pos_iff.2 hd
  refine h a.length (by simp; omega) ⟨a, b ++ d, by simp [List.append_assoc], rfl⟩

/-! ### UTF-8 facts for the bytewise loops -/

/-- Continuation bytes. -/
def Cont (b : Byte) : Prop := 0x80 ≤ b.toNat ∧ b.toNat < 0xc0

theorem cont_test (b : Byte) : (b &&& 0x80#8 = 0#8 ∨ b &&& 0xc0#8 ≠ 0x80#8) ↔ ¬ (0x80 ≤ b.toNat ∧ b.toNat < 0xc0) := by
  revert b; decide +kernel

theorem decode_cont (b : Byte) (hb : Cont b) (t : List Byte) : decode (b :: t) = .ok Utf.Badchar := by
  unfold decode
  rw [Utf.charstep_bad]
  · rfl
  · left
    obtain ⟨h1, h2⟩ := hb
    rw [Utf.leadLen_nat, if_neg (by omega), if_pos (by omega)]

theorem utf8_shape (c : Nat) (hc : c < 0x110000) : ∃ b conts, Utf.utf8 c = b :: conts ∧ ¬ Cont b ∧
    (∀ x ∈ conts, Cont x) ∧ (c < 0x80 → conts = []) := by
  have hcont : ∀ n, Cont (BitVec.ofNat 8 (0x80 + n % 64)) := by
    intro n
    unfold Cont
    rw [Utf.byte_ofNat _ (by omega)]
    omega
  unfold Utf.utf8
  split
  · refine ⟨_, [], rfl, ?_, by simp, fun _ => rfl⟩
    unfold Cont; rw [Utf.byte_ofNat _ (by omega)]; omega
  · split
    · refine ⟨_, _, rfl, ?_, ?_, by omega⟩
      · unfold Cont; rw [Utf.byte_ofNat _ (by omega)]; omega
      · intro x hx; simp at hx; subst hx; exact hcont _
    · split
      · refine ⟨_, _, rfl, ?_, ?_, by omega⟩
        · unfold Cont; rw [Utf.byte_ofNat _ (by omega)]; omega
        · intro x hx; simp at hx; rcases hx with rfl | rfl <;> exact hcont _
      · refine ⟨_, _, rfl, ?_, ?_, by omega⟩
        · unfold Cont; rw [Utf.byte_ofNat _ (by omega)]; omega
        · intro x hx; simp at hx; rcases hx with rfl | rfl | rfl <;> exact hcont _

theorem decode_utf8 (c : Char32) (hc : c.toNat < 0x110000) (t : List Byte) :
    decode (Utf.utf8 c.toNat ++ t) = .ok c := by
  unfold decode
  rw [Utf.charstep_utf8 _ hc, Res.bind_ok, Utf.ofNat_toNat]
  rfl

theorem charlen_utf8 (c : Char32) (hc : c.toNat < 0x110000) : charlen c = (Utf.utf8 c.toNat).length := by
  rw [Utf.utf8_length _ hc, Utf.ofNat_toNat]

theorem codePoints_cons {c : Char32} {cs : List Char32} (h : Utf.CodePoints (c :: cs)) :
    c.toNat < 0x110000 ∧ Utf.CodePoints cs :=
  ⟨h c (by simp), fun d hd => h d (by simp [hd])⟩

theorem enc_nil : Utf.enc [] = [] := rfl

/-! ### `bytok` -/

theorem tokSkip_enc (p : Char32 → Bool) (cs : List Char32) : ∀ (pre : List Byte) (fuel : Nat),
    Utf.CodePoints cs → (Utf.enc cs).length < fuel →
    Utf.tokSkip p (pre ++ Utf.enc cs) fuel pre.length =
      .ok (pre.length + (Utf.enc (cs.takeWhile p)).length) := by
  induction cs with
  | nil => intro pre fuel _ hf; cases fuel with
    | zero => omega
    | succ n => simp [Utf.tokSkip, Utf.enc]
  | cons c cs ih =>
    intro pre fuel hcp hf
    obtain ⟨hc, hcs⟩ := codePoints_cons hcp
    cases fuel with
    | zero => omega
    | succ n =>
      have hp := Utf.utf8_pos c.toNat
      rw [Utf.enc_cons] at hf ⊢
      unfold Utf.tokSkip
      rw [if_pos (by simp; omega), slice_suffix (by simp), Res.bind_ok, List.drop_left, decode_utf8 c hc,
        Res.bind_ok]
      have := ih (pre ++ Utf.utf8 c.toNat) n hcs (by simp at hf; omega)
      rw [List.append_assoc, List.length_append] at this
      cases hpc : p c with
      | true =>
        rw [if_pos rfl, charlen_utf8 c hc, this, List.takeWhile_cons_of_pos hpc, Utf.enc_cons]
        simp [Nat.add_assoc]
      | false =>
        rw [if_neg (by simp), List.takeWhile_cons_of_neg (by simp [hpc])]
        simp [Utf.enc]

theorem wordsAux_spec (sep : Char32 → Bool) (cs : List Char32) : ∀ cur, cur ≠ [] →
    Utf.wordsAux sep cur cs = (cur.reverse ++ cs.takeWhile (fun c => !sep c)) ::
      Utf.words sep (cs.dropWhile (fun c => !sep c)) := by
  induction cs with
  | nil => intro cur h; simp [Utf.wordsAux, Utf.words, h]
  | cons c cs ih =>
    intro cur h
    unfold Utf.wordsAux
    cases hs : sep c with
    | true =>
      rw [if_pos rfl, if_neg h, List.takeWhile_cons_of_neg (by simp [hs]),
        List.dropWhile_cons_of_neg (by simp [hs])]
      simp only [List.append_nil]
      congr 1
      show _ = Utf.wordsAux sep [] (c :: cs)
      rw [Utf.wordsAux, if_pos hs, if_pos rfl]
    | false =>
      rw [if_neg (by simp), ih _ (by simp), List.takeWhile_cons_of_pos (by simp [hs]),
        List.dropWhile_cons_of_pos (by simp [hs])]
      simp

theorem words_eq (sep : Char32 → Bool) (cs : List Char32) :
    Utf.words sep cs = if cs.dropWhile sep = [] then [] else
      (cs.dropWhile sep).takeWhile (fun c => !sep c) ::
        Utf.words sep ((cs.dropWhile sep).dropWhile (fun c => !sep c)) := by
  induction cs with
  | nil => simp [Utf.words, Utf.wordsAux]
  | cons c cs ih =>
    cases hs : sep c with
    | true =>
      rw [List.dropWhile_cons_of_pos hs, ← ih]
      show Utf.wordsAux sep [] (c :: cs) = _
      rw [Utf.wordsAux, if_pos hs, if_pos rfl]
      rfl
    | false =>
      rw [List.dropWhile_cons_of_neg (by simp [hs]), if_neg (by simp)]
      show Utf.wordsAux sep [] (c :: cs) = _
      rw [Utf.wordsAux, if_neg (by simp [hs]), wordsAux_spec sep cs _ (by simp),
        List.takeWhile_cons_of_pos (by simp [hs]), List.dropWhile_cons_of_pos (by simp [hs])]
      simp

theorem codePoints_dropWhile {cs : List Char32} (h : Utf.CodePoints cs) (p : Char32 → Bool) :
    Utf.CodePoints (cs.dropWhile p) := fun c hc => h c (List.IsSuffix.mem hc (List.dropWhile_suffix p))

theorem enc_take_drop (p : Char32 → Bool) (cs : List Char32) :
    Utf.enc (cs.takeWhile p) ++ Utf.enc (cs.dropWhile p) = Utf.enc cs := by
  rw [← Utf.enc_append, List.takeWhile_append_dropWhile]

theorem enc_eq_nil {cs : List Char32} : Utf.enc cs = [] ↔ cs = [] := by
  cases cs with
  | nil => simp [Utf.enc]
  | cons c cs =>
    rw [Utf.enc_cons]
    simp [Utf.utf8_ne_nil]

theorem enc_pos {cs : List Char32} (h : cs ≠ []) : 0 < (Utf.enc cs).length := by
  rw [List.length_pos_iff]
  intro e; exact h (enc_eq_nil.1 e)

theorem takeWhile_ne_nil_of_drop {sep : Char32 → Bool} {cs : List Char32} (h : cs.dropWhile sep ≠ []) :
    (cs.dropWhile sep).takeWhile (fun c => !sep c) ≠ [] := by
  obtain ⟨c, t, e⟩ := List.exists_cons_of_ne_nil h
  have hc : sep c = false := by
    have := List.head_dropWhile_not sep h
    simpa [e] using this
  rw [e, List.takeWhile_cons_of_pos (by simp [hc])]
  simp

theorem bytok_enc (sep : Char32 → Bool) (n : Nat) : ∀ (cs : List Char32) (pre : List Byte) (fuel : Nat),
    cs.length ≤ n → Utf.CodePoints cs → (Utf.enc cs).length < fuel →
    Utf.bytok sep (pre ++ Utf.enc cs) fuel pre.length = .ok ((Utf.words sep cs).map Utf.enc) := by
  induction n with
  | zero =>
    intro cs pre fuel hn _ hf
    have : cs = [] := List.length_eq_zero_iff.1 (by omega)
    subst this
    cases fuel with
    | zero => omega
    | succ k => simp [Utf.bytok, Utf.enc, Utf.tokSkip, Utf.words, Utf.wordsAux, slice]
  | succ n ih =>
    intro cs pre fuel hn hcp hf
    cases fuel with
    | zero => omega
    | succ k =>
      unfold Utf.bytok
      rw [tokSkip_enc sep cs pre _ hcp (by simp; omega), Res.bind_ok]
      have e1 : pre ++ Utf.enc cs = (pre ++ Utf.enc (cs.takeWhile sep)) ++ Utf.enc (cs.dropWhile sep) := by
        rw [List.append_assoc, enc_take_drop]
      have e2 : pre.length + (Utf.enc (cs.takeWhile sep)).length = (pre ++ Utf.enc (cs.takeWhile sep)).length := by
        simp
      have hl : (Utf.enc cs).length = (Utf.enc (cs.takeWhile sep)).length + (Utf.enc (cs.dropWhile sep)).length := by
        rw [← enc_take_drop sep cs]; simp
      rw [e2, e1]
      have hcp' := codePoints_dropWhile hcp sep
      generalize hpre : pre ++ Utf.enc (cs.takeWhile sep) = pre'
      rw [tokSkip_enc _ (cs.dropWhile sep) pre' _ hcp' (by simp; omega), Res.bind_ok]
      rw [words_eq]
      by_cases hd : cs.dropWhile sep = []
      · rw [hd, if_pos rfl]
        simp [Utf.enc, slice]
      · rw [if_neg hd]
        have ht := takeWhile_ne_nil_of_drop hd
        have hdl : (cs.dropWhile sep).length ≤ cs.length := (List.dropWhile_suffix sep).length_le
        generalize cs.dropWhile sep = ds at hd ht hdl hl hcp'
        have hsplit := enc_take_drop (fun c => !sep c) ds
        have htl := enc_pos ht
        have hdl2 : ((ds.takeWhile fun c => !sep c)).length + (ds.dropWhile fun c => !sep c).length = ds.length := by
          rw [← List.length_append, List.takeWhile_append_dropWhile]
        have hds := codePoints_dropWhile hcp' (fun c => !sep c)
        have htl2 : 0 < (ds.takeWhile fun c => !sep c).length := List.length_pos_iff.2 ht
        have hlen : (Utf.enc ds).length = (Utf.enc (ds.takeWhile fun c => !sep c)).length +
            (Utf.enc (ds.dropWhile fun c => !sep c)).length := by rw [← hsplit]; simp
        have hih := ih (ds.dropWhile fun c => !sep c) (pre' ++ Utf.enc (ds.takeWhile fun c => !sep c)) k
          (by omega) hds (by omega)
        rw [List.append_assoc, hsplit, List.length_append] at hih
        rw [slice_ok (by omega) (by simp; omega), Res.bind_ok, if_pos (by omega), hih, Res.bind_ok]
        simp only [Res.pure_eq, List.map_cons, Res.ok.injEq, List.cons.injEq, and_true]
        rw [← hsplit, ← List.append_assoc, ← List.length_append, List.take_left, List.drop_left]

/-! ### `strtok` -/

theorem drop_pre {pre : List Byte} {b : Byte} {t : List Byte} :
    slice (pre ++ b :: t) pre.length (pre ++ b :: t).length = .ok (b :: t) := by
  rw [slice_suffix (by simp), List.drop_left]

theorem tokLoop_conts (p : Char32 → Bool) (hp : p Utf.Badchar = true) (conts rest : List Byte) :
    ∀ (pre : List Byte) (fuel : Nat), (∀ x ∈ conts, Cont x) →
    tokLoop p (pre ++ (conts ++ rest)) (fuel + conts.length) pre.length =
      tokLoop p (pre ++ (conts ++ rest)) fuel (pre.length + conts.length) := by
  induction conts with
  | nil => intro pre fuel _; rfl
  | cons b conts ih =>
    intro pre fuel h
    have hb := h b (by simp)
    rw [List.length_cons, ← Nat.add_assoc]
    rw [tokLoop]
    rw [List.cons_append, drop_pre, Res.bind_ok, decode_cont b hb, Res.bind_ok, if_pos ⟨hp, by simp⟩]
    have := ih (pre ++ [b]) fuel (fun x hx => h x (by simp [hx]))
    simp only [List.append_assoc, List.singleton_append, List.length_append, List.length_singleton] at this
    rw [this]
    congr 1
    omega

theorem tokLoop_mono (p : Char32 → Bool) (s : List Byte) (fuel : Nat) : ∀ i j, tokLoop p s fuel i = .ok j →
    ∀ fuel', fuel ≤ fuel' → tokLoop p s fuel' i = .ok j := by
  induction fuel with
  | zero => intro i j h; simp [tokLoop] at h
  | succ n ih =>
    intro i j h fuel' hf
    cases fuel' with
    | zero => omega
    | succ m =>
      unfold tokLoop at h ⊢
      cases hs : slice s i s.length with
      | ok t =>
        rw [hs, Res.bind_ok] at h
        rw [Res.bind_ok]
        cases hd : decode t with
        | ok c =>
          rw [hd, Res.bind_ok] at h
          rw [Res.bind_ok]
          split at h
          · next hc => rw [if_pos hc]; exact ih _ _ h _ (by omega)
          · next hc => rw [if_neg hc]; exact h
        | abort => rw [hd] at h; simp at h
        | ub => rw [hd] at h; simp at h
        | spin => rw [hd] at h; simp at h
      | abort => rw [hs] at h; simp at h
      | ub => rw [hs] at h; simp at h
      | spin => rw [hs] at h; simp at h

/-- Bytewise skipping equals characterwise skipping, if every skipped character is one
byte long or the loop also skips undecodable bytes. -/
theorem tokLoop_enc (p : Char32 → Bool) (cs : List Char32) : ∀ (pre : List Byte) (fuel : Nat),
    (p Utf.Badchar = true ∨ ∀ c ∈ cs, p c = true → c.toNat < 0x80) →
    Utf.CodePoints cs → (Utf.enc cs).length < fuel →
    tokLoop p (pre ++ Utf.enc cs) fuel pre.length = .ok (pre.length + (Utf.enc (cs.takeWhile p)).length) := by
  induction cs with
  | nil =>
    intro pre fuel _ _ hf
    cases fuel with
    | zero => omega
    | succ n =>
      unfold tokLoop
      rw [slice_suffix (by simp), Res.bind_ok]
      simp [Utf.enc, decode, charstep]
  | cons c cs ih =>
    intro pre fuel hp hcp hf
    obtain ⟨hc, hcs⟩ := codePoints_cons hcp
    obtain ⟨b, conts, hu, -, hcont, hasc⟩ := utf8_shape c.toNat hc
    rw [Utf.enc_cons] at hf ⊢
    cases fuel with
    | zero => omega
    | succ n =>
      have hdec : decode (b :: (conts ++ Utf.enc cs)) = .ok c := by
        have := decode_utf8 c hc (Utf.enc cs)
        rwa [hu] at this
      rw [hu] at hf ⊢
      unfold tokLoop
      rw [List.cons_append, drop_pre, Res.bind_ok, hdec, Res.bind_ok]
      cases hpc : p c with
      | false =>
        rw [if_neg (by simp), List.takeWhile_cons_of_neg (by simp [hpc])]
        simp [Utf.enc]
      | true =>
        rw [if_pos ⟨rfl, by simp⟩, List.takeWhile_cons_of_pos hpc, Utf.enc_cons, hu]
        simp only [List.cons_append, List.length_cons, List.length_append] at hf
        have hconts : tokLoop p (pre ++ b :: (conts ++ Utf.enc cs)) n (pre.length + 1) =
            tokLoop p (pre ++ b :: (conts ++ Utf.enc cs)) (n - conts.length) (pre.length + 1 + conts.length) := by
          have hn : n = (n - conts.length) + conts.length := by omega
          rcases hp with hp | hp
          · have := tokLoop_conts p hp conts (Utf.enc cs) (pre ++ [b]) (n - conts.length) hcont
            rw [← hn] at this
            simpa using this
          · have := hasc (hp c (by simp) hpc)
            subst this
            simp
        rw [hconts]
        have := ih (pre ++ b :: conts) (n - conts.length)
          (by rcases hp with hp | hp
              · exact Or.inl hp
              · exact Or.inr fun d hd => hp d (by simp [hd])) hcs (by omega)
        have hl : (pre ++ b :: conts).length = pre.length + 1 + conts.length := by simp; omega
        rw [hl] at this
        rw [show pre ++ b :: (conts ++ Utf.enc cs) = pre ++ b :: conts ++ Utf.enc cs by simp, this]
        simp; omega

theorem strtok_enc (sep : Char32 → Bool) (hbad : sep Utf.Badchar = false) (n : Nat) :
    ∀ (cs : List Char32) (pre : List Byte) (fuel : Nat),
    cs.length ≤ n → (∀ c ∈ cs, sep c = true → c.toNat < 0x80) → Utf.CodePoints cs →
    (Utf.enc cs).length < fuel →
    strtok sep (pre ++ Utf.enc cs) fuel pre.length = .ok ((Utf.words sep cs).map Utf.enc) := by
  induction n with
  | zero =>
    intro cs pre fuel hn _ _ hf
    have : cs = [] := List.length_eq_zero_iff.1 (by omega)
    subst this
    cases fuel with
    | zero => omega
    | succ k => simp [strtok, Utf.enc, Utf.words, Utf.wordsAux]
  | succ n ih =>
    intro cs pre fuel hn hasc hcp hf
    cases fuel with
    | zero => omega
    | succ k =>
      unfold strtok
      by_cases hnil : cs = []
      · subst hnil; simp [Utf.enc, Utf.words, Utf.wordsAux]
      rw [if_pos (by have := enc_pos hnil; rw [List.length_append]; omega)]
      rw [tokLoop_enc sep cs pre _ (Or.inr hasc) hcp (by simp; omega), Res.bind_ok]
      have e1 : pre ++ Utf.enc cs = (pre ++ Utf.enc (cs.takeWhile sep)) ++ Utf.enc (cs.dropWhile sep) := by
        rw [List.append_assoc, enc_take_drop]
      have e2 : pre.length + (Utf.enc (cs.takeWhile sep)).length = (pre ++ Utf.enc (cs.takeWhile sep)).length := by
        simp
      have hl : (Utf.enc cs).length = (Utf.enc (cs.takeWhile sep)).length + (Utf.enc (cs.dropWhile sep)).length := by
        rw [← enc_take_drop sep cs]; simp
      rw [e2, e1]
      have hcp' := codePoints_dropWhile hcp sep
      have hasc' : ∀ c ∈ cs.dropWhile sep, sep c = true → c.toNat < 0x80 :=
        fun c hc => hasc c (List.IsSuffix.mem hc (List.dropWhile_suffix sep))
      generalize hpre : pre ++ Utf.enc (cs.takeWhile sep) = pre'
      rw [tokLoop_enc _ (cs.dropWhile sep) pre' _ (Or.inl (by simp [hbad])) hcp' (by simp; omega), Res.bind_ok]
      rw [words_eq]
      by_cases hd : cs.dropWhile sep = []
      · rw [hd, if_pos rfl]
        rw [if_neg (by simp [Utf.enc])]
        have hk : 0 < k := by have := enc_pos hnil; omega
        cases k with
        | zero => omega
        | succ k => simp [strtok, Utf.enc]
      · rw [if_neg hd]
        have ht := takeWhile_ne_nil_of_drop hd
        have hdl : (cs.dropWhile sep).length ≤ cs.length := (List.dropWhile_suffix sep).length_le
        generalize cs.dropWhile sep = ds at hd ht hdl hl hcp' hasc'
        have hsplit := enc_take_drop (fun c => !sep c) ds
        have htl := enc_pos ht
        have hdl2 : ((ds.takeWhile fun c => !sep c)).length + (ds.dropWhile fun c => !sep c).length = ds.length := by
          rw [← List.length_append, List.takeWhile_append_dropWhile]
        have hds := codePoints_dropWhile hcp' (fun c => !sep c)
        have htl2 : 0 < (ds.takeWhile fun c => !sep c).length := List.length_pos_iff.2 ht
        have hlen : (Utf.enc ds).length = (Utf.enc (ds.takeWhile fun c => !sep c)).length +
            (Utf.enc (ds.dropWhile fun c => !sep c)).length := by rw [← hsplit]; simp
        have hih := ih (ds.dropWhile fun c => !sep c) (pre' ++ Utf.enc (ds.takeWhile fun c => !sep c)) k
          (by omega) (fun c hc => hasc' c (List.IsSuffix.mem hc (List.dropWhile_suffix _))) hds (by omega)
        rw [List.append_assoc, hsplit, List.length_append] at hih
        rw [if_pos (by omega), slice_ok (by omega) (by simp; omega), Res.bind_ok, hih, Res.bind_ok]
        simp only [Res.pure_eq, List.map_cons, Res.ok.injEq, List.cons.injEq, and_true]
        rw [← hsplit, ← List.append_assoc, ← List.length_append, List.take_left, List.drop_left]

end Verif.Str
