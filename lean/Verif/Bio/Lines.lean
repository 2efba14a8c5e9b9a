import Verif.Bio.Delim

/-!
# Lines and white space
-/

namespace Verif.Bio

open Verif.Utf

/-! ### What decodes to a newline -/

theorem acc_toNat {x : BitVec 32} {y : Byte} (hx : x.toNat < 2 ^ 26) :
    ((x <<< 6) ||| (y.setWidth 32 &&& 0x3f#32)).toNat = x.toNat * 64 + y.toNat % 64 := by
  have hy := y.isLt
  have e1 : (y.setWidth 32 &&& 0x3f#32).toNat = y.toNat % 64 := by
    rw [BitVec.toNat_and, BitVec.toNat_setWidth, Nat.mod_eq_of_lt (by omega)]
    exact Nat.and_two_pow_sub_one_eq_mod y.toNat 6
  rw [BitVec.toNat_or, e1, BitVec.toNat_shiftLeft, Nat.mod_eq_of_lt (by rw [Nat.shiftLeft_eq]; omega),
    ← Nat.shiftLeft_add_eq_or_of_lt (by omega : y.toNat % 64 < 2 ^ 6), Nat.shiftLeft_eq]

theorem lead1 (b : Byte) : leadLen b = 1 →
    (b.setWidth 32 &&& ((1#32 <<< (8 - 1)) - 1#32)) = 0x0a#32 → b = 0x0a#8 := by
  revert b; decide +kernel

theorem lead2 (b : Byte) : leadLen b = 2 →
    (b.setWidth 32 &&& ((1#32 <<< (8 - 2)) - 1#32)).toNat < 32 ∧
    ((b.setWidth 32 &&& ((1#32 <<< (8 - 2)) - 1#32)).toNat = 0 → b = 0xc0#8) := by
  revert b; decide +kernel

theorem lead3 (b : Byte) : leadLen b = 3 →
    (b.setWidth 32 &&& ((1#32 <<< (8 - 3)) - 1#32)).toNat < 32 ∧
    ((b.setWidth 32 &&& ((1#32 <<< (8 - 3)) - 1#32)).toNat = 0 → b = 0xe0#8) := by
  revert b; decide +kernel

theorem lead4 (b : Byte) : leadLen b = 4 →
    (b.setWidth 32 &&& ((1#32 <<< (8 - 4)) - 1#32)).toNat < 32 ∧
    ((b.setWidth 32 &&& ((1#32 <<< (8 - 4)) - 1#32)).toNat = 0 → b = 0xf0#8) := by
  revert b; decide +kernel

theorem leadLen_cases (b : Byte) : leadLen b = 0 ∨ leadLen b = 1 ∨ leadLen b = 2 ∨ leadLen b = 3 ∨
    leadLen b = 4 := by
  revert b; decide +kernel

theorem rd1 (b y : Byte) (s : List Byte) : rdChk (b :: y :: s) 1 = .ok y := rfl
theorem rd2 (b y z : Byte) (s : List Byte) : rdChk (b :: y :: z :: s) 2 = .ok z := rfl
theorem rd3 (b y z w : Byte) (s : List Byte) : rdChk (b :: y :: z :: w :: s) 3 = .ok w := rfl

/-- Only `\n` and its overlong forms decode to `\n`. -/
theorem nl_decode {b : Byte} {s : List Byte} (h : decode (b :: s) = .ok 0x0a#32) :
    b = 0x0a#8 ∨ OverlongNl (b :: s) := by
  have hr : rdChk (b :: s) 0 = .ok b := rfl
  have e10 : (0x0a#32 : BitVec 32).toNat = 10 := rfl
  unfold decode charstep at h
  rw [if_neg (by simp), hr, Res.bind_ok] at h
  dsimp only at h
  by_cases hbad : leadLen b = 0 ∨ leadLen b > (b :: s).length
  · rw [if_pos hbad, slice_suffix (by simp)] at h
    simp [Badchar] at h
  · rw [if_neg hbad] at h
    obtain ⟨h0, hlen⟩ := not_or.1 hbad
    rw [Nat.not_lt] at hlen
    obtain ⟨c, h1, h2⟩ := Res.bind_eq_ok.1 h
    obtain ⟨c', h3, h4⟩ := Res.bind_eq_ok.1 h1
    rw [slice_suffix hlen, Res.bind_ok, Res.pure_eq, Res.ok.injEq] at h4
    rw [Res.pure_eq, Res.ok.injEq] at h2
    subst h4
    simp only at h2
    subst h2
    rcases leadLen_cases b with e | e | e | e | e
    · exact absurd e h0
    · rw [e] at h3
      simp only [Nat.sub_self, decLoop, Res.ok.injEq] at h3
      exact .inl (lead1 b e h3)
    · right; left
      rw [e] at h3 hlen
      rcases s with _ | ⟨y, t⟩
      · simp at hlen
      · obtain ⟨p1, p2⟩ := lead2 b e
        simp only [show 2 - 1 = 1 from rfl, decLoop, rd1, Res.bind_ok, Res.ok.injEq] at h3
        have := congrArg BitVec.toNat h3
        rw [acc_toNat (by omega), e10] at this
        exact ⟨y, t, by rw [p2 (by omega)], by omega⟩
    · right; right; left
      rw [e] at h3 hlen
      rcases s with _ | ⟨y, _ | ⟨z, t⟩⟩
      · simp at hlen
      · simp at hlen
      · obtain ⟨p1, p2⟩ := lead3 b e
        simp only [show 3 - 1 = 2 from rfl, decLoop, rd1, rd2, Res.bind_ok, Res.ok.injEq,
          show 1 + 1 = 2 from rfl] at h3
        have := congrArg BitVec.toNat h3
        rw [acc_toNat (by rw [acc_toNat (by omega)]; omega), acc_toNat (by omega), e10] at this
        exact ⟨y, z, t, by rw [p2 (by omega)], by omega, by omega⟩
    · right; right; right
      rw [e] at h3 hlen
      rcases s with _ | ⟨y, _ | ⟨z, _ | ⟨w, t⟩⟩⟩
      · simp at hlen
      · simp at hlen
      · simp at hlen
      · obtain ⟨p1, p2⟩ := lead4 b e
        simp only [show 4 - 1 = 3 from rfl, decLoop, rd1, rd2, rd3, Res.bind_ok, Res.ok.injEq,
          show 1 + 1 = 2 from rfl, show 2 + 1 = 3 from rfl] at h3
        have := congrArg BitVec.toNat h3
        rw [acc_toNat (by rw [acc_toNat (by rw [acc_toNat (by omega)]; omega), acc_toNat (by omega)]; omega),
          acc_toNat (by rw [acc_toNat (by omega)]; omega), acc_toNat (by omega), e10] at this
        exact ⟨y, z, w, t, by rw [p2 (by omega)], by omega, by omega, by omega⟩

theorem firstChar_nl (t : List Byte) : firstChar (0x0a#8 :: t) = some 0x0a#32 := by
  have h : decode (0x0a#8 :: t) = .ok 0x0a#32 := by
    have := charstep_utf8 10 (by decide) t
    unfold decode
    rw [show (0x0a#8 :: t) = utf8 10 ++ t from rfl, this]; rfl
  unfold firstChar
  simp only [h]
  rw [if_neg]
  have : need 0x0a#8 = 1 := by decide
  rw [this]; simp

/-! ### Lines -/

/-- The line break itself. -/
theorem eatNl_spec {B : Nat} {g : Rd} {c : Byte} {T : List Byte} (hw : WF B g) (hB : 8 < B)
    (hh : 1 ≤ g.held.length) (hp : g.pend = c :: T) (hcr : c = 0x0d#8 → ¬ OverlongNl T) :
    ∃ f', eatNl g c = .ok f' ∧ WF B f' ∧
      (∃ cs, T = cs ++ f'.pend ∧ (cs = [] ∨ (c = 0x0d#8 ∧ cs = [0x0a#8]))) ∧
      (Calm g → Calm f' ∧ f'.pend = afterLine g.pend) := by
  obtain ⟨a1, a2, a3⟩ := adv hw hh
  rw [hp, List.drop_one, List.tail_cons] at a3
  unfold eatNl
  dsimp only
  by_cases hc : c = 0x0d#8
  · rw [if_pos hc]
    obtain ⟨k, r, h1, h2, h3, h4, h5⟩ := ensurecp_spec a1 hB
    rw [a3] at h3
    simp only [peekc, h1, Res.bind_ok]
    cases r with
    | error e =>
      simp only [Res.pure_eq, Res.bind_ok]
      rw [if_neg (show ¬ unwrapc (.error e) 0xffffffff#32 = 0x0a#32 by
        show ¬ (0xffffffff#32 : BitVec 32) = 0x0a#32
        decide)]
      refine ⟨k, rfl, h2, ⟨[], by rw [h3]; rfl, .inl rfl⟩, fun hcalm => ?_⟩
      obtain ⟨b1, b2⟩ := h5 ⟨hcalm.1, hcalm.2⟩
      obtain ⟨b3, b4⟩ := b2 e rfl
      rw [a3] at b4
      refine ⟨b1, ?_⟩
      rw [h3, hp, afterLine.eq_def]
      cases T with
      | nil => rfl
      | cons x t =>
        simp only
        rw [if_neg]
        rintro ⟨_, e2⟩
        subst e2
        rw [firstChar_nl] at b4; cases b4
    | ok n =>
      obtain ⟨ch, c1, c2, c3, c4, c5, _⟩ := h4 n rfl
      simp only [slice_held h2, Res.bind_ok, c1, Res.pure_eq]
      rw [a3] at c2 c4
      cases T with
      | nil => cases c4
      | cons x t =>
        by_cases hnl : ch = 0x0a#32
        · rw [if_pos (show unwrapc (.ok ch) 0xffffffff#32 = 0x0a#32 from hnl)]
          subst hnl
          rcases nl_decode c2 with hx | hx
          · subst hx
            have hh2 : 1 ≤ k.held.length := by
              cases hk : k.held with
              | nil => exact absurd hk c3
              | cons => simp
            obtain ⟨d1, d2, d3⟩ := adv h2 hh2
            rw [h3, List.drop_one, List.tail_cons] at d3
            refine ⟨_, rfl, d1, ⟨[0x0a#8], by rw [d3]; rfl, .inr ⟨hc, rfl⟩⟩, fun hcalm => ?_⟩
            have hk := (h5 ⟨hcalm.1, hcalm.2⟩).1
            refine ⟨⟨hk.1, hk.2⟩, ?_⟩
            rw [d3, hp, afterLine, if_pos ⟨hc, rfl⟩]
          · exact absurd hx (hcr hc)
        · rw [if_neg (show ¬ unwrapc (.ok ch) 0xffffffff#32 = 0x0a#32 from hnl)]
          refine ⟨k, rfl, h2, ⟨[], by rw [h3]; rfl, .inl rfl⟩, fun hcalm => ?_⟩
          refine ⟨(h5 ⟨hcalm.1, hcalm.2⟩).1, ?_⟩
          rw [h3, hp, afterLine, if_neg]
          rintro ⟨_, e2⟩
          subst e2
          rw [firstChar_nl] at c4
          injection c4 with c4
          exact hnl c4.symm
  · rw [if_neg hc]
    refine ⟨_, rfl, a1, ⟨[], by rw [a3]; rfl, .inl rfl⟩, fun hcalm => ⟨⟨hcalm.1, hcalm.2⟩, ?_⟩⟩
    rw [a3, hp, afterLine.eq_def]
    cases T with
    | nil => rfl
    | cons x t => simp only; rw [if_neg (fun h => hc h.1)]

theorem findNl_spec (rbuf : List Byte) : ∀ (n i : Nat), i + n ≤ rbuf.length →
    ∃ r, findNl rbuf n i = .ok r ∧
      (r = none → ∀ b ∈ (rbuf.drop i).take n, isNl b = false) ∧
      (∀ j c, r = some (j, c) → ∃ k, k < n ∧ j = i + k ∧ rbuf[i + k]? = some c ∧ isNl c = true ∧
        ∀ b ∈ (rbuf.drop i).take k, isNl b = false) := by
  intro n
  induction n with
  | zero => intro i _; exact ⟨none, rfl, (fun _ => by simp), (fun j c h => by cases h)⟩
  | succ n ih =>
    intro i h
    have hi : i < rbuf.length := by omega
    rw [findNl, rdChk_ok hi, Res.bind_ok]
    by_cases hc : rbuf[i] = 0x0d#8 ∨ rbuf[i] = 0x0a#8
    · rw [if_pos hc]
      refine ⟨_, rfl, (fun h => by cases h), fun j c hj => ?_⟩
      injection hj with hj
      injection hj with h1 h2
      refine ⟨0, by omega, by omega, ?_, ?_, by simp⟩
      · rw [← h2]; exact List.getElem?_eq_getElem hi
      · rw [← h2, isNl]; simpa using hc
    · rw [if_neg hc]
      obtain ⟨r, h1, h2, h3⟩ := ih (i + 1) (by omega)
      have hnl : isNl rbuf[i] = false := by
        rw [isNl]; simpa using hc
      refine ⟨r, h1, fun hr => ?_, fun j c hj => ?_⟩
      · rw [List.drop_eq_getElem_cons hi, List.take_succ_cons]
        intro b hb
        rcases List.mem_cons.1 hb with hb | hb
        · rw [hb]; exact hnl
        · exact h2 hr b hb
      · obtain ⟨k, k1, k2, k3, k4, k5⟩ := h3 j c hj
        refine ⟨k + 1, by omega, by omega, by rw [← k3]; congr 1; omega, k4, ?_⟩
        rw [List.drop_eq_getElem_cons hi, List.take_succ_cons]
        intro b hb
        rcases List.mem_cons.1 hb with hb | hb
        · rw [hb]; exact hnl
        · exact k5 b hb

/-- A line explained on the stream, after `ret` was collected. -/
def lnSpec (ret P : List Byte) : Except Err (List Byte) × List Byte :=
  if ret ++ P = [] then (.error .eof, [])
  else (.ok (ret ++ P.takeWhile (fun b => !isNl b)), afterLine (P.dropWhile (fun b => !isNl b)))

theorem lnSpec_skip {ret a P : List Byte} (h : ∀ b ∈ a, isNl b = false) :
    lnSpec (ret ++ a) P = lnSpec ret (a ++ P) := by
  unfold lnSpec
  have hp : ∀ b ∈ a, (!isNl b) = true := fun b hb => by rw [h b hb]; rfl
  rw [List.takeWhile_append_of_pos hp, List.dropWhile_append_of_pos hp, List.append_assoc,
    List.append_assoc]

theorem lnSpec_here {ret a T : List Byte} {c : Byte} (h : ∀ b ∈ a, isNl b = false)
    (hc : isNl c = true) : lnSpec ret (a ++ c :: T) = (.ok (ret ++ a), afterLine (c :: T)) := by
  unfold lnSpec
  have hp : ∀ b ∈ a, (!isNl b) = true := fun b hb => by rw [h b hb]; rfl
  rw [List.takeWhile_append_of_pos hp, List.dropWhile_append_of_pos hp, if_neg (by simp),
    List.takeWhile_cons_of_neg (by simp [hc]), List.dropWhile_cons_of_neg (by simp [hc]),
    List.append_nil]

theorem CrSafe.suffix {a b : List Byte} (h : CrSafe (a ++ b)) : CrSafe b := by
  intro x y hxy
  exact h (a ++ x) y (by rw [hxy, List.append_assoc])

/-- How the bytes taken from the stream show in a line. -/
def LineTold (ret cs : List Byte) (r : Except Err (List Byte)) : Prop :=
  (∀ l, r = .ok l → (∀ b ∈ l, isNl b = false) ∧
    (ret ++ cs = l ∨ ret ++ cs = l ++ [0x0a#8] ∨ ret ++ cs = l ++ [0x0d#8] ∨
      ret ++ cs = l ++ [0x0d#8, 0x0a#8])) ∧
  (r = .error .eof → ret ++ cs = [])

theorem isNl_cases {c : Byte} (h : isNl c = true) : c = 0x0d#8 ∨ c = 0x0a#8 := by
  simpa [isNl] using h

theorem lnLoop_spec {B : Nat} (hB : 8 < B) :
    ∀ (fuel : Nat) (f : Rd) (ret : List Byte), WF B f → f.pend.length < fuel → CrSafe f.pend →
    (∀ b ∈ ret, isNl b = false) →
    ∃ f' r, lnLoop fuel f ret = .ok (f', r) ∧ WF B f' ∧
      (∃ cs, f.pend = cs ++ f'.pend ∧ LineTold ret cs r) ∧
      (Calm f → Calm f' ∧ lnSpec ret f.pend = (r, f'.pend)) := by
  intro fuel
  induction fuel with
  | zero => intro f ret _ h; omega
  | succ fuel ih =>
    intro f ret hw hf hcr hret
    obtain ⟨g, r, h1, h2⟩ := ensureread_spec (n := 1) hw (by omega)
    rw [lnLoop, h1, Res.bind_ok]
    rw [← h2.pend] at hf hcr ⊢
    have hl := held_length h2.wf
    have hle := h2.wf.le
    have hcap := h2.wf.cap
    cases r with
    | error e =>
      have hshort := h2.err e rfl
      have hg0 : g.rend - g.rstart = 0 := by omega
      cases e with
      | eof =>
        obtain ⟨a1, a2, a3⟩ := adv h2.wf (k := 0) (by omega)
        simp only [hg0, readinto_spec h2.wf ret (Nat.zero_le _), Res.bind_ok, List.take_zero,
          List.append_nil]
        refine ⟨_, _, rfl, a1, ⟨[], ?_, ?_, ?_⟩, fun hc => ?_⟩
        · rw [a3]; rfl
        · intro l hll
          split at hll
          · injection hll with hll; subst hll
            exact ⟨hret, .inl (by simp)⟩
          · cases hll
        · intro hll
          split at hll
          · cases hll
          · rename_i h0
            rw [List.append_nil]; exact List.length_eq_zero_iff.1 (by omega)
        · obtain ⟨b1, b2⟩ := h2.calm hc
          have e0 : g.pend = [] := by
            rw [pend_eq_held (b2 _ rfl).2]; exact List.length_eq_zero_iff.1 (by omega)
          refine ⟨⟨b1.1, b1.2⟩, ?_⟩
          rw [a3, e0, lnSpec]
          simp only [List.append_nil, List.takeWhile_nil, List.dropWhile_nil, List.drop_nil, afterLine]
          cases ret with
          | nil => rfl
          | cons x t => simp
      | eio =>
        refine ⟨g, .error .eio, rfl, h2.wf, ⟨[], rfl, (fun l h => by cases h), (fun h => by cases h)⟩, fun hc => ?_⟩
        have := ((h2.calm hc).2 _ rfl).1; cases this
      | ebadf =>
        refine ⟨g, .error .ebadf, rfl, h2.wf, ⟨[], rfl, (fun l h => by cases h), (fun h => by cases h)⟩, fun hc => ?_⟩
        have := ((h2.calm hc).2 _ rfl).1; cases this
    | ok kk =>
      have hlong := h2.ok kk rfl
      obtain ⟨r, r1, r2, r3⟩ := findNl_spec g.rbuf (g.rend - g.rstart) g.rstart (by omega)
      have hpl : g.held.length ≤ g.pend.length := by rw [Rd.pend, List.length_append]; omega
      simp only [r1, Res.bind_ok]
      rcases r with _ | ⟨j, c⟩
      · have hall := r2 rfl
        rw [held_bytes h2.wf (by omega)] at hall
        obtain ⟨a1, a2, a3⟩ := adv h2.wf (k := g.rend - g.rstart) (by omega)
        simp only [readinto_spec h2.wf ret (by omega : g.rend - g.rstart ≤ g.held.length), Res.bind_ok]
        have hsplit := List.take_append_drop (g.rend - g.rstart) g.pend
        obtain ⟨f', r, e1, e2, ⟨cs, e3, e4⟩, e5⟩ := ih _ (ret ++ g.pend.take (g.rend - g.rstart)) a1
          (by rw [a3, List.length_drop]; omega)
          (by rw [a3]; rw [← hsplit] at hcr; exact hcr.suffix)
          (fun b hb => by
            rcases List.mem_append.1 hb with hb | hb
            · exact hret b hb
            · exact hall b hb)
        refine ⟨f', r, e1, e2, ⟨g.pend.take (g.rend - g.rstart) ++ cs, ?_, ?_⟩, fun hc => ?_⟩
        · rw [List.append_assoc, ← e3, a3, hsplit]
        · unfold LineTold at e4 ⊢
          rw [← List.append_assoc]; exact e4
        · obtain ⟨b1, b2⟩ := e5 ⟨(h2.calm hc).1.1, (h2.calm hc).1.2⟩
          refine ⟨b1, ?_⟩
          rw [← b2, a3, lnSpec_skip hall, hsplit]
      · obtain ⟨k, k1, k2, k3, k4, k5⟩ := r3 j c rfl
        subst k2
        rw [held_bytes h2.wf (by omega)] at k5
        obtain ⟨a1, a2, a3⟩ := adv h2.wf (k := k) (by omega)
        simp only [Nat.add_sub_cancel_left,
          readinto_spec h2.wf ret (by omega : k ≤ g.held.length), Res.bind_ok]
        have hsplit := List.take_append_drop k g.pend
        obtain ⟨b, b1, b2, b3⟩ := rd_head h2.wf (k := k) (by omega)
        have hbc : b = c := by
          rw [rdChk, k3] at b1; injection b1 with b1; exact b1.symm
        subst hbc
        have hdr : g.pend.drop k = b :: g.pend.drop (k + 1) := by
          have hk : k < g.pend.length := by omega
          rw [List.drop_eq_getElem_cons hk]
          rw [List.getElem?_eq_getElem hk] at b3
          injection b3 with b3
          rw [b3]
        rw [hdr] at a3 hsplit
        obtain ⟨f', e1, e2, ⟨cs, e3, e4⟩, e5⟩ := eatNl_spec a1 hB
          (by rw [a2, List.length_drop]; omega) a3 (fun hcr2 => by
            subst hcr2
            exact hcr _ _ hsplit.symm)
        simp only [e1, Res.bind_ok]
        refine ⟨f', _, rfl, e2, ⟨g.pend.take k ++ b :: cs, ?_, ?_, ?_⟩, fun hc => ?_⟩
        · rw [List.append_assoc, List.cons_append, ← e3, hsplit]
        · intro l hll
          injection hll with hll
          subst hll
          refine ⟨fun x hx => ?_, ?_⟩
          · rcases List.mem_append.1 hx with hx | hx
            · exact hret x hx
            · exact k5 x hx
          · rcases e4 with e4 | ⟨e4, e6⟩
            · subst e4
              rcases isNl_cases k4 with e | e
              · subst e; right; right; left; simp
              · subst e; right; left; simp
            · subst e4 e6; right; right; right; simp
        · intro h; cases h
        · obtain ⟨b1, b2⟩ := e5 ⟨(h2.calm hc).1.1, (h2.calm hc).1.2⟩
          refine ⟨b1, ?_⟩
          rw [b2, a3]
          conv => lhs; rw [← hsplit]
          rw [lnSpec_here k5 k4]

theorem readln_ok (sp) {B : Nat} {f : Rd} (hw : WF B f) (hB : 8 < B) (hcr : CrSafe f.pend) :
    ∃ f' o, perform sp .readln f = .ok (f', o) ∧ OpOk sp B .readln f f' o := by
  simp only [perform, readln]
  obtain ⟨f', r, h1, h2, ⟨cs, h3, h4⟩, h5⟩ := lnLoop_spec hB f.fuel f [] hw (fuel_pend hw) hcr (by simp)
  rw [h1]
  refine ⟨f', _, rfl, ⟨h2, ⟨cs, h3, ?_⟩, fun hc => ⟨(h5 hc).1, ?_⟩⟩⟩
  · cases r with
    | ok l => simpa [Shows, out] using h4.1 l rfl
    | error e => intro he; subst he; simpa using h4.2 rfl
  · have h6 := (h5 hc).2
    rw [spec]
    unfold lnSpec at h6
    rw [List.nil_append, List.nil_append] at h6
    split at h6
    · injection h6 with h7 h8
      rw [if_pos ‹_›, ← h7, ← h8]; rfl
    · injection h6 with h7 h8
      rw [if_neg ‹_›, ← h7, ← h8]; rfl

/-! ### White space -/

theorem peekc_spec {B : Nat} {f : Rd} (hw : WF B f) (hB : 8 < B) :
    ∃ f' r, peekc f = .ok (f', r) ∧ WF B f' ∧ f'.pend = f.pend ∧
      (∀ c, r = .ok c → firstChar f.pend = some c ∧ ∃ k, ensurecodepoint f' = .ok (f', .ok k)) ∧
      (Calm f → Calm f' ∧ ∀ e, r = .error e → firstChar f.pend = none) := by
  obtain ⟨g, r, h1, h2, h3, h4, h5⟩ := ensurecp_spec hw hB
  simp only [peekc, h1, Res.bind_ok]
  cases r with
  | error e => exact ⟨g, _, rfl, h2, h3, (fun c h => by cases h), fun hc => ⟨(h5 hc).1, fun _ _ => ((h5 hc).2 e rfl).2⟩⟩
  | ok k =>
    obtain ⟨c, c1, c2, c3, c4, c5, c6⟩ := h4 k rfl
    simp only [slice_held h2, Res.bind_ok, c1, Res.pure_eq]
    exact ⟨g, _, rfl, h2, h3, (fun c' h => by
        injection h with h; rw [← h]
        obtain ⟨b, s, hs, hb⟩ := c6
        exact ⟨c4, need b, ensurecp_idle h2 hB hs hb⟩),
      fun hc => ⟨(h5 hc).1, (fun e h => by cases h)⟩⟩

/-- After a successful `peekc`, `getc` takes that character out of the buffer. -/
theorem getc_spec {B : Nat} {f : Rd} (hw : WF B f) (hB : 8 < B) :
    ∃ f' r, getc f = .ok (f', r) ∧ WF B f' ∧
      (∀ c, r = .ok c → firstChar f.pend = some c ∧ f'.pend = f.pend.drop (charlen c) ∧
        charlen c ≤ f.pend.length) ∧
      (∀ e, r = .error e → ∀ k, ensurecodepoint f ≠ .ok (f, .ok k)) ∧
      (Calm f → Calm f' ∧ ∀ e, r = .error e → firstChar f.pend = none) := by
  obtain ⟨g, r, h1, h2, h3, h4, h5⟩ := ensurecp_spec hw hB
  simp only [getc, h1, Res.bind_ok]
  cases r with
  | error e =>
    exact ⟨g, _, rfl, h2, (fun c h => by cases h),
      (fun e' h k hk => by simp only [Res.ok.injEq, Prod.mk.injEq, reduceCtorEq, and_false] at hk),
      fun hc => ⟨(h5 hc).1, fun _ _ => ((h5 hc).2 e rfl).2⟩⟩
  | ok k =>
    obtain ⟨c, c1, c2, c3, c4, c5, c6⟩ := h4 k rfl
    obtain ⟨a1, a2, a3⟩ := adv h2 c5
    simp only [slice_held h2, Res.bind_ok, c1, Res.pure_eq]
    refine ⟨_, _, rfl, a1, (fun c' h => by
        injection h with h; subst h
        refine ⟨c4, by rw [a3, h3], ?_⟩
        rw [← h3, Rd.pend, List.length_append]; omega), (fun e h => by cases h),
      fun hc => ⟨⟨(h5 hc).1.1, (h5 hc).1.2⟩, (fun e h => by cases h)⟩⟩

theorem dropSpaces_stop {sp : Char32 → Bool} {n m : Nat} {P : List Byte} (h : P.length ≤ n)
    (h2 : P.length ≤ m) : dropSpaces sp n P = dropSpaces sp m P := by
  induction n generalizing m P with
  | zero =>
    have : P = [] := List.length_eq_zero_iff.1 (by omega)
    subst this
    cases m <;> rfl
  | succ n ih =>
    cases m with
    | zero =>
      have : P = [] := List.length_eq_zero_iff.1 (by omega)
      subst this; rfl
    | succ m =>
      rw [dropSpaces, dropSpaces]
      cases firstChar P with
      | none => rfl
      | some c =>
        have := charlen_pos c
        simp only
        split
        · exact ih (by rw [List.length_drop]; omega) (by rw [List.length_drop]; omega)
        · rfl

theorem skipLoop_spec {B : Nat} (sp : Char32 → Bool) (hB : 8 < B) :
    ∀ (fuel : Nat) (f : Rd), WF B f → f.pend.length < fuel →
    ∃ f' b, skipLoop sp fuel f = .ok (f', b) ∧ WF B f' ∧ (∃ cs, f.pend = cs ++ f'.pend) ∧
      (Calm f → Calm f' ∧ dropSpaces sp f.pend.length f.pend = (b, f'.pend)) := by
  intro fuel
  induction fuel with
  | zero => intro f _ h; omega
  | succ fuel ih =>
    intro f hw hf
    obtain ⟨g, r, h1, h2, h3, h4, h5⟩ := peekc_spec hw hB
    rw [skipLoop, h1, Res.bind_ok]
    cases r with
    | error e =>
      refine ⟨g, false, rfl, h2, ⟨[], h3.symm⟩, fun hc => ⟨(h5 hc).1, ?_⟩⟩
      have hn := (h5 hc).2 e rfl
      rw [h3]
      cases hl : f.pend.length with
      | zero => rfl
      | succ n => rw [dropSpaces, hn]
    | ok c =>
      obtain ⟨hfc, ik, hidle⟩ := h4 c rfl
      have hne : f.pend ≠ [] := by intro e; rw [e] at hfc; cases hfc
      have hpos : 0 < f.pend.length := List.length_pos_iff.2 hne
      cases hs : sp c with
      | false =>
        simp only [hs, Bool.not_false, if_true]
        refine ⟨g, true, rfl, h2, ⟨[], h3.symm⟩, fun hc => ⟨(h5 hc).1, ?_⟩⟩
        obtain ⟨n, hn⟩ : ∃ n, f.pend.length = n + 1 := ⟨f.pend.length - 1, by omega⟩
        rw [hn, dropSpaces, hfc, h3]
        simp [hs]
      | true =>
        simp only [hs, Bool.not_true, Bool.false_eq_true, if_false]
        obtain ⟨k, r', k1, k2, k3, k4, k5⟩ := getc_spec h2 hB
        rw [h3] at k3 k5
        rw [k1, Res.bind_ok]
        have hcl := charlen_pos c
        cases r' with
        | error e => exact absurd hidle (k4 e rfl ik)
        | ok c' =>
          obtain ⟨m1, m2, m3⟩ := k3 c' rfl
          rw [hfc] at m1
          injection m1 with m1
          subst m1
          obtain ⟨f', b, e1, e2, ⟨cs, e3⟩, e4⟩ := ih k k2 (by
            rw [m2, List.length_drop]; omega)
          refine ⟨f', b, e1, e2, ⟨f.pend.take (charlen c) ++ cs, ?_⟩, fun hc => ?_⟩
          · rw [List.append_assoc, ← e3, m2, List.take_append_drop]
          · obtain ⟨b1, b2⟩ := e4 (k5 (h5 hc).1).1
            refine ⟨b1, ?_⟩
            obtain ⟨n, hn⟩ : ∃ n, f.pend.length = n + 1 := ⟨f.pend.length - 1, by omega⟩
            rw [← b2, hn, dropSpaces, hfc]
            simp only [hs, if_true]
            rw [m2]
            exact dropSpaces_stop (by rw [List.length_drop]; omega) (by omega)

theorem skipspace_ok (sp) {B : Nat} {f : Rd} (hw : WF B f) (hB : 8 < B) :
    ∃ f' o, perform sp .skipspace f = .ok (f', o) ∧ OpOk sp B .skipspace f f' o := by
  simp only [perform, skipspace]
  obtain ⟨f', b, h1, h2, ⟨cs, h3⟩, h4⟩ := skipLoop_spec sp hB f.fuel f hw (fuel_pend hw)
  rw [h1]
  refine ⟨f', _, rfl, ⟨h2, ⟨cs, h3, trivial⟩, fun hc => ⟨(h4 hc).1, ?_⟩⟩⟩
  rw [spec, (h4 hc).2]

end Verif.Bio
