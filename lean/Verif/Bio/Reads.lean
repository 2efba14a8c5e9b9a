import Verif.Bio.Lemmas
import Mathlib.Tactic.Ring

/-!
# One reading call
-/

namespace Verif.Bio

open Verif.Utf

/-- What a call did to the file and what it returned. -/
structure OpOk (sp : Char32 → Bool) (B : Nat) (op : ROp) (f f' : Rd) (o : Out) : Prop where
  wf : WF B f'
  acct : ∃ cs, f.pend = cs ++ f'.pend ∧ Shows op o cs
  calm : Calm f → Calm f' ∧ spec sp op f.pend = (o, f'.pend)

theorem pend_eq_held {f : Rd} (h : f.src.rest = []) : f.pend = f.held := by
  rw [Rd.pend, h, List.append_nil]

theorem getb_ok (sp) {B : Nat} {f : Rd} (hw : WF B f) (hB : 8 < B) :
    ∃ f' o, perform sp .getb f = .ok (f', o) ∧ OpOk sp B .getb f f' o := by
  obtain ⟨g, r, h1, h2⟩ := ensureread_spec (n := 1) hw (by omega)
  simp only [perform, getb, h1, Res.bind_ok]
  cases r with
  | error e =>
    refine ⟨_, _, rfl, ⟨h2.wf, ⟨[], by simp [h2.pend], rfl⟩, fun hc => ?_⟩⟩
    obtain ⟨a, b⟩ := h2.calm hc
    obtain ⟨b1, b2⟩ := b e rfl
    have := h2.err e rfl
    have e0 : g.pend = [] := by
      rw [pend_eq_held b2]; exact List.length_eq_zero_iff.1 (by omega)
    subst b1
    refine ⟨a, ?_⟩
    rw [← h2.pend, e0]; rfl
  | ok k =>
    have h3 := h2.ok k rfl
    obtain ⟨b, b1, b2, b3⟩ := rd_head h2.wf (k := 0) (by omega)
    obtain ⟨c1, c2, c3⟩ := adv h2.wf (k := 1) h3
    rw [Nat.add_zero] at b1
    simp only [b1, Res.bind_ok, Res.pure_eq, Res.map_ok]
    have e1 : g.pend = b :: g.pend.drop 1 := by
      cases hp : g.pend with
      | nil => rw [hp] at b3; simp at b3
      | cons x t => rw [hp] at b3; simp at b3; simp [b3]
    refine ⟨_, _, rfl, ⟨c1, ⟨[b], ?_, rfl⟩, fun hc => ⟨⟨(h2.calm hc).1.1, (h2.calm hc).1.2⟩, ?_⟩⟩⟩
    · rw [c3, ← h2.pend, List.singleton_append]; exact e1
    · rw [c3, ← h2.pend, e1]; rfl

theorem peekb_ok (sp) {B : Nat} {f : Rd} (hw : WF B f) (hB : 8 < B) :
    ∃ f' o, perform sp .peekb f = .ok (f', o) ∧ OpOk sp B .peekb f f' o := by
  obtain ⟨g, r, h1, h2⟩ := ensureread_spec (n := 1) hw (by omega)
  simp only [perform, peekb, h1, Res.bind_ok]
  cases r with
  | error e =>
    refine ⟨_, _, rfl, ⟨h2.wf, ⟨[], by simp [h2.pend], rfl⟩, fun hc => ?_⟩⟩
    obtain ⟨a, b⟩ := h2.calm hc
    obtain ⟨b1, b2⟩ := b e rfl
    have := h2.err e rfl
    have e0 : g.pend = [] := by
      rw [pend_eq_held b2]; exact List.length_eq_zero_iff.1 (by omega)
    subst b1
    refine ⟨a, ?_⟩
    rw [← h2.pend, e0]; rfl
  | ok k =>
    have h3 := h2.ok k rfl
    obtain ⟨b, b1, b2, b3⟩ := rd_head h2.wf (k := 0) (by omega)
    rw [Nat.add_zero] at b1
    simp only [b1, Res.bind_ok, Res.pure_eq, Res.map_ok]
    have e1 : g.pend = b :: g.pend.drop 1 := by
      cases hp : g.pend with
      | nil => rw [hp] at b3; simp at b3
      | cons x t => rw [hp] at b3; simp at b3; simp [b3]
    refine ⟨_, _, rfl, ⟨h2.wf, ⟨[], ?_, rfl⟩, fun hc => ⟨(h2.calm hc).1, ?_⟩⟩⟩
    · rw [List.nil_append]; exact h2.pend.symm
    · rw [← h2.pend]; rw [e1]; rfl

/-! ### Integers -/

theorem leVal_lt (l : List Byte) : leVal l < 256 ^ l.length := by
  induction l with
  | nil => simp [leVal]
  | cons b t ih =>
    have := b.isLt
    rw [leVal, List.length_cons, Nat.pow_succ]
    omega

theorem leVal_append (a b : List Byte) : leVal (a ++ b) = leVal a + 256 ^ a.length * leVal b := by
  induction a with
  | nil => simp [leVal]
  | cons x t ih =>
    rw [List.cons_append, leVal, ih, leVal, List.length_cons, Nat.pow_succ]
    ring

theorem leLoop_spec (rbuf : List Byte) : ∀ (n start i : Nat) (v : BitVec 64),
    start + n ≤ rbuf.length → i + n ≤ 8 → v.toNat < 2 ^ (8 * i) →
    ∃ w, leLoop rbuf n start i v = .ok w ∧
      w.toNat = v.toNat + 2 ^ (8 * i) * leVal ((rbuf.drop start).take n) := by
  intro n
  induction n with
  | zero => intro start i v _ _ _; exact ⟨v, rfl, by simp [leVal]⟩
  | succ n ih =>
    intro start i v h1 h2 h3
    have hb : start < rbuf.length := by omega
    rw [leLoop, rdChk_ok hb, Res.bind_ok]
    have hbl := rbuf[start].isLt
    have e1 : (v ||| (rbuf[start].setWidth 64 <<< (8 * i))).toNat =
        v.toNat + 2 ^ (8 * i) * rbuf[start].toNat := by
      have hp : 2 ^ (8 * i) * 256 ≤ 2 ^ 64 := by
        have : (256 : Nat) = 2 ^ 8 := rfl
        rw [this, ← Nat.pow_add]
        exact Nat.pow_le_pow_right (by omega) (by omega)
      have hm : 2 ^ (8 * i) * rbuf[start].toNat < 2 ^ 64 :=
        Nat.lt_of_lt_of_le ((Nat.mul_lt_mul_left (Nat.two_pow_pos _)).2 (by omega)) hp
      rw [BitVec.toNat_or, BitVec.toNat_shiftLeft, BitVec.toNat_setWidth,
        Nat.mod_eq_of_lt (by omega : rbuf[start].toNat < 2 ^ 64), Nat.shiftLeft_eq,
        Nat.mul_comm, Nat.mod_eq_of_lt hm, Nat.or_comm, Nat.mul_comm, ← Nat.shiftLeft_eq,
        ← Nat.shiftLeft_add_eq_or_of_lt h3, Nat.shiftLeft_eq]
      ring
    obtain ⟨w, w1, w2⟩ := ih (start + 1) (i + 1) (v ||| (rbuf[start].setWidth 64 <<< (8 * i)))
      (by omega) (by omega) (by
        rw [e1, show 8 * (i + 1) = 8 * i + 8 by ring, Nat.pow_add]
        have : 2 ^ (8 * i) * rbuf[start].toNat ≤ 2 ^ (8 * i) * 255 := Nat.mul_le_mul_left _ (by omega)
        omega)
    refine ⟨w, w1, ?_⟩
    rw [w2, e1, List.drop_eq_getElem_cons hb, List.take_succ_cons, leVal,
      show 8 * (i + 1) = 8 * i + 8 by ring, Nat.pow_add]
    ring

theorem beLoop_spec (rbuf : List Byte) : ∀ (n start : Nat) (v : BitVec 64),
    start + n ≤ rbuf.length → n ≤ 8 → v.toNat < 256 ^ (8 - n) →
    ∃ w, beLoop rbuf n start v = .ok w ∧
      w.toNat = v.toNat * 256 ^ n + leVal ((rbuf.drop start).take n).reverse := by
  intro n
  induction n with
  | zero => intro start v _ _ _; exact ⟨v, rfl, by simp [leVal]⟩
  | succ n ih =>
    intro start v h1 h2 h3
    have hb : start < rbuf.length := by omega
    rw [beLoop, rdChk_ok hb, Res.bind_ok]
    have hbl := rbuf[start].isLt
    have hv : v.toNat * 256 + 256 ≤ 256 ^ (8 - n) := by
      rw [show 8 - n = (8 - (n + 1)) + 1 by omega, Nat.pow_succ]
      omega
    have hv2 : (256 : Nat) ^ (8 - n) ≤ 2 ^ 64 := by
      rw [show (256 : Nat) = 2 ^ 8 from rfl, ← Nat.pow_mul]
      exact Nat.pow_le_pow_right (by omega) (by omega)
    have e1 : ((v <<< 8) ||| rbuf[start].setWidth 64).toNat = v.toNat * 256 + rbuf[start].toNat := by
      rw [BitVec.toNat_or, BitVec.toNat_shiftLeft, BitVec.toNat_setWidth,
        Nat.mod_eq_of_lt (by omega : rbuf[start].toNat < 2 ^ 64),
        Nat.mod_eq_of_lt (by rw [Nat.shiftLeft_eq]; omega),
        ← Nat.shiftLeft_add_eq_or_of_lt (by omega : rbuf[start].toNat < 2 ^ 8), Nat.shiftLeft_eq]
    obtain ⟨w, w1, w2⟩ := ih (start + 1) ((v <<< 8) ||| rbuf[start].setWidth 64)
      (by omega) (by omega) (by rw [e1]; omega)
    refine ⟨w, w1, ?_⟩
    have hl : ((rbuf.drop (start + 1)).take n).reverse.length = n := by simp; omega
    rw [w2, e1, List.drop_eq_getElem_cons hb, List.take_succ_cons, List.reverse_cons, leVal_append,
      hl, Nat.pow_succ]
    simp only [leVal]
    ring

theorem held_bytes {B : Nat} {f : Rd} (hw : WF B f) {n : Nat} (hn : n ≤ f.held.length) :
    (f.rbuf.drop f.rstart).take n = f.pend.take n := by
  have hl := held_length hw
  have h1 := hw.le
  rw [Rd.pend, List.take_append_of_le_length hn, Rd.held, List.take_drop, List.take_drop,
    List.take_take, Nat.min_eq_left (by omega)]

theorem eq_ofNat64 {w : BitVec 64} {n : Nat} (h : w.toNat = n) : w = BitVec.ofNat 64 n := by
  rw [← h]; simp

theorem getle_ok (sp) {B n : Nat} {f : Rd} (hw : WF B f) (hB : 8 < B) (hn : n ≤ 8) :
    ∃ f' o, perform sp (.getle n) f = .ok (f', o) ∧ OpOk sp B (.getle n) f f' o := by
  obtain ⟨g, r, h1, h2⟩ := ensureread_spec (n := n) hw (by omega)
  simp only [perform, getle, h1, Res.bind_ok]
  cases r with
  | error e =>
    refine ⟨_, _, rfl, ⟨h2.wf, ⟨[], by simp [h2.pend], rfl⟩, fun hc => ?_⟩⟩
    obtain ⟨a, b⟩ := h2.calm hc
    obtain ⟨b1, b2⟩ := b e rfl
    have := h2.err e rfl
    subst b1
    refine ⟨a, ?_⟩
    rw [← h2.pend, spec, if_pos (by rw [pend_eq_held b2]; omega)]; rfl
  | ok k =>
    have h3 := h2.ok k rfl
    have hl := held_length h2.wf
    have := h2.wf.cap
    have := h2.wf.le
    obtain ⟨w, w1, w2⟩ := leLoop_spec g.rbuf n g.rstart 0 0#64 (by omega) (by omega) (by simp)
    obtain ⟨c1, c2, c3⟩ := adv h2.wf (k := n) h3
    simp only [w1, Res.bind_ok, Res.pure_eq, Res.map_ok]
    rw [held_bytes h2.wf h3] at w2
    have hw' : w = BitVec.ofNat 64 (leVal (g.pend.take n)) := eq_ofNat64 (by rw [w2]; simp)
    have hp : n ≤ g.pend.length := by rw [Rd.pend, List.length_append]; omega
    refine ⟨_, _, rfl, ⟨c1, ⟨g.pend.take n, ?_, ⟨by simp; omega, hw'⟩⟩,
      fun hc => ⟨⟨(h2.calm hc).1.1, (h2.calm hc).1.2⟩, ?_⟩⟩⟩
    · rw [c3, List.take_append_drop]; exact h2.pend.symm
    · rw [c3, ← h2.pend, spec, if_neg (by omega), hw']; rfl

theorem getbe_ok (sp) {B n : Nat} {f : Rd} (hw : WF B f) (hB : 8 < B) (hn : n ≤ 8) :
    ∃ f' o, perform sp (.getbe n) f = .ok (f', o) ∧ OpOk sp B (.getbe n) f f' o := by
  obtain ⟨g, r, h1, h2⟩ := ensureread_spec (n := n) hw (by omega)
  simp only [perform, getbe, h1, Res.bind_ok]
  cases r with
  | error e =>
    refine ⟨_, _, rfl, ⟨h2.wf, ⟨[], by simp [h2.pend], rfl⟩, fun hc => ?_⟩⟩
    obtain ⟨a, b⟩ := h2.calm hc
    obtain ⟨b1, b2⟩ := b e rfl
    have := h2.err e rfl
    subst b1
    refine ⟨a, ?_⟩
    rw [← h2.pend, spec, if_pos (by rw [pend_eq_held b2]; omega)]; rfl
  | ok k =>
    have h3 := h2.ok k rfl
    have hl := held_length h2.wf
    have := h2.wf.cap
    have := h2.wf.le
    obtain ⟨w, w1, w2⟩ := beLoop_spec g.rbuf n g.rstart 0#64 (by omega) hn (by simp)
    obtain ⟨c1, c2, c3⟩ := adv h2.wf (k := n) h3
    simp only [w1, Res.bind_ok, Res.pure_eq, Res.map_ok]
    rw [held_bytes h2.wf h3] at w2
    have hw' : w = BitVec.ofNat 64 (leVal (g.pend.take n).reverse) := eq_ofNat64 (by rw [w2]; simp)
    have hp : n ≤ g.pend.length := by rw [Rd.pend, List.length_append]; omega
    refine ⟨_, _, rfl, ⟨c1, ⟨g.pend.take n, ?_, ⟨by simp; omega, hw'⟩⟩,
      fun hc => ⟨⟨(h2.calm hc).1.1, (h2.calm hc).1.2⟩, ?_⟩⟩⟩
    · rw [c3, List.take_append_drop]; exact h2.pend.symm
    · rw [c3, ← h2.pend, spec, if_neg (by omega), hw']; rfl

/-! ### Characters -/

theorem cplen_need (b : Byte) : cplen b = need b := by
  revert b; decide +kernel

theorem need_le (b : Byte) : 1 ≤ need b ∧ need b ≤ 4 := by
  revert b; decide +kernel

theorem leadLen_need (b : Byte) : leadLen b = need b ∨ (leadLen b = 0 ∧ need b = 1) := by
  revert b; decide +kernel

theorem decLoop_append (s t : List Byte) : ∀ (n i : Nat) (c : BitVec 32), i + n ≤ s.length →
    decLoop (s ++ t) n i c = decLoop s n i c := by
  intro n
  induction n with
  | zero => intro i c _; rfl
  | succ n ih =>
    intro i c h
    rw [decLoop, decLoop, rdChk_ok (by omega : i < s.length),
      rdChk_ok (by rw [List.length_append]; omega), List.getElem_append_left (by omega),
      Res.bind_ok, Res.bind_ok, ih _ _ (by omega)]

/-- Once the bytes the first one announces are there, more data does not change the
character. -/
theorem decode_append {b : Byte} {s t : List Byte} (h : need b ≤ (b :: s).length) :
    decode (b :: s ++ t) = decode (b :: s) := by
  have hr : ∀ l : List Byte, rdChk (b :: l) 0 = .ok b := fun l => rfl
  unfold decode charstep
  rw [List.cons_append]
  rw [if_neg (by simp), if_neg (by simp), hr, hr, Res.bind_ok, Res.bind_ok]
  dsimp only
  rcases leadLen_need b with e | ⟨e, e2⟩
  · have hn := need_le b
    rw [e, if_neg (by simp at h ⊢; omega), if_neg (by simp at h ⊢; omega)]
    rw [← List.cons_append, decLoop_append _ _ _ _ _ (by omega)]
    cases decLoop (b :: s) (need b - 1) 1 (BitVec.setWidth 32 b &&& (1#32 <<< (8 - need b)) - 1#32) with
    | ok c =>
      simp only [Res.bind_ok]
      rw [slice_suffix h, slice_suffix (by rw [List.length_append]; omega)]
      rfl
    | abort => rfl
    | ub => rfl
    | spin => rfl
  · rw [e, if_pos (.inl rfl), if_pos (.inl rfl)]
    rw [slice_suffix (by simp), slice_suffix (by simp)]
    rfl

/-- `ensurecodepoint` succeeds only when the first character is in the buffer. -/
theorem ensurecp_spec {B : Nat} {f : Rd} (hw : WF B f) (hB : 8 < B) :
    ∃ f' r, ensurecodepoint f = .ok (f', r) ∧ WF B f' ∧ f'.pend = f.pend ∧
      (∀ k, r = .ok k → ∃ c, decode f'.held = .ok c ∧ decode f.pend = .ok c ∧ f'.held ≠ [] ∧
        firstChar f.pend = some c ∧ charlen c ≤ f'.held.length ∧
        ∃ b s, f'.held = b :: s ∧ need b ≤ f'.held.length) ∧
      (Calm f → Calm f' ∧ ∀ e, r = .error e → e = .eof ∧ firstChar f.pend = none) := by
  obtain ⟨g, r, h1, h2⟩ := ensureread_spec (n := 1) hw (by omega)
  simp only [ensurecodepoint, h1, Res.bind_ok]
  cases r with
  | error e =>
    refine ⟨_, _, rfl, h2.wf, h2.pend, (fun k hk => by cases hk), fun hc => ?_⟩
    obtain ⟨a, b⟩ := h2.calm hc
    obtain ⟨b1, b2⟩ := b e rfl
    have := h2.err e rfl
    have e0 : g.pend = [] := by
      rw [pend_eq_held b2]; exact List.length_eq_zero_iff.1 (by omega)
    refine ⟨a, fun e' he => ⟨?_, ?_⟩⟩
    · injection he with he; rw [← he]; exact b1
    · rw [← h2.pend, e0]; rfl
  | ok k =>
    have h3 := h2.ok k rfl
    obtain ⟨b, b1, b2, b3⟩ := rd_head h2.wf (k := 0) (by omega)
    rw [Nat.add_zero] at b1
    have hn := need_le b
    obtain ⟨g', r', i1, i2⟩ := ensureread_spec (n := need b) h2.wf (by omega)
    simp only [b1, Res.bind_ok, cplen_need, i1]
    refine ⟨g', r', rfl, i2.wf, by rw [i2.pend, h2.pend], ?_, ?_⟩
    · intro k hk
      have h4 := i2.ok k hk
      have hne : g'.held ≠ [] := by
        intro e; rw [e] at h4; simp at h4; omega
      obtain ⟨c, d1, d2, d3⟩ := decode_total g'.held hne
      have hh : ∃ s, g'.held = b :: s := by
        have : g'.held[0]? = some b := by
          rw [← b2]
          obtain ⟨t, ht⟩ := i2.pre
          rw [← ht, List.getElem?_append_left (by omega)]
        cases hg : g'.held with
        | nil => rw [hg] at this; simp at this
        | cons x s => rw [hg] at this; simp at this; exact ⟨s, by rw [this]⟩
      obtain ⟨s, hs⟩ := hh
      have hd : decode g'.pend = .ok c := by
        rw [Rd.pend, hs, decode_append (by rw [← hs]; exact h4), ← hs]; exact d1
      refine ⟨c, d1, ?_, hne, ?_, d3, b, s, hs, h4⟩
      · rw [← h2.pend, ← i2.pend]; exact hd
      · rw [← h2.pend, ← i2.pend]
        have hp : g'.pend = b :: (s ++ g'.src.rest) := by rw [Rd.pend, hs]; rfl
        have hlen : need b ≤ g'.pend.length := by rw [Rd.pend, List.length_append]; omega
        rw [hp] at hd hlen ⊢
        unfold firstChar
        simp only [if_neg (by omega : ¬ (b :: (s ++ g'.src.rest)).length < need b), hd]
    · intro hc
      obtain ⟨a, bb⟩ := i2.calm (h2.calm hc).1
      refine ⟨a, fun e he => ⟨(bb e he).1, ?_⟩⟩
      have h4 := i2.err e he
      have h5 := (bb e he).2
      rw [← h2.pend]
      have hp : ∃ s, g.pend = b :: s := by
        cases hg : g.pend with
        | nil => rw [hg] at b3; simp at b3
        | cons x s => rw [hg] at b3; simp at b3; exact ⟨s, by rw [b3]⟩
      obtain ⟨s, hs⟩ := hp
      have hlen : g.pend.length < need b := by
        rw [← i2.pend, pend_eq_held h5]; exact h4
      rw [hs] at hlen ⊢
      unfold firstChar
      simp only [if_pos hlen]

theorem ensureread_idle {B n : Nat} {f : Rd} (hw : WF B f) (hn : n < B) (h : n ≤ f.held.length) :
    ensureread f n = .ok (f, .ok n) := by
  have := held_length hw
  unfold ensureread
  rw [if_neg (by rw [hw.len]; omega), if_neg (by omega)]; rfl

theorem ensurecp_idle {B : Nat} {f : Rd} (hw : WF B f) (hB : 8 < B) {b : Byte} {s : List Byte}
    (hs : f.held = b :: s) (h : need b ≤ f.held.length) :
    ensurecodepoint f = .ok (f, .ok (need b)) := by
  have hn := need_le b
  obtain ⟨b', b1, b2, b3⟩ := rd_head hw (k := 0) (by omega)
  rw [Nat.add_zero] at b1
  rw [hs] at b2
  injection b2 with b2
  subst b2
  simp only [ensurecodepoint, ensureread_idle hw (by omega : 1 < B) (by omega), Res.bind_ok, b1,
    cplen_need, ensureread_idle hw (by omega : need b < B) h]

theorem slice_held {B : Nat} {f : Rd} (hw : WF B f) : slice f.rbuf f.rstart f.rend = .ok f.held :=
  slice_ok hw.le hw.cap

theorem peekc_ok (sp) {B : Nat} {f : Rd} (hw : WF B f) (hB : 8 < B) :
    ∃ f' o, perform sp .peekc f = .ok (f', o) ∧ OpOk sp B .peekc f f' o := by
  obtain ⟨g, r, h1, h2, h3, h4, h5⟩ := ensurecp_spec hw hB
  simp only [perform, peekc, h1, Res.bind_ok]
  cases r with
  | error e =>
    refine ⟨_, _, rfl, ⟨h2, ⟨[], by simp [h3], rfl⟩, fun hc => ⟨(h5 hc).1, ?_⟩⟩⟩
    obtain ⟨e1, e2⟩ := (h5 hc).2 e rfl
    rw [h3, spec, e2, e1]; rfl
  | ok k =>
    obtain ⟨c, c1, c2, c3, c4, c5, _⟩ := h4 k rfl
    simp only [slice_held h2, Res.bind_ok, c1, Res.pure_eq, Res.map_ok]
    refine ⟨_, _, rfl, ⟨h2, ⟨[], by simp [h3], rfl⟩, fun hc => ⟨(h5 hc).1, ?_⟩⟩⟩
    rw [h3, spec, c4]; rfl

theorem getc_ok (sp) {B : Nat} {f : Rd} (hw : WF B f) (hB : 8 < B) :
    ∃ f' o, perform sp .getc f = .ok (f', o) ∧ OpOk sp B .getc f f' o := by
  obtain ⟨g, r, h1, h2, h3, h4, h5⟩ := ensurecp_spec hw hB
  simp only [perform, getc, h1, Res.bind_ok]
  cases r with
  | error e =>
    refine ⟨_, _, rfl, ⟨h2, ⟨[], by simp [h3], rfl⟩, fun hc => ⟨(h5 hc).1, ?_⟩⟩⟩
    obtain ⟨e1, e2⟩ := (h5 hc).2 e rfl
    rw [h3, spec, e2, e1]; rfl
  | ok k =>
    obtain ⟨c, c1, c2, c3, c4, c5, _⟩ := h4 k rfl
    obtain ⟨a1, a2, a3⟩ := adv h2 (k := charlen c) c5
    simp only [slice_held h2, Res.bind_ok, c1, Res.pure_eq, Res.map_ok]
    have hp : charlen c ≤ g.pend.length := by rw [Rd.pend, List.length_append]; omega
    refine ⟨_, _, rfl, ⟨a1, ⟨g.pend.take (charlen c), ?_, ?_⟩, fun hc => ⟨⟨(h5 hc).1.1, (h5 hc).1.2⟩, ?_⟩⟩⟩
    · rw [a3, List.take_append_drop]; exact h3.symm
    · refine ⟨by simp; omega, g.pend.drop (charlen c), ?_⟩
      rw [List.take_append_drop, h3]; exact c2
    · rw [a3, h3, spec, c4]; rfl

end Verif.Bio
