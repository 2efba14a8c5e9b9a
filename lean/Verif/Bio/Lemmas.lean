import Verif.Bio.Spec
import Verif.Utf.Props

/-!
# Helper lemmas for buffered reading
-/

namespace Verif.Bio

open Verif.Utf

/-- The unread part of the buffer. -/
def Rd.held (f : Rd) : List Byte := (f.rbuf.take f.rend).drop f.rstart

/-- What the caller has not seen yet. -/
def Rd.pend (f : Rd) : List Byte := f.held ++ f.src.rest

/-- Well-formed file with a buffer of `B` bytes. -/
structure WF (B : Nat) (f : Rd) : Prop where
  le : f.rstart ≤ f.rend
  cap : f.rend ≤ f.rbuf.length
  len : f.rbuf.length = B

/-- No error is pending and the source only cuts its data into pieces. -/
def Calm (f : Rd) : Prop := f.lasterr = none ∧ f.src.Honest

theorem held_length {B : Nat} {f : Rd} (h : WF B f) : f.held.length = f.rend - f.rstart := by
  have := h.cap
  simp [Rd.held]; omega

theorem store_length {l bs : List Byte} {i : Nat} (h : i + bs.length ≤ l.length) :
    (store l i bs).length = l.length := by
  simp [store]; omega

theorem store_take {l bs : List Byte} {i : Nat} (h : i + bs.length ≤ l.length) :
    (store l i bs).take (i + bs.length) = l.take i ++ bs := by
  unfold store
  have e : (l.take i ++ bs).length = i + bs.length := by simp; omega
  rw [List.take_append_of_le_length (by omega), List.take_of_length_le (by omega)]

theorem src_read_ok {s s' : Src} {n : Nat} {bs : List Byte} (h : s.read n = (.ok bs, s')) :
    s.rest = bs ++ s'.rest ∧ bs.length ≤ n ∧
    (s.Honest → s'.Honest ∧ (bs = [] → n = 0 ∨ s.rest = [])) := by
  unfold Src.read at h
  split at h
  · rename_i hp
    injection h with h1 h2
    injection h1 with h1
    subst h1 h2
    refine ⟨(List.take_append_drop n s.rest).symm, by simp; omega, fun hh => ⟨?_, fun e => ?_⟩⟩
    · intro a ha; simp at ha
    · simpa [or_comm] using e
  · rename_i k p hp
    injection h with h1 h2
    injection h1 with h1
    subst h1 h2
    refine ⟨(List.take_append_drop _ s.rest).symm, by simp; omega, fun hh => ⟨?_, fun e => ?_⟩⟩
    · intro a ha; exact hh a (by rw [hp]; exact List.mem_cons_of_mem _ ha)
    · obtain ⟨k', hk, e2⟩ := hh (.give k) (by rw [hp]; exact List.mem_cons_self)
      injection e2 with e2
      rw [List.take_eq_nil_iff] at e
      rcases e with e | e
      · left; omega
      · exact .inr e
  · injection h with h1 h2; cases h1

theorem src_read_err {s s' : Src} {n : Nat} {e : Errno} (h : s.read n = (.error e, s')) :
    s'.rest = s.rest ∧ ¬ s.Honest := by
  unfold Src.read at h
  split at h
  · injection h with h1 h2; cases h1
  · injection h with h1 h2; cases h1
  · rename_i e' p hp
    injection h with h1 h2
    subst h2
    refine ⟨rfl, fun hh => ?_⟩
    obtain ⟨k, _, e2⟩ := hh (.fail e') (by rw [hp]; exact List.mem_cons_self)
    cases e2

/-- What a fill did. -/
structure Filled (B min : Nat) (f f' : Rd) (c0 : Nat) (r : Except Err Nat) : Prop where
  wf : WF B f'
  st : f'.rstart = f.rstart
  pend : f'.pend = f.pend
  held : ∃ t, f'.held = f.held ++ t ∧ (∀ c, r = .ok c → c = c0 + t.length ∧ 0 < c) ∧
    (∀ e, r = .error e → t = [] ∧ c0 = 0)
  calm : Calm f → Calm f' ∧ (∀ e, r = .error e → e = .eof) ∧
    (0 < min → (∀ c, r = .ok c → c < min) → f'.src.rest = [] ∨ f'.rend = B)

theorem fillLoop_spec {B min : Nat} : ∀ (fuel : Nat) (f : Rd) (c0 : Nat), WF B f →
    min - c0 < fuel →
    ∃ f' r, fillLoop min fuel f c0 = .ok (f', r) ∧ Filled B min f f' c0 r := by
  intro fuel
  induction fuel with
  | zero => intro f c0 _ h; omega
  | succ fuel ih =>
    intro f c0 hw hf
    have hdone : ∀ (s : Src) (le : Option Errno), s.rest = f.src.rest →
        (Calm f → le = none ∧ s.Honest ∧ (c0 < min → s.rest = [] ∨ f.rend = B)) →
        ∃ f' r, fillDone { f with src := s, lasterr := le } c0 = .ok (f', r) ∧
          Filled B min f f' c0 r := by
      intro s le hs hc
      refine ⟨_, _, rfl, ⟨⟨hw.le, hw.cap, hw.len⟩, rfl, ?_, ⟨[], ?_, ?_, ?_⟩, ?_⟩⟩
      · simp [Rd.pend, Rd.held, hs]
      · simp [Rd.held]
      · intro c h
        split at h
        · cases h
        · injection h with h; simp; omega
      · intro e h
        split at h
        · exact ⟨rfl, ‹_›⟩
        · cases h
      · intro hcalm
        obtain ⟨h1, h2, h3⟩ := hc hcalm
        refine ⟨⟨h1, h2⟩, ?_, ?_⟩
        · intro e h
          split at h
          · injection h with h; exact h.symm
          · cases h
        · intro hm h
          refine h3 ?_
          by_cases h0 : c0 = 0
          · omega
          · exact h c0 (by rw [if_neg h0])
    unfold fillLoop
    by_cases hlt : c0 < min
    · rw [if_pos hlt, slice_suffix hw.cap, Res.bind_ok]
      rcases hr : f.src.read (f.rbuf.drop f.rend).length with ⟨r, s⟩
      have hl : (f.rbuf.drop f.rend).length = B - f.rend := by simp [hw.len]
      rcases r with e | bs
      · obtain ⟨h1, h2⟩ := src_read_err hr
        by_cases h0 : c0 > 0
        · simp only [if_pos h0]
          exact hdone s (some e) h1 (fun hc => absurd hc.2 h2)
        · simp only [if_neg h0]
          refine ⟨_, _, rfl, ⟨⟨hw.le, hw.cap, hw.len⟩, rfl, ?_, ⟨[], ?_, ?_, ?_⟩, ?_⟩⟩
          · simp [Rd.pend, Rd.held, h1]
          · simp [Rd.held]
          · intro c h; cases h
          · intro e h; exact ⟨rfl, by omega⟩
          · intro hc; exact absurd hc.2 h2
      · obtain ⟨h1, h2, h3⟩ := src_read_ok hr
        cases bs with
        | nil =>
          refine hdone s f.lasterr (by simpa using h1.symm) (fun hc => ⟨hc.1, (h3 hc.2).1, fun _ => ?_⟩)
          rcases (h3 hc.2).2 rfl with h | h
          · right; have := hw.cap; have := hw.len; omega
          · left; rw [← h]; simpa using h1.symm
        | cons b bs =>
          simp only
          have hfit : f.rend + (b :: bs).length ≤ f.rbuf.length := by
            have := hw.cap; have := hw.len; omega
          generalize hg : (b :: bs) = x at *
          have hx : 0 < x.length := by rw [← hg]; simp
          obtain ⟨f', r, e1, e2⟩ := ih
            { f with rbuf := store f.rbuf f.rend x, rend := f.rend + x.length, src := s } (c0 + x.length)
            ⟨by have := hw.le; show f.rstart ≤ f.rend + x.length; omega,
             by rw [store_length hfit]; exact hfit, by rw [store_length hfit]; exact hw.len⟩ (by omega)
          have hheld : Rd.held { f with rbuf := store f.rbuf f.rend x, rend := f.rend + x.length, src := s }
              = f.held ++ x := by
            simp only [Rd.held]
            rw [store_take hfit, List.drop_append_of_le_length]
            have := hw.le; have := hw.cap
            simp; omega
          refine ⟨f', r, e1, ⟨e2.wf, e2.st, ?_, ?_, ?_⟩⟩
          · rw [e2.pend, Rd.pend, hheld, Rd.pend, h1, List.append_assoc]
          · obtain ⟨t, ht, h4, h5⟩ := e2.held
            refine ⟨x ++ t, by rw [ht, hheld, List.append_assoc], ?_, ?_⟩
            · intro c hc
              have := h4 c hc
              simp; omega
            · intro e he
              have := h5 e he
              omega
          · intro hc
            exact e2.calm ⟨hc.1, (h3 hc.2).1⟩
    · rw [if_neg hlt]
      exact hdone f.src f.lasterr rfl (fun hc => ⟨hc.1, hc.2, fun h => absurd h hlt⟩)

theorem shift_spec {B : Nat} {f : Rd} (hw : WF B f) (m : Nat) :
    ∃ f', shift f m = .ok f' ∧ WF B f' ∧ f'.held = f.held ∧ f'.src = f.src ∧
      f'.lasterr = f.lasterr ∧ (f.held.length < m → f'.rstart = 0) := by
  unfold shift
  have hl := held_length hw
  have h1 := hw.le
  have h2 := hw.cap
  by_cases h : m > f.rend - f.rstart
  · rw [if_pos h, slice_ok hw.le hw.cap, Res.bind_ok]
    have e : (List.drop f.rstart (List.take f.rend f.rbuf)).length = f.rend - f.rstart := hl
    have hs := store_take (l := f.rbuf) (bs := (List.drop f.rstart (List.take f.rend f.rbuf)))
      (i := 0) (by omega)
    have hs2 := store_length (l := f.rbuf) (bs := (List.drop f.rstart (List.take f.rend f.rbuf)))
      (i := 0) (by omega)
    refine ⟨_, rfl, ⟨Nat.zero_le _, ?_, ?_⟩, ?_, rfl, rfl, fun _ => rfl⟩
    · show _ ≤ (store _ _ _).length
      rw [hs2]; show f.rend - f.rstart ≤ _; omega
    · show (store _ _ _).length = _
      rw [hs2]; exact hw.len
    · rw [e, Nat.zero_add] at hs
      show List.drop 0 (List.take (f.rend - f.rstart) (store _ _ _)) = _
      rw [hs]; rfl
  · rw [if_neg h]
    exact ⟨f, rfl, hw, rfl, rfl, rfl, fun hh => by omega⟩

/-- `fill` never loses a byte; it fails only if it added nothing. -/
theorem fill_spec {B m : Nat} {f : Rd} (hw : WF B f) :
    ∃ f' r, fill f m = .ok (f', r) ∧ WF B f' ∧ f'.pend = f.pend ∧
      (∃ t, f'.held = f.held ++ t ∧ (∀ c, r = .ok c → c = t.length ∧ 0 < c) ∧
        (∀ e, r = .error e → t = [])) ∧
      (Calm f → Calm f' ∧ (∀ e, r = .error e → e = .eof) ∧
        (0 < m → f.held.length < m → (∀ c, r = .ok c → c < m) → f'.src.rest = [] ∨
          f'.held.length = B)) := by
  unfold fill
  cases hle : f.lasterr with
  | some e =>
    refine ⟨_, _, rfl, ⟨hw.le, hw.cap, hw.len⟩, rfl, ⟨[], ?_, ?_, ?_⟩, ?_⟩
    · simp [Rd.held]
    · intro c h; cases h
    · intro _ _; rfl
    · intro hc; rw [hc.1] at hle; cases hle
  | none =>
    obtain ⟨g, h1, h2, h3, h4, h5, h6⟩ := shift_spec hw m
    obtain ⟨f', r, e1, e2⟩ := fillLoop_spec (B := B) (min := m) (m + 1) g 0 h2 (by omega)
    refine ⟨f', r, by simp [h1, e1], e2.wf, ?_, ?_, ?_⟩
    · rw [e2.pend, Rd.pend, Rd.pend, h3, h4]
    · obtain ⟨t, a, b, c⟩ := e2.held
      exact ⟨t, by rw [a, h3], fun k hk => by have := b k hk; omega, fun e he => (c e he).1⟩
    · intro hc
      obtain ⟨a, b, c⟩ := e2.calm ⟨by rw [h5]; exact hc.1, by rw [h4]; exact hc.2⟩
      refine ⟨a, b, fun hm hh hk => ?_⟩
      rcases c hm hk with h | h
      · exact .inl h
      · right
        rw [held_length e2.wf, e2.st, h6 hh]; omega

/-- What `ensureread` promises. -/
structure Ensured (B n : Nat) (f f' : Rd) (r : Except Err Nat) : Prop where
  wf : WF B f'
  pend : f'.pend = f.pend
  ok : ∀ k, r = .ok k → n ≤ f'.held.length
  err : ∀ e, r = .error e → f'.held.length < n
  pre : f.held <+: f'.held
  calm : Calm f → Calm f' ∧ ∀ e, r = .error e → e = .eof ∧ f'.src.rest = []

theorem ensureread_spec {B n : Nat} {f : Rd} (hw : WF B f) (hn : n < B) :
    ∃ f' r, ensureread f n = .ok (f', r) ∧ Ensured B n f f' r := by
  unfold ensureread
  rw [if_neg (by rw [hw.len]; omega)]
  have hl := held_length hw
  by_cases h : n > f.rend - f.rstart
  · rw [if_pos h]
    obtain ⟨f', r, h1, h2, h3, ⟨t, h4, h5, h6⟩, h7⟩ := fill_spec (m := n) hw
    rw [h1, Res.bind_ok]
    have hlen : f'.held.length = f.held.length + t.length := by rw [h4, List.length_append]
    cases r with
    | error e =>
      have ht := h6 e rfl
      refine ⟨_, _, rfl, ⟨h2, h3, (fun k hk => by cases hk), fun e he => ?_, ⟨t, h4.symm⟩, ?_⟩⟩
      · rw [hlen, ht]; simp; omega
      · intro hc
        obtain ⟨a, b, c⟩ := h7 hc
        refine ⟨a, fun e' he => ⟨?_, ?_⟩⟩
        · injection he with he; subst he; exact b _ rfl
        · rcases c (by omega) (by omega) (fun c hc => by cases hc) with h8 | h8
          · exact h8
          · rw [hlen, ht] at h8; simp at h8; omega
    | ok len =>
      obtain ⟨a1, a2⟩ := h5 len rfl
      by_cases hh : f.rend - f.rstart + len ≥ n
      · simp only [if_pos hh]
        refine ⟨_, _, rfl, ⟨h2, h3, (fun k hk => by omega), (fun e he => by cases he), ⟨t, h4.symm⟩, ?_⟩⟩
        intro hc
        exact ⟨(h7 hc).1, fun e he => by cases he⟩
      · simp only [if_neg hh]
        refine ⟨_, _, rfl, ⟨h2, h3, (fun k hk => by cases hk), (fun e he => by omega), ⟨t, h4.symm⟩, ?_⟩⟩
        intro hc
        obtain ⟨a, b, c⟩ := h7 hc
        refine ⟨a, fun e' he => ⟨by injection he with he; exact he.symm, ?_⟩⟩
        rcases c (by omega) (by omega) (fun c hc => by injection hc; omega) with h8 | h8
        · exact h8
        · omega
  · rw [if_neg h]
    exact ⟨_, _, rfl, ⟨hw, rfl, (fun k hk => by omega), (fun e he => by cases he), List.prefix_rfl,
      fun hc => ⟨hc, fun e he => by cases he⟩⟩⟩

/-- The byte at the read position is the first byte of the stream. -/
theorem rd_head {B : Nat} {f : Rd} (hw : WF B f) {k : Nat} (hk : k < f.held.length) :
    ∃ b, rdChk f.rbuf (f.rstart + k) = .ok b ∧ f.held[k]? = some b ∧ f.pend[k]? = some b := by
  have hl := held_length hw
  have h1 := hw.le
  have h2 := hw.cap
  refine ⟨f.rbuf[f.rstart + k]'(by omega), rdChk_ok (by omega), ?_, ?_⟩
  · rw [Rd.held, List.getElem?_drop, List.getElem?_take, if_pos (by omega),
      List.getElem?_eq_getElem (by omega)]
  · rw [Rd.pend, List.getElem?_append_left hk, Rd.held, List.getElem?_drop, List.getElem?_take,
      if_pos (by omega), List.getElem?_eq_getElem (by omega)]

/-- Moving the read position over `k` buffered bytes. -/
theorem adv {B : Nat} {f : Rd} (hw : WF B f) {k : Nat} (hk : k ≤ f.held.length) :
    WF B { f with rstart := f.rstart + k } ∧
    Rd.held { f with rstart := f.rstart + k } = f.held.drop k ∧
    Rd.pend { f with rstart := f.rstart + k } = f.pend.drop k := by
  have hl := held_length hw
  have h1 := hw.le
  have h2 := hw.cap
  have e : Rd.held { f with rstart := f.rstart + k } = f.held.drop k := by
    simp only [Rd.held, List.drop_drop]
  refine ⟨⟨by show f.rstart + k ≤ f.rend; omega, hw.cap, hw.len⟩, e, ?_⟩
  rw [Rd.pend, e, Rd.pend, List.drop_append_of_le_length hk]

theorem readinto_spec {B : Nat} {f : Rd} (hw : WF B f) (ret : List Byte) {k : Nat}
    (hk : k ≤ f.held.length) :
    readinto f ret k = .ok ({ f with rstart := f.rstart + k }, ret ++ f.pend.take k) := by
  have hl := held_length hw
  have h1 := hw.le
  have h2 := hw.cap
  unfold readinto
  rw [if_neg (by omega), slice_ok (by omega) (by omega), Res.bind_ok]
  have : List.drop f.rstart (List.take (f.rstart + k) f.rbuf) = f.pend.take k := by
    rw [Rd.pend, List.take_append_of_le_length hk, Rd.held, List.take_drop, List.take_take,
      Nat.min_eq_left (by omega)]
  rw [this]; rfl

end Verif.Bio
