import Verif.Bio.Reads

/-!
# Reading blocks, delimited reads and lines
-/

namespace Verif.Bio

open Verif.Utf

/-! ### `read` -/

theorem readLoop_spec {B : Nat} : ∀ (fuel : Nat) (f : Rd) (want : Nat) (got : List Byte), WF B f →
    want < fuel →
    ∃ f' r t, readLoop fuel f want got = .ok (f', r) ∧ WF B f' ∧ f'.held = f.held ∧
      f.src.rest = t ++ f'.src.rest ∧ t.length ≤ want ∧
      (∀ l, r = .ok l → l = got ++ t ∧ l ≠ []) ∧ (∀ e, r = .error e → got = [] ∧ t = []) ∧
      (Calm f → Calm f' ∧ (t.length = want ∨ f'.src.rest = []) ∧ ∀ e, r = .error e → e = .eof) := by
  intro fuel
  induction fuel with
  | zero => intro f want got _ h; omega
  | succ fuel ih =>
    intro f want got hw hf
    have hdone : ∀ (s : Src), s.rest = f.src.rest →
        (Calm f → s.Honest ∧ (0 = want ∨ s.rest = [])) →
        ∃ f' r t, (Res.ok (({ f with src := s } : Rd), (if got.length = 0 then Except.error Err.eof else Except.ok got))
            : Res (Rd × Except Err (List Byte))) = .ok (f', r) ∧ WF B f' ∧ f'.held = f.held ∧
          f.src.rest = t ++ f'.src.rest ∧ t.length ≤ want ∧
          (∀ l, r = .ok l → l = got ++ t ∧ l ≠ []) ∧ (∀ e, r = .error e → got = [] ∧ t = []) ∧
          (Calm f → Calm f' ∧ (t.length = want ∨ f'.src.rest = []) ∧ ∀ e, r = .error e → e = .eof) := by
      intro s hs hc
      refine ⟨_, _, [], rfl, ⟨hw.le, hw.cap, hw.len⟩, rfl, by simp [hs], by simp, ?_, ?_, ?_⟩
      · intro l h
        split at h
        · cases h
        · injection h with h; subst h
          refine ⟨by simp, fun e => ?_⟩
          subst e; simp at *
      · intro e h
        split at h
        · exact ⟨List.length_eq_zero_iff.1 ‹_›, rfl⟩
        · cases h
      · intro h
        refine ⟨⟨h.1, (hc h).1⟩, ?_, ?_⟩
        · simpa using (hc h).2
        · intro e h
          split at h
          · injection h with h; exact h.symm
          · cases h
    unfold readLoop
    by_cases hwant : want > 0
    · rw [if_pos hwant]
      rcases hr : f.src.read want with ⟨r, s⟩
      rcases r with e | bs
      · obtain ⟨h1, h2⟩ := src_read_err hr
        simp only
        by_cases h0 : got.length = 0
        · rw [if_pos h0]
          refine ⟨_, _, [], rfl, ⟨hw.le, hw.cap, hw.len⟩, rfl, by simp [h1], by simp, ?_, ?_, ?_⟩
          · intro l h; cases h
          · intro e h; exact ⟨List.length_eq_zero_iff.1 h0, rfl⟩
          · intro h; exact absurd h.2 h2
        · rw [if_neg h0]
          refine ⟨_, _, [], rfl, ⟨hw.le, hw.cap, hw.len⟩, rfl, by simp [h1], by simp, ?_, ?_, ?_⟩
          · intro l h; injection h with h; subst h
            exact ⟨by simp, fun e => by subst e; simp at h0⟩
          · intro e h; cases h
          · intro h; exact absurd h.2 h2
      · obtain ⟨h1, h2, h3⟩ := src_read_ok hr
        cases bs with
        | nil =>
          refine hdone s (by simpa using h1.symm) (fun hc => ⟨(h3 hc.2).1, ?_⟩)
          rcases (h3 hc.2).2 rfl with h | h
          · omega
          · right; rw [← h]; simpa using h1.symm
        | cons b bs =>
          simp only
          generalize hg : (b :: bs) = x at *
          have hx : 0 < x.length := by rw [← hg]; simp
          obtain ⟨f', r, t, e1, e2, e3, e4, e5, e6, e7, e8⟩ := ih { f with src := s } (want - x.length)
            (got ++ x) ⟨hw.le, hw.cap, hw.len⟩ (by omega)
          refine ⟨f', r, x ++ t, e1, e2, e3, ?_, by simp; omega, ?_, ?_, ?_⟩
          · rw [h1, List.append_assoc, ← e4]
          · intro l hl
            rw [← List.append_assoc]; exact e6 l hl
          · intro e he
            have := (e7 e he).1
            rw [List.append_eq_nil_iff] at this
            rw [this.2] at hx; simp at hx
          · intro hc
            obtain ⟨a, b, c⟩ := e8 ⟨hc.1, (h3 hc.2).1⟩
            refine ⟨a, ?_, c⟩
            rcases b with b | b
            · left; simp; omega
            · exact .inr b
    · rw [if_neg hwant]
      have := hdone f.src rfl (fun hc => ⟨hc.2, .inl (by omega)⟩)
      exact this

theorem readFill_spec {B n : Nat} {f : Rd} (hw : WF B f) :
    ∃ f', readFill f n = .ok f' ∧ WF B f' ∧ f'.pend = f.pend ∧ (Calm f → Calm f') := by
  unfold readFill
  split
  · obtain ⟨g, r, h1, h2, h3, h4, h5⟩ := fill_spec (m := n) hw
    rw [h1]
    exact ⟨g, rfl, h2, h3, fun hc => (h5 hc).1⟩
  · exact ⟨f, rfl, hw, rfl, id⟩

theorem read_ok (sp) {B n : Nat} {f : Rd} (hw : WF B f) :
    ∃ f' o, perform sp (.read n) f = .ok (f', o) ∧ OpOk sp B (.read n) f f' o := by
  simp only [perform, read]
  cases hle : f.lasterr with
  | some e =>
    refine ⟨_, _, rfl, ⟨⟨hw.le, hw.cap, hw.len⟩, ⟨[], rfl, rfl⟩, fun hc => ?_⟩⟩
    rw [hc.1] at hle; cases hle
  | none =>
    simp only
    by_cases hn : n = 0
    · rw [if_pos hn]
      refine ⟨_, _, rfl, ⟨hw, ⟨[], rfl, rfl, by simp⟩, fun hc => ⟨hc, ?_⟩⟩⟩
      rw [spec, if_pos hn]; rfl
    · rw [if_neg hn]
      obtain ⟨g, g1, g2, g3, g4⟩ := readFill_spec (n := n) hw
      have hl := held_length g2
      have hcap := g2.cap
      have hst := g2.le
      obtain ⟨c, hcount⟩ : ∃ c, min n (g.rend - g.rstart) = c := ⟨_, rfl⟩
      simp only [g1, Res.bind_ok, hcount]
      have hc1 : c ≤ g.held.length := by omega
      rw [slice_ok (by omega) (by omega), Res.bind_ok]
      have hh : List.drop g.rstart (List.take (g.rstart + c) g.rbuf) = g.held.take c := by
        rw [Rd.held, List.take_drop, List.take_take, Nat.min_eq_left (by omega)]
      rw [hh]
      have hk : ∃ k : Rd, (if g.rstart + c = g.rend then ({ g with rstart := 0, rend := 0 } : Rd)
          else { g with rstart := g.rstart + c }) = k ∧ WF B k ∧ k.held = g.held.drop c ∧
          k.src = g.src ∧ k.lasterr = g.lasterr := by
        refine ⟨_, rfl, ?_⟩
        split
        · rename_i he
          refine ⟨⟨Nat.le_refl _, Nat.zero_le _, g2.len⟩, ?_, rfl, rfl⟩
          have : g.held.drop c = [] := by
            apply List.drop_eq_nil_of_le; omega
          rw [this]; rfl
        · obtain ⟨a1, a2, a3⟩ := adv g2 hc1
          exact ⟨a1, a2, rfl, rfl⟩
      obtain ⟨k, k1, k2, k3, k4, k5⟩ := hk
      simp only [k1]
      obtain ⟨f', r, t, e1, e2, e3, e4, e5, e6, e7, e8⟩ := readLoop_spec (n + 1) k (n - c)
        (g.held.take c) k2 (by omega)
      rw [e1]
      have hkc : c < n → k.held = [] := by
        intro h; rw [k3]; apply List.drop_eq_nil_of_le; omega
      have ht : c = n → t = [] := by
        intro h; apply List.length_eq_zero_iff.1; omega
      have hP : f.pend = (g.held.take c ++ t) ++ f'.pend := by
        rw [← g3, Rd.pend, Rd.pend, e3, ← k4, e4]
        by_cases h : c < n
        · have : g.held = g.held.take c := by
            rw [List.take_of_length_le (by omega)]
          rw [hkc h, List.nil_append, ← this, List.append_assoc]
        · rw [ht (by omega), List.append_nil, List.nil_append, k3, ← List.append_assoc,
            List.take_append_drop]
      have htl : (g.held.take c).length = c := by simp; omega
      refine ⟨_, _, rfl, ⟨e2, ⟨g.held.take c ++ t, hP, ?_⟩, ?_⟩⟩
      · cases r with
        | error e =>
          show _ = _
          rw [(e7 e rfl).1, (e7 e rfl).2]; rfl
        | ok l =>
          refine ⟨(e6 l rfl).1.symm, ?_⟩
          rw [(e6 l rfl).1, List.length_append, htl]; omega
      · intro hc
        obtain ⟨a, b, d⟩ := e8 ⟨by rw [k5]; exact (g4 hc).1, by rw [k4]; exact (g4 hc).2⟩
        refine ⟨a, ?_⟩
        have hend : c < n → f'.src.rest = [] → f'.pend = [] := by
          intro h1 h2; rw [Rd.pend, h2, e3, hkc h1]; rfl
        rw [spec, if_neg hn]
        have hlen2 : (g.held.take c ++ t).length = n ∨ f'.pend = [] := by
          rw [List.length_append, htl]
          rcases b with b | b
          · left; omega
          · by_cases h : c < n
            · exact .inr (hend h b)
            · left; have := ht (by omega); subst this; simp; omega
        have hle2 : (g.held.take c ++ t).length ≤ n := by
          rw [List.length_append, htl]; omega
        cases r with
        | error e =>
          obtain ⟨z1, z2⟩ := e7 e rfl
          rw [z1, z2] at hlen2
          have : f'.pend = [] := by
            rcases hlen2 with h | h
            · simp at h; omega
            · exact h
          rw [hP, z1, z2, this, d e rfl]; rfl
        | ok l =>
          obtain ⟨z1, z2⟩ := e6 l rfl
          rw [← z1] at hP hlen2 hle2
          have hne : f.pend ≠ [] := by
            rw [hP]; intro h; rw [List.append_eq_nil_iff] at h; exact z2 h.1
          rw [if_neg hne, hP]
          have hx : (l ++ f'.pend).take n = l ∧ (l ++ f'.pend).drop n = f'.pend := by
            rcases hlen2 with h | h
            · rw [← h]; simp
            · rw [h, List.append_nil]
              exact ⟨List.take_of_length_le hle2, List.drop_eq_nil_of_le hle2⟩
          rw [hx.1, hx.2]; rfl

/-! ### Delimiters -/

theorem firstIdx_skip {d : List Byte} : ∀ (m : Nat) (P : List Byte), m ≤ P.length →
    (∀ k, k < m → ¬ d <+: P.drop k) → firstIdx d P = (firstIdx d (P.drop m)).map (· + m) := by
  intro m
  induction m with
  | zero => intro P _ _; simp
  | succ m ih =>
    intro P hP h
    cases P with
    | nil => simp at hP
    | cons b t =>
      have h0 := h 0 (by omega)
      rw [List.drop_zero, ← List.isPrefixOf_iff_prefix] at h0
      rw [firstIdx, if_neg h0, ih t (by simpa using hP) (fun k hk => by
        have := h (k + 1) (by omega); rwa [List.drop_succ_cons] at this), List.drop_succ_cons,
        Option.map_map]
      congr 1

theorem firstIdx_at {d : List Byte} {m : Nat} {P : List Byte} (hd : d ≠ []) (hm : m ≤ P.length)
    (h : ∀ k, k < m → ¬ d <+: P.drop k) (hh : d <+: P.drop m) : firstIdx d P = some m := by
  rw [firstIdx_skip m P hm h]
  cases hp : P.drop m with
  | nil =>
    rw [hp, List.prefix_nil] at hh; exact absurd hh hd
  | cons b t =>
    rw [hp, ← List.isPrefixOf_iff_prefix] at hh
    rw [firstIdx, if_pos hh]; simp

theorem firstIdx_none {d P : List Byte} (h : P.length < d.length) : firstIdx d P = none := by
  induction P with
  | nil => rw [firstIdx, if_neg (by intro e; subst e; simp at h)]
  | cons b t ih =>
    rw [firstIdx, if_neg, ih (by simp at h; omega)]
    · rfl
    · rw [List.isPrefixOf_iff_prefix]
      intro hp; have := hp.length_le; omega

theorem firstIdx_some {d : List Byte} : ∀ {P : List Byte} {k : Nat}, firstIdx d P = some k →
    d <+: P.drop k ∧ k ≤ P.length ∧ ∀ j, j < k → ¬ d <+: P.drop j := by
  intro P
  induction P with
  | nil =>
    intro k h
    rw [firstIdx] at h
    split at h
    · rename_i e; subst e; injection h with h; subst h; simp
    · cases h
  | cons b t ih =>
    intro k h
    rw [firstIdx] at h
    split at h
    · rename_i e
      injection h with h; subst h
      exact ⟨by simpa using e, by simp, fun j hj => by omega⟩
    · rename_i e
      rw [Option.map_eq_some_iff] at h
      obtain ⟨a, h1, h2⟩ := h
      subst h2
      obtain ⟨x, y, z⟩ := ih h1
      refine ⟨by simpa using x, by simp; omega, fun j hj => ?_⟩
      cases j with
      | zero => rw [List.drop_zero, ← List.isPrefixOf_iff_prefix]; exact e
      | succ j => rw [List.drop_succ_cons]; exact z j (by omega)

theorem matchAt_spec (rbuf : List Byte) : ∀ (d : List Byte) (i : Nat), i + d.length ≤ rbuf.length →
    ∃ m, matchAt rbuf d i = .ok m ∧ (m = true ↔ d <+: rbuf.drop i) := by
  intro d
  induction d with
  | nil => intro i _; exact ⟨true, rfl, by simp⟩
  | cons x d ih =>
    intro i h
    rw [List.length_cons] at h
    have hi : i < rbuf.length := by omega
    rw [matchAt, rdChk_ok hi, Res.bind_ok]
    by_cases hx : rbuf[i] ≠ x
    · rw [if_pos hx]
      refine ⟨false, rfl, ?_⟩
      rw [List.drop_eq_getElem_cons hi, List.cons_prefix_cons]
      simp only [Bool.false_eq_true, false_iff]
      exact fun h => hx h.1.symm
    · rw [if_neg hx]
      obtain ⟨m, h1, h2⟩ := ih (i + 1) (by omega)
      refine ⟨m, h1, ?_⟩
      rw [h2, List.drop_eq_getElem_cons hi, List.cons_prefix_cons]
      simp only [ne_eq, not_not] at hx
      exact ⟨fun h => ⟨hx.symm, h⟩, fun h => h.2⟩

theorem findDelim_spec (rbuf d : List Byte) : ∀ (n i : Nat), i + n + d.length ≤ rbuf.length + 1 →
    ∃ r, findDelim rbuf d n i = .ok r ∧
      (r = none → ∀ k, k < n → ¬ d <+: rbuf.drop (i + k)) ∧
      (∀ j, r = some j → ∃ k, k < n ∧ j = i + k ∧ d <+: rbuf.drop (i + k) ∧
        ∀ k', k' < k → ¬ d <+: rbuf.drop (i + k')) := by
  intro n
  induction n with
  | zero => intro i _; exact ⟨none, rfl, fun _ k hk => by omega, fun j h => by cases h⟩
  | succ n ih =>
    intro i h
    obtain ⟨m, h1, h2⟩ := matchAt_spec rbuf d i (by omega)
    rw [findDelim, h1, Res.bind_ok]
    cases m with
    | true =>
      refine ⟨some i, rfl, (fun e => by cases e), fun j hj => ?_⟩
      injection hj with hj
      exact ⟨0, by omega, by omega, h2.1 rfl, fun k hk => by omega⟩
    | false =>
      obtain ⟨r, e1, e2, e3⟩ := ih (i + 1) (by omega)
      have hno : ¬ d <+: rbuf.drop i := fun hp => by have := h2.2 hp; cases this
      refine ⟨r, by simpa using e1, fun hr k hk => ?_, fun j hj => ?_⟩
      · cases k with
        | zero => exact hno
        | succ k =>
          have := e2 hr k (by omega)
          rwa [show i + 1 + k = i + (k + 1) by omega] at this
      · obtain ⟨k, a, b, c, dd⟩ := e3 j hj
        refine ⟨k + 1, by omega, by omega, by rwa [show i + (k + 1) = i + 1 + k by omega], fun k' hk' => ?_⟩
        cases k' with
        | zero => exact hno
        | succ k' =>
          have := dd k' (by omega)
          rwa [show i + 1 + k' = i + (k' + 1) by omega] at this

/-- Whether the delimiter stands at an index is seen in the buffer. -/
theorem prefix_pend {B : Nat} {f : Rd} (hw : WF B f) {d : List Byte} {k : Nat}
    (h : k + d.length ≤ f.held.length) : d <+: f.rbuf.drop (f.rstart + k) ↔ d <+: f.pend.drop k := by
  have hl := held_length hw
  have h1 := hw.le
  have h2 := hw.cap
  have e : (f.rbuf.drop (f.rstart + k)).take d.length = (f.pend.drop k).take d.length := by
    rw [Rd.pend, List.drop_append_of_le_length (by omega), List.take_append_of_le_length (by simp; omega),
      Rd.held, List.drop_drop, List.take_drop, List.take_drop, List.take_take,
      Nat.min_eq_left (by omega)]
  rw [List.prefix_iff_eq_take, List.prefix_iff_eq_take, e]

/-- The bytes of `P` a delimited read keeps when it moves over `k` of them. -/
def kept (mode : Mode) (ret P : List Byte) (k : Nat) : List Byte :=
  if mode = .drop then ret else ret ++ P.take k

theorem moveOut_spec {B : Nat} {f : Rd} (hw : WF B f) (mode : Mode) (ret : List Byte) {k : Nat}
    (hk : k ≤ f.held.length) :
    moveOut mode f ret k = .ok ({ f with rstart := f.rstart + k }, kept mode ret f.pend k) := by
  cases mode with
  | drop => rfl
  | read => exact readinto_spec hw ret hk
  | keep => exact readinto_spec hw ret hk

theorem takeDelim_spec {B : Nat} {f : Rd} (hw : WF B f) (mode : Mode) (ret : List Byte) {k dl : Nat}
    (hk : k + dl ≤ f.held.length) :
    takeDelim mode f ret dl (f.rstart + k) = .ok ({ f with rstart := f.rstart + (k + dl) },
      kept mode ret f.pend (if mode = .keep then k + dl else k)) := by
  cases mode with
  | drop => simp [takeDelim, kept, Nat.add_assoc]
  | read =>
    simp only [takeDelim, Nat.add_sub_cancel_left, readinto_spec hw ret (by omega : k ≤ f.held.length),
      Res.bind_ok, Nat.add_assoc]
    rfl
  | keep =>
    simp only [takeDelim, show f.rstart + k + dl - f.rstart = k + dl by omega,
      readinto_spec hw ret hk]
    rfl

/-- A delimited read explained on the stream. -/
def delimSpec (d : List Byte) (mode : Mode) (ret P : List Byte) : Except Err (List Byte) × List Byte :=
  match firstIdx d P with
  | some k => (.ok (kept mode ret P (if mode = .keep then k + d.length else k)), P.drop (k + d.length))
  | none => (if (kept mode ret P P.length).length = 0 then .error .eof
      else .ok (kept mode ret P P.length), [])

theorem kept_drop (mode : Mode) (ret P : List Byte) (j k : Nat) :
    kept mode (kept mode ret P j) (P.drop j) k = kept mode ret P (j + k) := by
  cases mode with
  | drop => rfl
  | read => simp [kept, List.take_add]
  | keep => simp [kept, List.take_add]

theorem delimSpec_skip {d : List Byte} {mode : Mode} {ret P : List Byte} {m : Nat}
    (hm : m ≤ P.length) (h : ∀ k, k < m → ¬ d <+: P.drop k) :
    delimSpec d mode (kept mode ret P m) (P.drop m) = delimSpec d mode ret P := by
  unfold delimSpec
  rw [firstIdx_skip m P hm h]
  cases firstIdx d (P.drop m) with
  | none =>
    simp only [Option.map_none]
    rw [kept_drop, List.length_drop, Nat.add_sub_cancel' hm]
  | some k =>
    simp only [Option.map_some, List.drop_drop]
    rw [kept_drop]
    congr 2
    · congr 1
      split <;> omega
    · omega

/-- How the bytes `cs` taken from the stream show in the result of a delimited read that had
collected `ret` before. -/
def Told (d : List Byte) (mode : Mode) (ret cs : List Byte) (r : Except Err (List Byte)) : Prop :=
  match mode with
  | .drop => True
  | .read => (∀ l, r = .ok l → ret ++ cs = l ∨ ret ++ cs = l ++ d) ∧ (r = .error .eof → ret ++ cs = [])
  | .keep => (∀ l, r = .ok l → ret ++ cs = l ∧ ∀ k, firstIdx d l = some k → k + d.length = l.length) ∧
      (r = .error .eof → ret ++ cs = [])

theorem kept_nodrop {mode : Mode} {ret P : List Byte} {k : Nat} (h : mode ≠ .drop) :
    kept mode ret P k = ret ++ P.take k := by rw [kept, if_neg h]

theorem not_prefix_of {d l x : List Byte} {k : Nat} (h : ¬ d <+: (l ++ x).drop k) :
    ¬ d <+: l.drop k := by
  intro hp
  apply h
  by_cases hk : k ≤ l.length
  · rw [List.drop_append_of_le_length hk]
    exact hp.trans (List.prefix_append _ _)
  · rw [List.drop_eq_nil_of_le (by omega), List.prefix_nil] at hp
    subst hp; exact List.nil_prefix

theorem delimLoop_spec {B : Nat} {d : List Byte} {mode : Mode} (hd0 : d ≠ []) (hdB : d.length < B) :
    ∀ (fuel : Nat) (f : Rd) (ret : List Byte), WF B f → f.pend.length < fuel →
    (mode ≠ .drop → ∀ k, k < ret.length → ¬ d <+: (ret ++ f.pend).drop k) →
    ∃ f' r, delimLoop d mode fuel f ret = .ok (f', r) ∧ WF B f' ∧
      (∃ cs, f.pend = cs ++ f'.pend ∧ Told d mode ret cs r) ∧
      (Calm f → Calm f' ∧ delimSpec d mode ret f.pend = (r, f'.pend)) := by
  have hdp : 0 < d.length := by
    cases d with
    | nil => exact absurd rfl hd0
    | cons => simp
  intro fuel
  induction fuel with
  | zero => intro f ret _ h; omega
  | succ fuel ih =>
    intro f ret hw hf hret
    obtain ⟨g, r, h1, h2⟩ := ensureread_spec (n := d.length) hw hdB
    rw [delimLoop, h1, Res.bind_ok]
    rw [← h2.pend] at hret hf ⊢
    have hl := held_length h2.wf
    have hle := h2.wf.le
    have hcap := h2.wf.cap
    cases r with
    | error e =>
      have hshort := h2.err e rfl
      have key : e = .eof → ∃ f' r, (do
            let q ← moveOut mode g ret (g.rend - g.rstart)
            pure (q.1, if q.2.length = 0 then Except.error Err.eof else Except.ok q.2) : Res (Rd × Except Err (List Byte)))
            = .ok (f', r) ∧ WF B f' ∧
          (∃ cs, g.pend = cs ++ f'.pend ∧ Told d mode ret cs r) ∧
          (Calm f → Calm f' ∧ delimSpec d mode ret g.pend = (r, f'.pend)) := by
        intro _
        obtain ⟨a1, a2, a3⟩ := adv h2.wf (k := g.rend - g.rstart) (by omega)
        rw [moveOut_spec h2.wf mode ret (by omega), Res.bind_ok]
        refine ⟨_, _, rfl, a1, ⟨g.pend.take (g.rend - g.rstart), ?_, ?_⟩, fun hc => ?_⟩
        · rw [a3, List.take_append_drop]
        · have hlen : (g.pend.take (g.rend - g.rstart)).length = g.rend - g.rstart := by
            rw [List.length_take, Rd.pend, List.length_append]; omega
          have base : mode ≠ .drop →
              (∀ l, (if (kept mode ret g.pend (g.rend - g.rstart)).length = 0 then Except.error Err.eof
                else Except.ok (kept mode ret g.pend (g.rend - g.rstart))) = .ok l →
                ret ++ g.pend.take (g.rend - g.rstart) = l ∧
                  ∀ k, firstIdx d l = some k → k + d.length = l.length) ∧
              ((if (kept mode ret g.pend (g.rend - g.rstart)).length = 0 then Except.error Err.eof
                else Except.ok (kept mode ret g.pend (g.rend - g.rstart))) = .error .eof →
                ret ++ g.pend.take (g.rend - g.rstart) = []) := by
            intro hm
            rw [kept_nodrop hm]
            refine ⟨fun l h => ?_, fun h => ?_⟩
            · split at h
              · cases h
              · injection h with h
                refine ⟨h, fun k hk => ?_⟩
                obtain ⟨p1, p2, p3⟩ := firstIdx_some hk
                exfalso
                have hk2 : ¬ k < ret.length := by
                  intro hlt
                  have := hret hm k hlt
                  rw [show ret ++ g.pend = (ret ++ g.pend.take (g.rend - g.rstart)) ++
                    g.pend.drop (g.rend - g.rstart) by rw [List.append_assoc, List.take_append_drop], h] at this
                  exact not_prefix_of this p1
                have := p1.length_le
                rw [List.length_drop, ← h, List.length_append, hlen] at this
                omega
            · split at h
              · rename_i h0; exact List.length_eq_zero_iff.1 h0
              · cases h
          cases mode with
          | drop => trivial
          | read => exact ⟨fun l h => .inl ((base (by simp)).1 l h).1, (base (by simp)).2⟩
          | keep => exact base (by simp)
        · obtain ⟨a, b⟩ := h2.calm hc
          obtain ⟨b1, b2⟩ := b e rfl
          have hpl : g.pend.length = g.rend - g.rstart := by rw [pend_eq_held b2, hl]
          refine ⟨⟨a.1, a.2⟩, ?_⟩
          rw [a3, delimSpec, firstIdx_none (by omega)]
          simp only
          rw [hpl, List.drop_eq_nil_of_le (by omega)]
      cases e with
      | eof => exact key rfl
      | eio =>
        refine ⟨g, .error .eio, rfl, h2.wf, ⟨[], rfl, ?_⟩, fun hc => ?_⟩
        · cases mode with
          | drop => trivial
          | read => exact ⟨(fun l h => by cases h), (fun h => by cases h)⟩
          | keep => exact ⟨(fun l h => by cases h), (fun h => by cases h)⟩
        · have := ((h2.calm hc).2 _ rfl).1; cases this
      | ebadf =>
        refine ⟨g, .error .ebadf, rfl, h2.wf, ⟨[], rfl, ?_⟩, fun hc => ?_⟩
        · cases mode with
          | drop => trivial
          | read => exact ⟨(fun l h => by cases h), (fun h => by cases h)⟩
          | keep => exact ⟨(fun l h => by cases h), (fun h => by cases h)⟩
        · have := ((h2.calm hc).2 _ rfl).1; cases this
    | ok kk =>
      have hlong := h2.ok kk rfl
      obtain ⟨n, hn⟩ : ∃ n, g.rend + 1 - d.length - g.rstart = n := ⟨_, rfl⟩
      obtain ⟨r, r1, r2, r3⟩ := findDelim_spec g.rbuf d n g.rstart (by omega)
      simp only [hn, r1, Res.bind_ok]
      have hpl : g.held.length ≤ g.pend.length := by rw [Rd.pend, List.length_append]; omega
      cases r with
      | some i =>
        obtain ⟨k, k1, k2, k3, k4⟩ := r3 i rfl
        subst k2
        have hkd : k + d.length ≤ g.held.length := by omega
        have hno : ∀ j, j < k → ¬ d <+: g.pend.drop j := fun j hj => by
          rw [← prefix_pend h2.wf (by omega)]; exact k4 j hj
        have hyes : d <+: g.pend.drop k := (prefix_pend h2.wf hkd).1 k3
        obtain ⟨a1, a2, a3⟩ := adv h2.wf hkd
        simp only [takeDelim_spec h2.wf mode ret hkd, Res.bind_ok]
        have htk : g.pend.take (k + d.length) = g.pend.take k ++ d := by
          rw [List.take_add, ← List.prefix_iff_eq_take.1 hyes]
        refine ⟨_, _, rfl, a1, ⟨g.pend.take (k + d.length), ?_, ?_⟩, fun hc => ?_⟩
        · rw [a3, List.take_append_drop]
        · cases mode with
          | drop => trivial
          | read =>
            refine ⟨fun l h => .inr ?_, (fun h => by cases h)⟩
            injection h with h
            rw [← h, htk]; simp [kept]
          | keep =>
            refine ⟨fun l h => ?_, (fun h => by cases h)⟩
            injection h with h
            simp only [if_true] at h
            rw [kept_nodrop (by simp)] at h
            refine ⟨h, fun k' hk' => ?_⟩
            obtain ⟨p1, p2, p3⟩ := firstIdx_some hk'
            have e1 : ret ++ g.pend = l ++ g.pend.drop (k + d.length) := by
              rw [← h, List.append_assoc, List.take_append_drop]
            have hge : ret.length + k ≤ k' := by
              by_contra hlt
              rw [Nat.not_le] at hlt
              have hbig : d <+: (ret ++ g.pend).drop k' := by
                rw [e1]
                by_contra hx
                exact not_prefix_of hx p1
              by_cases hk2 : k' < ret.length
              · exact hret (by simp) k' hk2 hbig
              · refine hno (k' - ret.length) (by omega) ?_
                rwa [List.drop_append, List.drop_eq_nil_of_le (by omega), List.nil_append] at hbig
            have := p1.length_le
            have hll : l.length = ret.length + (k + d.length) := by
              rw [← h, List.length_append, List.length_take]; omega
            rw [List.length_drop] at this
            omega
        · refine ⟨⟨(h2.calm hc).1.1, (h2.calm hc).1.2⟩, ?_⟩
          rw [a3, delimSpec, firstIdx_at hd0 (by omega) hno hyes]
      | none =>
        have hnh : n ≤ g.held.length := by omega
        have hno : ∀ j, j < n → ¬ d <+: g.pend.drop j := fun j hj => by
          rw [← prefix_pend h2.wf (by omega)]; exact r2 rfl j hj
        obtain ⟨a1, a2, a3⟩ := adv h2.wf hnh
        simp only [moveOut_spec h2.wf mode ret hnh, Res.bind_ok]
        obtain ⟨f', r, e1, e2, ⟨cs, e3, e4⟩, e5⟩ := ih _ (kept mode ret g.pend n) a1
          (by rw [a3, List.length_drop]; omega) (by
            rw [a3]
            intro hm j hj
            rw [kept_nodrop hm, List.append_assoc, List.take_append_drop]
            rw [kept_nodrop hm, List.length_append, List.length_take] at hj
            by_cases hj2 : j < ret.length
            · exact hret hm j hj2
            · rw [List.drop_append, List.drop_eq_nil_of_le (by omega), List.nil_append]
              exact hno _ (by omega))
        refine ⟨f', r, e1, e2, ⟨g.pend.take n ++ cs, ?_, ?_⟩, fun hc => ?_⟩
        · rw [List.append_assoc, ← e3, a3, List.take_append_drop]
        · cases mode with
          | drop => trivial
          | read => simpa [Told, kept] using e4
          | keep => simpa [Told, kept] using e4
        · obtain ⟨b1, b2⟩ := e5 ⟨(h2.calm hc).1.1, (h2.calm hc).1.2⟩
          refine ⟨b1, ?_⟩
          rw [← b2, a3, delimSpec_skip (by omega) hno]

theorem fuel_pend {B : Nat} {f : Rd} (hw : WF B f) : f.pend.length < f.fuel := by
  rw [Rd.pend, List.length_append, held_length hw, Rd.fuel]; omega

theorem readdelim_spec {B : Nat} {f : Rd} {d : List Byte} (mode : Mode) (hw : WF B f)
    (hd0 : d ≠ []) (hdB : d.length < B) :
    ∃ f' r, readdelim f d mode = .ok (f', r) ∧ WF B f' ∧
      (∃ cs, f.pend = cs ++ f'.pend ∧ Told d mode [] cs r) ∧
      (Calm f → Calm f' ∧ delimSpec d mode [] f.pend = (r, f'.pend)) := by
  unfold readdelim
  rw [if_neg (by rw [List.length_eq_zero_iff]; exact hd0)]
  exact delimLoop_spec hd0 hdB f.fuel f [] hw (fuel_pend hw) (fun _ k hk => by simp at hk)

theorem readto_ok (sp) {B : Nat} {f : Rd} {d : List Byte} (hw : WF B f) (hd : d.length < B) :
    ∃ f' o, perform sp (.readto d) f = .ok (f', o) ∧ OpOk sp B (.readto d) f f' o := by
  simp only [perform, readto]
  by_cases hd0 : d = []
  · subst hd0
    exact ⟨f, _, rfl, ⟨hw, ⟨[], rfl, .inl rfl⟩, fun hc => ⟨hc, rfl⟩⟩⟩
  · obtain ⟨f', r, h1, h2, ⟨cs, h3, h4⟩, h5⟩ := readdelim_spec .read hw hd0 hd
    rw [h1]
    refine ⟨f', _, rfl, ⟨h2, ⟨cs, h3, ?_⟩, fun hc => ⟨(h5 hc).1, ?_⟩⟩⟩
    · cases r with
      | ok l => simpa [Told, Shows, out] using h4.1 l rfl
      | error e =>
        intro he; subst he
        simpa [Told] using h4.2 rfl
    · have h6 := (h5 hc).2
      rw [spec, if_neg hd0]
      unfold delimSpec at h6
      cases hi : firstIdx d f.pend with
      | some k =>
        rw [hi] at h6
        injection h6 with h7 h8
        simp only
        rw [← h7, h8]
        simp [kept, out]
      | none =>
        rw [hi] at h6
        injection h6 with h7 h8
        simp only
        rw [← h7, ← h8, kept_nodrop (by simp), List.take_length, List.nil_append]
        simp only [List.length_eq_zero_iff]
        split <;> rfl

theorem readterm_ok (sp) {B : Nat} {f : Rd} {d : List Byte} (hw : WF B f) (hd : d.length < B) :
    ∃ f' o, perform sp (.readterm d) f = .ok (f', o) ∧ OpOk sp B (.readterm d) f f' o := by
  simp only [perform, readterm]
  by_cases hd0 : d = []
  · subst hd0
    refine ⟨f, _, rfl, ⟨hw, ⟨[], rfl, rfl, ?_⟩, fun hc => ⟨hc, rfl⟩⟩⟩
    intro k hk; injection hk with hk; subst hk; rfl
  · obtain ⟨f', r, h1, h2, ⟨cs, h3, h4⟩, h5⟩ := readdelim_spec .keep hw hd0 hd
    rw [h1]
    refine ⟨f', _, rfl, ⟨h2, ⟨cs, h3, ?_⟩, fun hc => ⟨(h5 hc).1, ?_⟩⟩⟩
    · cases r with
      | ok l => simpa [Told, Shows, out] using h4.1 l rfl
      | error e =>
        intro he; subst he
        simpa [Told] using h4.2 rfl
    · have h6 := (h5 hc).2
      rw [spec, if_neg hd0]
      unfold delimSpec at h6
      cases hi : firstIdx d f.pend with
      | some k =>
        rw [hi] at h6
        injection h6 with h7 h8
        simp only
        rw [← h7, h8]
        simp [kept, out]
      | none =>
        rw [hi] at h6
        injection h6 with h7 h8
        simp only
        rw [← h7, ← h8, kept_nodrop (by simp), List.take_length, List.nil_append]
        simp only [List.length_eq_zero_iff]
        split <;> rfl

theorem skipto_ok (sp) {B : Nat} {f : Rd} {d : List Byte} (hw : WF B f) (hd : d.length < B) :
    ∃ f' o, perform sp (.skipto d) f = .ok (f', o) ∧ OpOk sp B (.skipto d) f f' o := by
  simp only [perform, skipto]
  by_cases hd0 : d = []
  · subst hd0
    exact ⟨f, _, rfl, ⟨hw, ⟨[], rfl, trivial⟩, fun hc => ⟨hc, rfl⟩⟩⟩
  · obtain ⟨f', r, h1, h2, ⟨cs, h3, h4⟩, h5⟩ := readdelim_spec .drop hw hd0 hd
    rw [h1, Res.bind_ok]
    have hs : ∀ b, (Calm f → Calm f' ∧ spec sp (.skipto d) f.pend = (.flag b, f'.pend)) →
        OpOk sp B (.skipto d) f f' (.flag b) := fun b hb => ⟨h2, ⟨cs, h3, trivial⟩, hb⟩
    cases r with
    | ok l =>
      refine ⟨f', _, rfl, hs true fun hc => ⟨(h5 hc).1, ?_⟩⟩
      have h6 := (h5 hc).2
      rw [spec, if_neg hd0]
      unfold delimSpec at h6
      cases hi : firstIdx d f.pend with
      | some k =>
        rw [hi] at h6
        injection h6 with h7 h8
        simp only [h8]
      | none =>
        rw [hi] at h6
        injection h6 with h7 h8
        simp [kept] at h7
    | error e =>
      refine ⟨f', _, rfl, hs false fun hc => ⟨(h5 hc).1, ?_⟩⟩
      have h6 := (h5 hc).2
      rw [spec, if_neg hd0]
      unfold delimSpec at h6
      cases hi : firstIdx d f.pend with
      | some k =>
        rw [hi] at h6
        injection h6 with h7 h8
        cases h7
      | none =>
        rw [hi] at h6
        injection h6 with h7 h8
        simp only [h8]

end Verif.Bio
