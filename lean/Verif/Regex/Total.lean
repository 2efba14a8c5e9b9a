import Verif.Regex.Groups

/-! # The parser and the code generator end -/

set_option linter.unusedTactic false

namespace Verif.Regex
open Verif.Utf

/-- Does not run forever. -/
def Ends {α : Type} (r : Res α) : Prop := r ≠ .spin

theorem Ends.bind {α β : Type} {r : Res α} {f : α → Res β} (h : Ends r) (hf : ∀ a, r = .ok a → Ends (f a)) : Ends (r >>= f) := by
  cases r with
  | ok a => rw [Res.bind_ok]; exact hf a rfl
  | abort => rw [Res.bind_abort]; simp [Ends]
  | ub => rw [Res.bind_ub]; simp [Ends]
  | spin => exact absurd rfl h

theorem Ends.ok {α : Type} (a : α) : Ends (Res.ok a) := by simp [Ends]

variable {pat : List Byte} {st : St}

theorem peekc_cases (pat : List Byte) (st : St) : (peekc pat st = .ub ∧ pat.length < st.idx) ∨
    ∃ c, peekc pat st = .ok c ∧ st.idx ≤ pat.length := by
  unfold peekc
  by_cases h : st.idx ≤ pat.length
  · right
    rw [slice_suffix h]
    simp only [Res.bind_ok]
    by_cases hn : pat.drop st.idx = []
    · rw [hn]; exact ⟨Badchar, by rfl, h⟩
    · obtain ⟨c, hc, -⟩ := decode_total _ hn
      exact ⟨c, hc, h⟩
  · left
    refine ⟨?_, by omega⟩
    have : slice pat st.idx pat.length = .ub := by
      unfold slice
      rw [if_neg (by (try dsimp only); omega), if_pos (by (try dsimp only); omega)]
    rw [this]
    rfl

/-- The position moved on, if that is so for the start. -/
theorem getc_post {c : Char32} {st' : St} (h : getc pat st = .ok (c, st')) : st.idx < st'.idx ∧ st.idx ≤ pat.length := by
  unfold getc at h
  rcases peekc_cases pat st with ⟨e, -⟩ | ⟨d, e, hi⟩
  · rw [e] at h; cases h
  · rw [e] at h
    simp only [Res.bind_ok, Res.pure_eq, Res.ok.injEq, Prod.mk.injEq] at h
    obtain ⟨rfl, rfl⟩ := h
    have := charlen_pos d
    exact ⟨by simp; omega, hi⟩

theorem getc_ends (pat : List Byte) (st : St) : Ends (getc pat st) := by
  unfold getc
  rcases peekc_cases pat st with ⟨e, -⟩ | ⟨d, e, hi⟩ <;> rw [e] <;> simp [Ends]

theorem matchc_post {c : Char32} {b : Bool} {st' : St} (h : matchc pat st c = .ok (b, st')) :
    st.idx ≤ st'.idx ∧ st.idx ≤ pat.length ∧ (b = true → st.idx < st'.idx) := by
  unfold matchc at h
  rcases peekc_cases pat st with ⟨e, -⟩ | ⟨d, e, hi⟩
  · rw [e] at h; cases h
  · rw [e] at h
    simp only [Res.bind_ok] at h
    split at h
    · simp only [Res.pure_eq, Res.ok.injEq, Prod.mk.injEq] at h
      obtain ⟨rfl, rfl⟩ := h
      simp [hi]
    · simp only [Res.pure_eq, Res.ok.injEq, Prod.mk.injEq] at h
      obtain ⟨rfl, rfl⟩ := h
      have := charlen_pos d
      exact ⟨by simp, hi, fun _ => by simp; omega⟩

theorem matchc_ends (pat : List Byte) (st : St) (c : Char32) : Ends (matchc pat st c) := by
  unfold matchc
  rcases peekc_cases pat st with ⟨e, -⟩ | ⟨d, e, hi⟩ <;> rw [e]
  · simp [Ends]
  · simp only [Res.bind_ok]
    split <;> simp [Ends]

/-- Ends; and a result lies at or after `st`, a tree after it. -/
def Fine (pat : List Byte) (st : St) (r : Res (PR × St)) : Prop :=
  Ends r ∧ ∀ v st', r = .ok (v, st') → st.idx ≤ st'.idx ∧ (∀ t, v = .some t → st.idx < st'.idx ∧ st.idx ≤ pat.length)

theorem Fine.here {r : PR} {st st' : St} (h : st.idx < st'.idx) (hp : st.idx ≤ pat.length) : Fine pat st (.ok (r, st')) := by
  refine ⟨Ends.ok _, fun v s h' => ?_⟩
  simp only [Res.ok.injEq, Prod.mk.injEq] at h'
  obtain ⟨rfl, rfl⟩ := h'
  exact ⟨by omega, fun _ _ => ⟨h, hp⟩⟩

theorem Fine.err {e : Err} {st st' : St} (h : st.idx ≤ st'.idx) : Fine pat st (.ok (.err e, st')) := by
  refine ⟨Ends.ok _, fun v s h' => ?_⟩
  simp only [Res.ok.injEq, Prod.mk.injEq] at h'
  obtain ⟨rfl, rfl⟩ := h'
  exact ⟨h, by simp⟩

theorem Fine.none {st st' : St} (h : st.idx ≤ st'.idx) : Fine pat st (.ok (.none, st')) := by
  refine ⟨Ends.ok _, fun v s h' => ?_⟩
  simp only [Res.ok.injEq, Prod.mk.injEq] at h'
  obtain ⟨rfl, rfl⟩ := h'
  exact ⟨h, by simp⟩

theorem Fine.bind {α : Type} {r : Res α} {f : α → Res (PR × St)} (h : Ends r) (hf : ∀ a, r = .ok a → Fine pat st (f a)) :
    Fine pat st (r >>= f) := by
  cases r with
  | ok a => rw [Res.bind_ok]; exact hf a rfl
  | abort => rw [Res.bind_abort]; exact ⟨by simp [Ends], by intro _ _ h; cases h⟩
  | ub => rw [Res.bind_ub]; exact ⟨by simp [Ends], by intro _ _ h; cases h⟩
  | spin => exact absurd rfl h

theorem Fine.ite {c : Prop} [Decidable c] {a b : Res (PR × St)} (h1 : c → Fine pat st a) (h2 : ¬ c → Fine pat st b) :
    Fine pat st (if c then a else b) := by
  by_cases h : c
  · rw [if_pos h]; exact h1 h
  · rw [if_neg h]; exact h2 h

theorem Fine.ub : Fine pat st .ub := ⟨by simp [Ends], by intro _ _ h; cases h⟩

theorem Fine.weaken {st st1 : St} {r : Res (PR × St)} (h : Fine pat st1 r) (h1 : st.idx < st1.idx) (hp : st.idx ≤ pat.length) :
    Fine pat st r :=
  ⟨h.1, fun v s hv => ⟨by have := (h.2 v s hv).1; omega, fun _ _ => ⟨by have := (h.2 v s hv).1; omega, hp⟩⟩⟩

theorem rangematch_ends (pat : List Byte) (st : St) : Ends (rangematch pat st) := by
  unfold rangematch
  refine (getc_ends pat st).bind fun ⟨lo, st1⟩ _ => (matchc_ends pat st1 _).bind fun ⟨b, st2⟩ _ => ?_
  simp only
  unfold rangehi
  split
  · exact (getc_ends pat st2).bind fun ⟨_, _⟩ _ => Ends.ok _
  · exact Ends.ok _

theorem rangematch_post {r : Rng} {st' : St} (h : rangematch pat st = .ok (r, st')) : st.idx < st'.idx ∧ st.idx ≤ pat.length := by
  unfold rangematch at h
  obtain ⟨⟨lo, st1⟩, h1, h⟩ := Res.bind_eq_ok.mp h
  obtain ⟨⟨b, st2⟩, h2, h⟩ := Res.bind_eq_ok.mp h
  have p1 := getc_post h1
  have p2 := matchc_post h2
  simp only at h
  unfold rangehi at h
  split at h
  · obtain ⟨⟨hi, st3⟩, h3, h⟩ := Res.bind_eq_ok.mp h
    have p3 := getc_post h3
    simp only [Res.pure_eq, Res.ok.injEq, Prod.mk.injEq] at h
    obtain ⟨-, rfl⟩ := h
    omega
  · simp only [Res.pure_eq, Res.ok.injEq, Prod.mk.injEq] at h
    obtain ⟨-, rfl⟩ := h
    omega

theorem classloop_ends (pat : List Byte) (fuel : Nat) : ∀ st rl, pat.length + 1 - st.idx < fuel → Ends (classloop pat fuel st rl) := by
  induction fuel with
  | zero => intro st rl h; omega
  | succ fuel ih =>
    intro st rl h
    rw [classloop]
    rcases peekc_cases pat st with ⟨e, -⟩ | ⟨d, e, hi⟩ <;> rw [e]
    · simp [Ends]
    · simp only [Res.bind_ok]
      split
      · rename_i hc
        refine (rangematch_ends pat st).bind fun ⟨r, st1⟩ h1 => ?_
        have := rangematch_post h1
        exact ih _ _ (by have := hc.2; dsimp only; omega)
      · exact Ends.ok _

theorem classloop_post {fuel : Nat} : ∀ {st rl rl' st'}, classloop pat fuel st rl = .ok (rl', st') → st.idx ≤ st'.idx := by
  induction fuel with
  | zero => intro st rl rl' st' h; simp [classloop] at h
  | succ fuel ih =>
    intro st rl rl' st' h
    rw [classloop] at h
    obtain ⟨c, -, h⟩ := Res.bind_eq_ok.mp h
    split at h
    · obtain ⟨⟨r, st1⟩, h1, h⟩ := Res.bind_eq_ok.mp h
      have := rangematch_post h1
      have := ih h
      omega
    · simp only [Res.pure_eq, Res.ok.injEq, Prod.mk.injEq] at h
      obtain ⟨-, rfl⟩ := h
      exact Nat.le_refl _

theorem sort_ends (rl : List Rng) : Ends (Sort.sort rngcmp rl) := by
  obtain ⟨l, h, -⟩ := Sort.sort_total rngcmp rl
  rw [h]
  exact Ends.ok _

theorem chrclass_fine (pat : List Byte) (fuel : Nat) (st : St) (hf : pat.length + 1 - st.idx ≤ fuel) : Fine pat st (chrclass pat fuel st) := by
  unfold chrclass
  refine Fine.bind (matchc_ends _ _ _) fun ⟨b0, st1⟩ h1 => Fine.bind (matchc_ends _ _ _) fun ⟨neg, st2⟩ h2 =>
    Fine.bind (rangematch_ends _ _) fun ⟨r, st3⟩ h3 => ?_
  have p1 := matchc_post h1
  have p2 := matchc_post h2
  have p3 := rangematch_post h3
  refine Fine.bind (classloop_ends pat fuel _ _ (by (try dsimp only); omega)) fun ⟨rl, st4⟩ h4 => ?_
  have p4 := classloop_post h4
  unfold classend
  refine Fine.bind (matchc_ends _ _ _) fun ⟨b, st5⟩ h5 => ?_
  have p5 := matchc_post h5
  simp only
  split
  · exact Fine.err (by (try dsimp only); omega)
  · exact Fine.bind (sort_ends _) fun _ _ => Fine.here (by (try dsimp only); omega) (by (try dsimp only); omega)

theorem uniloop_ends (pat : List Byte) (fuel : Nat) : ∀ st v, pat.length + 1 - st.idx < fuel → Ends (uniloop pat fuel st v) := by
  induction fuel with
  | zero => intro st v h; omega
  | succ fuel ih =>
    intro st v h
    rw [uniloop]
    refine (getc_ends pat st).bind fun ⟨c, st1⟩ h1 => ?_
    have := getc_post h1
    simp only
    split
    · exact ih _ _ (by (try dsimp only); omega)
    · exact Ends.ok _

theorem uniloop_post {fuel : Nat} : ∀ {st v v' st'}, uniloop pat fuel st v = .ok (v', st') → st.idx ≤ st'.idx := by
  induction fuel with
  | zero => intro st v v' st' h; simp [uniloop] at h
  | succ fuel ih =>
    intro st v v' st' h
    rw [uniloop] at h
    obtain ⟨⟨c, st1⟩, h1, h⟩ := Res.bind_eq_ok.mp h
    have := getc_post h1
    simp only at h
    split at h
    · have := ih h
      omega
    · simp only [Res.pure_eq, Res.ok.injEq, Prod.mk.injEq] at h
      obtain ⟨-, rfl⟩ := h
      exact Nat.le_refl _

theorem nameloop_ends (pat : List Byte) (fuel : Nat) : ∀ st n, pat.length + 1 - st.idx < fuel → Ends (nameloop pat fuel st n) := by
  induction fuel with
  | zero => intro st v h; omega
  | succ fuel ih =>
    intro st n h
    rw [nameloop]
    split
    · refine (getc_ends pat st).bind fun ⟨c, st1⟩ h1 => ?_
      have := getc_post h1
      simp only
      split
      · exact Ends.ok _
      · exact ih _ _ (by (try dsimp only); omega)
    · exact Ends.ok _

theorem nameloop_post {fuel : Nat} : ∀ {st n n' st'}, nameloop pat fuel st n = .ok (n', st') → st.idx ≤ st'.idx := by
  induction fuel with
  | zero => intro st v v' st' h; simp [nameloop] at h
  | succ fuel ih =>
    intro st v v' st' h
    rw [nameloop] at h
    split at h
    · obtain ⟨⟨c, st1⟩, h1, h⟩ := Res.bind_eq_ok.mp h
      have := getc_post h1
      simp only at h
      split at h
      · simp only [Res.pure_eq, Res.ok.injEq, Prod.mk.injEq] at h
        obtain ⟨-, rfl⟩ := h
        omega
      · have := ih h
        omega
    · simp only [Res.pure_eq, Res.ok.injEq, Prod.mk.injEq] at h
      obtain ⟨-, rfl⟩ := h
      exact Nat.le_refl _

theorem slice_ends (s : List Byte) (lo hi : Nat) : Ends (slice s lo hi) := by
  unfold slice; split <;> (try split) <;> simp [Ends]

theorem classnamed_fine (tabs : List Byte → Option (List Rng)) (neg : Bool) (s : List Byte) (n : Nat) {st st1 : St}
    (h : st.idx < st1.idx) (hp : st.idx ≤ pat.length) : Fine pat st (classnamed tabs neg s n st1) := by
  unfold classnamed
  refine Fine.bind (slice_ends _ _ _) fun s' _ => ?_
  split
  · exact Fine.err (by (try dsimp only); omega)
  · exact Fine.here h hp

theorem escaped_fine (tabs : List Byte → Option (List Rng)) (pat : List Byte) (fuel : Nat) (st : St) (hf : pat.length + 1 - st.idx ≤ fuel) :
    Fine pat st (escaped tabs pat fuel st) := by
  unfold escaped
  refine Fine.bind (getc_ends _ _) fun ⟨c, st1⟩ h1 => ?_
  have p1 := getc_post h1
  have uc : ∀ neg, Fine pat st (unicodeclass tabs pat fuel st1 neg) := by
    intro neg
    unfold unicodeclass
    split
    · exact Fine.err (by (try dsimp only); omega)
    · refine Fine.bind (slice_ends _ _ _) fun s _ => Fine.bind (getc_ends _ _) fun ⟨c, st2⟩ h2 => ?_
      have p2 := getc_post h2
      simp only
      split
      · refine Fine.bind (slice_ends _ _ _) fun s _ => Fine.bind (nameloop_ends _ _ _ _ (by (try dsimp only); omega)) fun ⟨n, st3⟩ h3 => ?_
        have p3 := nameloop_post h3
        exact classnamed_fine _ _ _ _ (by (try dsimp only); omega) (by (try dsimp only); omega)
      · exact classnamed_fine _ _ _ _ (by (try dsimp only); omega) (by (try dsimp only); omega)
  simp only
  split
  · exact uc false
  split
  · exact uc true
  split
  · unfold unichar
    refine Fine.bind (matchc_ends _ _ _) fun ⟨b, st2⟩ h2 => ?_
    have p2 := matchc_post h2
    simp only
    split
    · exact Fine.err (by (try dsimp only); omega)
    · refine Fine.bind (uniloop_ends _ _ _ _ (by have := p2.2.2; simp_all; omega)) fun ⟨v, st3⟩ h3 => Fine.bind (matchc_ends _ _ _) fun ⟨b, st4⟩ h4 => ?_
      have p3 := uniloop_post h3
      have p4 := matchc_post h4
      dsimp only at p4
      simp only
      split
      · exact Fine.err (by (try dsimp only); omega)
      · exact Fine.here (by (try dsimp only); omega) (by (try dsimp only); omega)
  · exact Fine.here (by (try dsimp only); omega) (by (try dsimp only); omega)

theorem repend_fine {st1 : St} {v : PR} (h : st.idx ≤ st1.idx) (hv : ∀ t, v = .some t → st.idx < st1.idx ∧ st.idx ≤ pat.length) :
    Fine pat st (repend pat (v, st1)) := by
  cases v with
  | none => exact Fine.none h
  | err e => exact Fine.err h
  | some t =>
    have hv := hv t rfl
    unfold repend
    refine Fine.bind (matchc_ends _ _ _) fun ⟨b, st2⟩ h2 => ?_
    have p2 := matchc_post h2
    simp only
    split
    · refine Fine.bind (matchc_ends _ _ _) fun ⟨b, st3⟩ h3 => ?_
      have p3 := matchc_post h3
      exact Fine.here (by (try dsimp only); omega) (by (try dsimp only); omega)
    · refine Fine.bind (matchc_ends _ _ _) fun ⟨b, st3⟩ h3 => ?_
      have p3 := matchc_post h3
      simp only
      split
      · refine Fine.bind (matchc_ends _ _ _) fun ⟨b, st4⟩ h4 => ?_
        have p4 := matchc_post h4
        exact Fine.here (by (try dsimp only); omega) (by (try dsimp only); omega)
      · refine Fine.bind (matchc_ends _ _ _) fun ⟨b, st4⟩ h4 => ?_
        have p4 := matchc_post h4
        exact Fine.here (by (try dsimp only); omega) (by (try dsimp only); omega)

theorem expr_fine (tabs : List Byte → Option (List Rng)) (pat : List Byte) (fuel : Nat) : ∀ st : St,
    (4 * (pat.length + 1 - st.idx) + 1 ≤ fuel → Fine pat st (baseexpr tabs pat fuel st)) ∧
    (4 * (pat.length + 1 - st.idx) + 2 ≤ fuel → Fine pat st (repexpr tabs pat fuel st)) ∧
    (4 * (pat.length + 1 - st.idx) + 3 ≤ fuel → Fine pat st (catexpr tabs pat fuel st)) ∧
    (4 * (pat.length + 1 - st.idx) + 4 ≤ fuel → Fine pat st (altexpr tabs pat fuel st)) := by
  induction fuel with
  | zero => intro st; refine ⟨?_, ?_, ?_, ?_⟩ <;> (intro h; omega)
  | succ fuel ih =>
    intro st
    refine ⟨fun hf => ?_, fun hf => ?_, fun hf => ?_, fun hf => ?_⟩
    · rw [baseexpr]
      refine Fine.ite (fun _ => Fine.none (by omega)) fun _ => ?_
      · rcases peekc_cases pat st with ⟨e, -⟩ | ⟨c, e, hi⟩ <;> rw [e]
        · exact Fine.ub
        · rw [Res.bind_ok]
          have one : ∀ v : PR, Fine pat st (getc pat st >>= fun p => pure (v, p.2)) := fun v =>
            Fine.bind (getc_ends _ _) fun ⟨_, st1⟩ h1 => Fine.here (getc_post h1).1 (getc_post h1).2
          refine Fine.ite (fun _ => Fine.none (by (try dsimp only); omega)) fun _ => ?_
          refine Fine.ite (fun _ => Fine.none (by (try dsimp only); omega)) fun _ => ?_
          refine Fine.ite (fun _ => Fine.err (by (try dsimp only); omega)) fun _ => ?_
          refine Fine.ite (fun _ => Fine.err (by (try dsimp only); omega)) fun _ => ?_
          refine Fine.ite (fun _ => Fine.err (by (try dsimp only); omega)) fun _ => ?_
          refine Fine.ite (fun _ => chrclass_fine _ _ _ (by (try dsimp only); omega)) fun _ => ?_
          refine Fine.ite (fun _ => one _) fun _ => ?_
          refine Fine.ite (fun _ => one _) fun _ => ?_
          refine Fine.ite (fun _ => one _) fun _ => ?_
          refine Fine.ite (fun _ => ?_) fun _ => ?_
          · unfold groupstart
            refine Fine.bind ?_ fun ⟨g, st1⟩ h1 => ?_
            · refine Ends.bind (getc_ends _ _) fun ⟨_, st1⟩ _ => Ends.bind (matchc_ends _ _ _) fun ⟨b, st2⟩ _ => ?_
              simp only
              split
              · exact Ends.bind (matchc_ends _ _ _) fun _ _ => Ends.ok _
              · exact Ends.ok _
            · have p1 : st.idx < st1.idx := by
                obtain ⟨⟨_, s1⟩, h1, h⟩ := Res.bind_eq_ok.mp h1
                obtain ⟨⟨b, s2⟩, h2, h⟩ := Res.bind_eq_ok.mp h
                have p1 := getc_post h1
                have p2 := matchc_post h2
                simp only at h
                split at h
                · obtain ⟨⟨b, s3⟩, h3, h⟩ := Res.bind_eq_ok.mp h
                  have p3 := matchc_post h3
                  simp only [Res.pure_eq, Res.ok.injEq, Prod.mk.injEq] at h
                  obtain ⟨-, rfl⟩ := h
                  omega
                · simp only [Res.pure_eq, Res.ok.injEq, Prod.mk.injEq] at h
                  obtain ⟨-, rfl⟩ := h
                  simp only
                  omega
              cases g with
              | none => exact Fine.err (by (try dsimp only); omega)
              | some g =>
                obtain ⟨nocap, m⟩ := g
                have hA := (ih st1).2.2.2 (by (try dsimp only); omega)
                refine Fine.bind hA.1 fun ⟨v, st2⟩ h2 => ?_
                have p2 := (hA.2 v st2 h2).1
                cases v with
                | none => exact Fine.err (by (try dsimp only); omega)
                | err e => exact Fine.err (by (try dsimp only); omega)
                | some t =>
                  unfold groupend
                  refine Fine.bind (matchc_ends _ _ _) fun ⟨b, st3⟩ h3 => ?_
                  have p3 := matchc_post h3
                  simp only
                  split
                  · exact Fine.here (by (try dsimp only); omega) (by (try dsimp only); omega)
                  · exact Fine.err (by (try dsimp only); omega)
          refine Fine.ite (fun _ => ?_) fun _ => ?_
          · refine Fine.bind (getc_ends _ _) fun ⟨_, st1⟩ h1 => ?_
            have p1 := getc_post h1
            simp only
            split
            · exact Fine.err (by (try dsimp only); omega)
            · exact (escaped_fine tabs pat fuel st1 (by (try dsimp only); omega)).weaken p1.1 p1.2
          · exact one _
    · rw [repexpr]
      have hB := (ih st).1 (by (try dsimp only); omega)
      refine Fine.bind hB.1 fun ⟨v, st1⟩ h1 => ?_
      exact repend_fine (hB.2 v st1 h1).1 (hB.2 v st1 h1).2
    · rw [catexpr]
      have hB := (ih st).2.1 (by (try dsimp only); omega)
      refine Fine.bind hB.1 fun ⟨v, st1⟩ h1 => ?_
      have hp := hB.2 v st1 h1
      cases v with
      | none => exact Fine.none hp.1
      | err e => exact Fine.err hp.1
      | some t =>
        have hq := hp.2 t rfl
        have hC := (ih st1).2.2.1 (by (try dsimp only); omega)
        refine Fine.bind hC.1 fun ⟨v, st2⟩ h2 => ?_
        have p2 := (hC.2 v st2 h2).1
        cases v with
        | none => exact Fine.here (by (try dsimp only); omega) (by (try dsimp only); omega)
        | err e => exact Fine.err (by (try dsimp only); omega)
        | some t => exact Fine.here (by (try dsimp only); omega) (by (try dsimp only); omega)
    · rw [altexpr]
      have hB := (ih st).2.2.1 (by (try dsimp only); omega)
      refine Fine.bind hB.1 fun ⟨v, st1⟩ h1 => ?_
      have hp := hB.2 v st1 h1
      cases v with
      | none => exact Fine.none hp.1
      | err e => exact Fine.err hp.1
      | some t =>
        have hq := hp.2 t rfl
        refine Fine.bind (matchc_ends _ _ _) fun ⟨b, st2⟩ h2 => ?_
        have p2 := matchc_post h2
        simp only
        split
        · have hC := (ih st2).2.2.2 (by (try dsimp only); omega)
          refine Fine.bind hC.1 fun ⟨v, st3⟩ h3 => ?_
          have p3 := (hC.2 v st3 h3).1
          cases v with
          | none => exact Fine.err (by (try dsimp only); omega)
          | err e => exact Fine.err (by (try dsimp only); omega)
          | some t => exact Fine.here (by (try dsimp only); omega) (by (try dsimp only); omega)
        · exact Fine.here (by (try dsimp only); omega) (by (try dsimp only); omega)

/-- The parser ends on every byte string. -/
theorem regexparse_ends (tabs : List Byte → Option (List Rng)) (pat : List Byte) (fuel : Nat) (h : 4 * pat.length + 8 ≤ fuel) :
    Ends (regexparse tabs pat fuel) := by
  unfold regexparse
  refine ((expr_fine tabs pat fuel _).2.2.2 (by simp only; omega)).1.bind fun ⟨v, st⟩ _ => ?_
  cases v with
  | none => exact Ends.ok _
  | err e => exact Ends.ok _
  | some t => simp only; split <;> exact Ends.ok _

/-! ## The code generator -/

theorem rdChk_ends {α : Type} (l : List α) (i : Nat) : Ends (rdChk l i) := by
  unfold rdChk; split <;> simp [Ends]

theorem wrChk_ends {α : Type} (l : List α) (i : Nat) (v : α) : Ends (wrChk l i v) := by
  unfold wrChk; split <;> simp [Ends]

theorem encLoop_ends (n : Nat) : ∀ (b : List Byte) (c : Char32), Ends (encLoop n b c) := by
  induction n with
  | zero => intro b c; exact Ends.ok _
  | succ n ih =>
    intro b c
    rw [encLoop]
    exact (wrChk_ends _ _ _).bind fun _ _ => ih _ _

theorem encode_ends (b : List Byte) (c : Char32) : Ends (encode b c) := by
  unfold encode
  simp only
  split
  · exact Ends.ok _
  · exact (encLoop_ends _ _ _).bind fun _ _ => (wrChk_ends _ _ _).bind fun _ _ => Ends.ok _

theorem genchar_ends (p : List Inst) (c : Char32) : Ends (genchar p c) := by
  unfold genchar
  refine (encode_ends _ _).bind fun ⟨n, b⟩ _ => ?_
  simp only
  split <;> simp [Ends]

theorem rtinsert_ends (lo : List Byte) : ∀ (hi : List Byte) (t : Trie), Ends (rtinsert lo hi t) := by
  induction lo with
  | nil => intro hi t; cases hi <;> simp [rtinsert, Ends]
  | cons l lo ih =>
    intro hi t
    cases hi with
    | nil => simp [rtinsert, Ends]
    | cons h hi =>
      rw [rtinsert]
      split
      · split
        · exact (ih _ _).bind fun _ _ => Ends.ok _
        · exact (ih _ _).bind fun _ _ => Ends.ok _
      · exact (ih _ _).bind fun _ _ => Ends.ok _

theorem boundloop_ends (hi : List Byte) (n : Nat) : ∀ (i : Nat) (lo : List Byte) (t : Trie), Ends (boundloop hi n i lo t) := by
  induction n with
  | zero => intro i lo t; exact rtinsert_ends _ _ _
  | succ n ih => intro i lo t; rw [boundloop]; exact (rtinsert_ends _ _ _).bind fun _ _ => ih _ _ _

theorem insertall_ends (rl : List Rng) : ∀ t, Ends (insertall rl t) := by
  induction rl with
  | nil => intro t; exact Ends.ok _
  | cons r rl ih =>
    intro t
    rw [insertall]
    refine Ends.bind ?_ fun _ _ => ih _
    unfold insertrange encbytes
    exact ((encode_ends _ _).bind fun _ _ => Ends.ok _).bind fun _ _ => ((encode_ends _ _).bind fun _ _ => Ends.ok _).bind fun _ _ =>
      boundloop_ends _ _ _ _ _

theorem rangegen_ends (e : Nat) (fuel : Nat) : ∀ (ch : List (Byte × Byte × Trie)) (p : List Inst), csize ch < fuel → Ends (rangegen e fuel ch p) := by
  induction fuel with
  | zero => intro ch p h; omega
  | succ fuel ih =>
    intro ch p hf
    match ch with
    | [] => exact Ends.ok _
    | [(x, y, t)] =>
      rw [rangegen]
      refine ih _ _ ?_
      have hcs : csize [(x, y, t)] = 1 + rangeprogsize t := by simp [csize, sizes]
      rw [hcs, progsize] at hf
      omega
    | c1 :: c2 :: ch =>
      obtain ⟨L, hL⟩ : ∃ L, L = c1 :: c2 :: ch := ⟨_, rfl⟩
      have hlen : 2 ≤ L.length := by simp [hL]
      have hLd : L.take (L.length / 2) ++ L.drop (L.length / 2) = L := List.take_append_drop _ _
      obtain ⟨A, hA⟩ : ∃ A, A = L.take (L.length / 2) := ⟨_, rfl⟩
      obtain ⟨B, hB⟩ : ∃ B, B = L.drop (L.length / 2) := ⟨_, rfl⟩
      have hAl : A.length = L.length / 2 := by rw [hA]; simp; omega
      have hBl : B.length = L.length - L.length / 2 := by rw [hB]; simp
      rw [← hA, ← hB] at hLd
      have hs : csize L = csize A + csize B + 1 := by
        unfold csize
        rw [if_neg (by omega), if_neg (by omega), if_neg (by omega), hAl, hBl, ← hLd, sizes_append]
        rw [hLd]
        omega
      rw [← hL] at hf
      rw [rangegen.eq_def]
      simp only [append]
      rw [← hL, ← hA, ← hB]
      exact (ih A _ (by omega)).bind fun _ _ => (ih B _ (by omega)).bind fun _ _ => wrChk_ends _ _ _

/-- The code generator ends for every tree. -/
theorem gen_ends (t : Ast) : ∃ N, ∀ fuel, N ≤ fuel → ∀ p, Ends (gen fuel t p) := by
  have star : ∀ (g : List Inst → Res (List Inst)) (r : Bool) (p : List Inst), (∀ p, Ends (g p)) → Ends (genstar g r p) := by
    intro g r p h
    unfold genstar
    exact (h _).bind fun _ _ => (wrChk_ends _ _ _).bind fun _ _ => wrChk_ends _ _ _
  induction t with
  | chr c => exact ⟨0, fun _ _ p => genchar_ends p c⟩
  | bol => exact ⟨0, fun _ _ p => Ends.ok _⟩
  | eol => exact ⟨0, fun _ _ p => Ends.ok _⟩
  | bow => exact ⟨0, fun _ _ p => Ends.ok _⟩
  | eow => exact ⟨0, fun _ _ p => Ends.ok _⟩
  | ranges rl =>
    cases hi : insertall rl Trie.empty with
    | ok t =>
      refine ⟨csize t.ch + 1, fun fuel hf p => ?_⟩
      simp only [gen, genranges, hi, Res.bind_ok]
      exact rangegen_ends _ _ _ _ (by omega)
    | abort => exact ⟨0, fun fuel hf p => by simp [gen, genranges, hi, Ends]⟩
    | ub => exact ⟨0, fun fuel hf p => by simp [gen, genranges, hi, Ends]⟩
    | spin => exact absurd hi (insertall_ends rl Trie.empty)
  | cat a b iha ihb =>
    obtain ⟨N1, h1⟩ := iha
    obtain ⟨N2, h2⟩ := ihb
    exact ⟨max N1 N2, fun fuel hf p => (h1 fuel (by omega) p).bind fun q _ => h2 fuel (by omega) q⟩
  | alt a b iha ihb =>
    obtain ⟨N1, h1⟩ := iha
    obtain ⟨N2, h2⟩ := ihb
    refine ⟨max N1 N2, fun fuel hf p => ?_⟩
    simp only [gen, genalt]
    exact (h1 fuel (by omega) _).bind fun q _ => (h2 fuel (by omega) _).bind fun _ _ => (wrChk_ends _ _ _).bind fun _ _ => wrChk_ends _ _ _
  | star a r ih =>
    obtain ⟨N, h⟩ := ih
    exact ⟨N, fun fuel hf p => star _ _ _ (h fuel hf)⟩
  | plus a r ih =>
    obtain ⟨N, h⟩ := ih
    exact ⟨N, fun fuel hf p => (h fuel hf p).bind fun q _ => star _ _ _ (h fuel hf)⟩
  | quest a ih =>
    obtain ⟨N, h⟩ := ih
    refine ⟨N, fun fuel hf p => ?_⟩
    simp only [gen, genquest]
    exact (h fuel hf _).bind fun q _ => wrChk_ends _ _ _
  | cap m a ih =>
    obtain ⟨N, h⟩ := ih
    exact ⟨N, fun fuel hf p => (h fuel hf _).bind fun q _ => Ends.ok _⟩

end Verif.Regex
