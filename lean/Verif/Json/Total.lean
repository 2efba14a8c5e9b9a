import Verif.Json.Sound

/-!
# The parser comes back, whatever it is given
-/

namespace Verif.Json

open Utf (Char32 Badchar utf8 enc CodePoints)

/-- The code comes back with an error or with something that satisfies `Q`. -/
def Done {α : Type} (m : PM α) (Q : α → Prop) : Prop := (∃ a, m = PM.ret a ∧ Q a) ∨ ∃ e, m = PM.err e

theorem Done.ret {α : Type} {a : α} {Q : α → Prop} (h : Q a) : Done (PM.ret a) Q := .inl ⟨a, rfl, h⟩
theorem Done.err {α : Type} {e : JErr} {Q : α → Prop} : Done (PM.err e : PM α) Q := .inr ⟨e, rfl⟩
theorem Done.bind {α β : Type} {m : PM α} {f : α → PM β} {Q : α → Prop} {R : β → Prop} (h : Done m Q) (hf : ∀ a, Q a → Done (f a) R) : Done (m >>= f) R := by
  rcases h with ⟨a, rfl, ha⟩ | ⟨e, rfl⟩
  · exact hf a ha
  · exact .err
theorem Done.lift {α : Type} {m : Res α} {Q : α → Prop} (h : ∃ a, m = .ok a ∧ Q a) : Done (PM.lift m) Q := by
  obtain ⟨a, rfl, ha⟩ := h
  exact .ret ha
theorem Done.mono {α : Type} {m : PM α} {Q R : α → Prop} (h : Done m Q) (hq : ∀ a, Q a → R a) : Done m R := by
  rcases h with ⟨a, rfl, ha⟩ | ⟨e, rfl⟩
  · exact .ret (hq a ha)
  · exact .err

theorem peekc_total (r : List Byte) : ∃ c, peekc r = .ok c ∧ (r = [] → c = Badchar) := by
  by_cases h : r = []
  · subst h
    exact ⟨Badchar, rfl, fun _ => rfl⟩
  · obtain ⟨c, h1, -, -⟩ := Utf.decode_total r h
    exact ⟨c, h1, fun hh => absurd hh h⟩

theorem takec_total (r : List Byte) : ∃ t, takec r = .ok t ∧ (t.2.length ≤ r.length ∧ (r ≠ [] → t.2.length < r.length) ∧ (r = [] → t.1 = Badchar) ∧ peekc r = .ok t.1) := by
  by_cases h : r = []
  · subst h
    exact ⟨_, rfl, Nat.le_refl _, fun hh => absurd rfl hh, fun _ => rfl, rfl⟩
  · obtain ⟨c, h1, h2, h3⟩ := Utf.decode_total r h
    refine ⟨(c, r.drop (Utf.charlen c)), ?_, ?_, ?_, fun hh => absurd hh h, h1⟩
    · unfold takec
      rw [if_neg (by simpa using h), h1]
      simp only [Res.bind_ok]
      rw [slice_suffix h3]
      rfl
    · simp
    · simp only [List.length_drop]
      omega

theorem takec_some {r : List Byte} {t : Char32 × List Byte} (h : t.2.length ≤ r.length ∧ (r ≠ [] → t.2.length < r.length) ∧ (r = [] → t.1 = Badchar) ∧ peekc r = .ok t.1) (hb : t.1 ≠ Badchar) :
    t.2.length < r.length := h.2.1 fun hh => hb (h.2.2.1 hh)

theorem takespace_len (r : List Byte) : (takespace r).length ≤ r.length := by
  induction r with
  | nil => exact Nat.le_refl _
  | cons b r ih =>
    rw [takespace]
    split
    · simp only [List.length_cons]; omega
    · exact Nat.le_refl _

theorem charval16 (c : Char32) : IntFmt.charval c 16 = -1 ∨ (0 ≤ IntFmt.charval c 16 ∧ IntFmt.charval c 16 < 16) := by
  have key : ∀ v : Int, (if v < 0 ∨ v ≥ 16 then -1 else v) = -1 ∨ (0 ≤ (if v < 0 ∨ v ≥ 16 then -1 else v) ∧ (if v < 0 ∨ v ≥ 16 then -1 else v) < 16) := by
    intro v
    split
    · exact .inl rfl
    · right
      omega
  exact key _

theorem unicharLoop_total (n : Nat) : ∀ (c : Char32) (r : List Byte), n ≤ 4 → c.toNat + 240 * n ≤ 960 →
    ∃ x, unicharLoop n c r = .ok x ∧ x.2.length ≤ r.length ∧ ∀ d, x.1 = some d → d.toNat ≤ 960 := by
  induction n with
  | zero =>
    intro c r _ h
    exact ⟨_, rfl, Nat.le_refl _, fun d hd => by rw [Option.some.injEq] at hd; subst hd; omega⟩
  | succ n ih =>
    intro c r hn h
    obtain ⟨t, h1, h2, -, -⟩ := takec_total r
    rw [unicharLoop, h1]
    simp only [Res.bind_ok]
    by_cases hv : IntFmt.charval t.1 16 = -1
    · rw [if_pos hv]
      exact ⟨_, rfl, h2, fun d hd => by simp at hd⟩
    · rw [if_neg hv]
      have hv2 := (charval16 t.1).resolve_left hv
      obtain ⟨v, hv3⟩ := Int.eq_ofNat_of_zero_le hv2.1
      have hv4 : v < 16 := by omega
      have e : (c + BitVec.ofInt 32 (IntFmt.charval t.1 16) * 16#32).toNat = c.toNat + v * 16 := by
        rw [hv3, show BitVec.ofInt 32 (v : Int) = BitVec.ofNat 32 v from BitVec.ofInt_natCast .., BitVec.toNat_add, BitVec.toNat_mul]
        simp only [BitVec.toNat_ofNat]
        omega
      obtain ⟨x, h3, h4, h5⟩ := ih (c + BitVec.ofInt 32 (IntFmt.charval t.1 16) * 16#32) t.2 (by omega) (by omega)
      exact ⟨x, h3, by omega, h5⟩

theorem escape_done (r : List Byte) : Done (escape r) fun x => x.1.toNat < 0x110000 ∧ x.2.length ≤ r.length := by
  unfold escape
  refine Done.bind (Done.lift (takec_total r)) fun t ht => ?_
  cases he : simpleEsc t.1 with
  | some c => exact .ret ⟨by have := (of_simpleEsc he).2; dsimp only; omega, ht.1⟩
  | none =>
    dsimp only
    split
    · obtain ⟨x, h1, h2, h3⟩ := unicharLoop_total 4 0 t.2 (by omega) (by decide)
      refine Done.bind (Done.lift (Q := fun y => y = x) ⟨x, h1, rfl⟩) fun y hy => ?_
      subst hy
      cases hx : y.1 with
      | none => exact .err
      | some c => exact .ret ⟨by have := h3 c hx; dsimp only; omega, by dsimp only; omega⟩
    · exact .err

theorem strLoop_done (f : Nat) : ∀ (r sb : List Byte), r.length < f → Done (strLoop f r sb) fun x => x.2.length ≤ r.length := by
  induction f with
  | zero => intro r sb h; omega
  | succ f ih =>
    intro r sb hf
    rw [strLoop]
    split
    · next hr =>
      refine Done.bind (Done.lift (takec_total r)) fun t ht => ?_
      have hlt := ht.2.1 (by intro hh; subst hh; simp at hr)
      split
      · refine Done.bind (escape_done t.2) fun e he => ?_
        refine Done.bind (Q := fun _ => True) ?_ fun b _ => (ih e.2 _ (by omega)).mono fun x hx => by omega
        rw [putc_enc _ he.1]
        exact .ret trivial
      · split
        · exact .ret ht.1
        · split
          · exact .err
          · split
            · next hun =>
              refine Done.bind (Q := fun _ => True) ?_ fun b _ => (ih t.2 _ (by omega)).mono fun x hx => by omega
              rw [putc_enc _ (by have := (unescaped_iff t.1).1 hun; omega)]
              exact .ret trivial
            · exact .err
    · exact .err

theorem jsonstr_done (r : List Byte) : Done (jsonstr r) fun x => x.2.length < r.length := by
  unfold jsonstr
  refine Done.bind (Done.lift (takec_total r)) fun t ht => ?_
  split
  · next hc =>
    have := takec_some ht (by rw [hc]; decide)
    exact (strLoop_done _ _ _ (by omega)).mono fun x hx => by omega
  · exact .err

theorem skipdigits_len (r : List Byte) : (skipdigits r).2.length ≤ r.length := by
  induction r with
  | nil => exact Nat.le_refl _
  | cons b r ih =>
    rw [skipdigits]
    split
    · simp only [List.length_cons]; omega
    · exact Nat.le_refl _

/-- A part of a number, when there is one. -/
def Shrinks (r : List Byte) (x : Option (List Byte)) : Prop := ∀ y, x = some y → y.length ≤ r.length

theorem somedigits_len (r : List Byte) : Shrinks r (somedigits r) := by
  intro y hy
  unfold somedigits at hy
  split at hy
  · rw [Option.some.injEq] at hy
    subst hy
    exact skipdigits_len r
  · simp at hy

theorem tail_len (r : List Byte) : r.tail.length ≤ r.length := by simp

theorem Shrinks.of {a b : List Byte} {x : Option (List Byte)} (h : Shrinks a x) (hl : a.length ≤ b.length) : Shrinks b x := fun y hy => (h y hy).trans hl

theorem ite_tail (p : Prop) [Decidable p] (r : List Byte) : (if p then r.tail else r).length ≤ r.length := by
  split
  · exact tail_len r
  · exact Nat.le_refl _

theorem intpart_total (r : List Byte) : ∃ x, intpart r = .ok x ∧ Shrinks r x := by
  unfold intpart
  obtain ⟨c, h1, -⟩ := peekc_total r
  rw [h1]
  simp only [Res.bind_ok]
  obtain ⟨c2, h2, -⟩ := peekc_total (if c = 45#32 then r.tail else r)
  have hl := ite_tail (c = 45#32) r
  rw [h2]
  simp only [Res.bind_ok]
  split
  · refine ⟨_, rfl, fun y hy => ?_⟩
    rw [Option.some.injEq] at hy
    subst hy
    exact (tail_len _).trans hl
  · exact ⟨_, rfl, (somedigits_len _).of hl⟩

theorem fracpart_total (r : List Byte) : ∃ x, fracpart r = .ok x ∧ Shrinks r x := by
  unfold fracpart
  obtain ⟨c, h1, -⟩ := peekc_total r
  rw [h1]
  simp only [Res.bind_ok]
  split
  · exact ⟨_, rfl, (somedigits_len _).of (tail_len _)⟩
  · exact ⟨_, rfl, fun y hy => by rw [Option.some.injEq] at hy; subst hy; exact Nat.le_refl _⟩

theorem exppart_total (r : List Byte) : ∃ x, exppart r = .ok x ∧ Shrinks r x := by
  unfold exppart
  obtain ⟨c, h1, -⟩ := peekc_total r
  rw [h1]
  simp only [Res.bind_ok]
  split
  · obtain ⟨c2, h2, -⟩ := peekc_total r.tail
    rw [h2]
    simp only [Res.bind_ok]
    exact ⟨_, rfl, (somedigits_len _).of ((ite_tail _ _).trans (tail_len _))⟩
  · exact ⟨_, rfl, fun y hy => by rw [Option.some.injEq] at hy; subst hy; exact Nat.le_refl _⟩

theorem parsenum_total {F : Type} (fp : List Byte → Option F) (r : List Byte) : ∃ x, parsenum fp r = .ok x ∧ ∀ n y, x = some (n, y) → y.length ≤ r.length := by
  unfold parsenum
  obtain ⟨x1, e1, l1⟩ := intpart_total r
  rw [e1]
  simp only [Res.bind_ok]
  cases x1 with
  | none => exact ⟨_, rfl, fun n y h => by simp at h⟩
  | some r1 =>
    dsimp only
    obtain ⟨x2, e2, l2⟩ := fracpart_total r1
    rw [e2]
    simp only [Res.bind_ok]
    cases x2 with
    | none => exact ⟨_, rfl, fun n y h => by simp at h⟩
    | some r2 =>
      dsimp only
      obtain ⟨x3, e3, l3⟩ := exppart_total r2
      rw [e3]
      simp only [Res.bind_ok]
      cases x3 with
      | none => exact ⟨_, rfl, fun n y h => by simp at h⟩
      | some r3 =>
        dsimp only
        have := l1 r1 rfl
        have := l2 r2 rfl
        have := l3 r3 rfl
        cases fp (r.take (r.length - r3.length)) with
        | none => exact ⟨_, rfl, fun n y h => by simp at h⟩
        | some n =>
          refine ⟨_, rfl, fun n y h => ?_⟩
          simp only [Option.some.injEq, Prod.mk.injEq] at h
          obtain ⟨-, rfl⟩ := h
          omega

theorem matchprefix_total (r px : List Byte) : ∃ x, matchprefix r px = .ok x ∧ Shrinks r x := by
  unfold matchprefix
  obtain ⟨b, h, -⟩ := IntFmt.hasprefix_iff r px
  rw [h]
  simp only [Res.bind_ok]
  split
  · exact ⟨_, rfl, fun y hy => by rw [Option.some.injEq] at hy; subst hy; simp⟩
  · exact ⟨_, rfl, fun y hy => by simp at hy⟩

theorem scalar_done {F : Type} (fp : List Byte → Option F) (r : List Byte) (c : Char32) : Done (scalar fp r c) fun x => x.2.length ≤ r.length := by
  unfold scalar
  refine Done.bind (Done.lift (matchprefix_total r _)) fun x hx => ?_
  cases x with
  | some y => exact .ret (hx y rfl)
  | none =>
    refine Done.bind (Done.lift (matchprefix_total r _)) fun x hx => ?_
    cases x with
    | some y => exact .ret (hx y rfl)
    | none =>
      refine Done.bind (Done.lift (matchprefix_total r _)) fun x hx => ?_
      cases x with
      | some y => exact .ret (hx y rfl)
      | none =>
        dsimp only
        split
        · refine Done.bind (Done.lift (parsenum_total fp r)) fun x hx => ?_
          cases x with
          | some y => exact .ret (hx y.1 y.2 rfl)
          | none => exact .err
        · exact .err

/-- A part of the parser comes back when the fuel is enough; the text left is not longer. -/
structure Tot {F : Type} (fp : List Byte → Option F) (f : Nat) : Prop where
  elt : ∀ p : P, 3 * p.rest.length + 5 ≤ f → Done (parseelt fp f p) fun x => x.2.rest.length ≤ p.rest.length
  obj : ∀ p : P, 3 * p.rest.length + 4 ≤ f → peekc p.rest = .ok 123#32 → Done (parseobj fp f p) fun x => x.2.rest.length ≤ p.rest.length
  arr : ∀ p : P, 3 * p.rest.length + 4 ≤ f → peekc p.rest = .ok 91#32 → Done (parsearr fp f p) fun x => x.2.rest.length ≤ p.rest.length
  objL : ∀ (p : P) (acc : List (List Byte × Val F)), 3 * p.rest.length + 6 ≤ f → Done (objLoop fp f p acc) fun x => x.2.rest.length ≤ p.rest.length
  arrL : ∀ (p : P) (acc : List (Val F)), 3 * p.rest.length + 6 ≤ f → Done (arrLoop fp f p acc) fun x => x.2.rest.length ≤ p.rest.length
  memb : ∀ p : P, 3 * p.rest.length + 5 ≤ f → Done (member fp f p) fun x => x.2.rest.length ≤ p.rest.length

theorem tot {F : Type} (fp : List Byte → Option F) (f : Nat) : Tot fp f := by
  induction f with
  | zero => constructor <;> intros <;> omega
  | succ f ih =>
    constructor
    · intro p hf
      rw [parseelt]
      have hl := takespace_len p.rest
      obtain ⟨c, hc, -⟩ := peekc_total (takespace p.rest)
      rw [hc]
      simp only [PM.lift_ok, PM.ret_bind]
      split
      · next h => exact (ih.obj ⟨takespace p.rest, p.depth⟩ (by dsimp only; omega) (by rw [hc, h])).mono fun x hx => Nat.le_trans hx hl
      · split
        · next h => exact (ih.arr ⟨takespace p.rest, p.depth⟩ (by dsimp only; omega) (by rw [hc, h])).mono fun x hx => Nat.le_trans hx hl
        · split
          · exact (jsonstr_done _).bind fun s hs => .ret (by dsimp only; omega)
          · exact (scalar_done fp _ _).bind fun s hs => .ret (by dsimp only; omega)
    · intro p hf hp
      rw [parseobj]
      obtain ⟨t, h1, h2⟩ := takec_total p.rest
      have ht : t.1 = 123#32 := by rw [hp, Res.ok.injEq] at h2; exact h2.2.2.2.symm
      have hlt := takec_some h2 (by rw [ht]; decide)
      rw [h1]
      simp only [PM.lift_ok, PM.ret_bind]
      rw [if_neg (by rw [ht]; simp)]
      split
      · exact .err
      · have hl := takespace_len t.2
        obtain ⟨c, hc, -⟩ := peekc_total (takespace t.2)
        rw [hc]
        simp only [PM.lift_ok, PM.ret_bind]
        split
        · exact Done.bind (Done.lift (takec_total _)) fun u hu => .ret (by dsimp only; omega)
        · exact (ih.objL ⟨takespace t.2, p.depth + 1⟩ [] (by dsimp only; omega)).mono fun x hx => by dsimp only at hx; omega
    · intro p hf hp
      rw [parsearr]
      obtain ⟨t, h1, h2⟩ := takec_total p.rest
      have ht : t.1 = 91#32 := by rw [hp, Res.ok.injEq] at h2; exact h2.2.2.2.symm
      have hlt := takec_some h2 (by rw [ht]; decide)
      rw [h1]
      simp only [PM.lift_ok, PM.ret_bind]
      rw [if_neg (by rw [ht]; simp)]
      split
      · exact .err
      · have hl := takespace_len t.2
        obtain ⟨c, hc, -⟩ := peekc_total (takespace t.2)
        rw [hc]
        simp only [PM.lift_ok, PM.ret_bind]
        split
        · exact Done.bind (Done.lift (takec_total _)) fun u hu => .ret (by dsimp only; omega)
        · exact (ih.arrL ⟨takespace t.2, p.depth + 1⟩ [] (by dsimp only; omega)).mono fun x hx => by dsimp only at hx; omega
    · intro p acc hf
      rw [objLoop]
      obtain ⟨c, hc, -⟩ := peekc_total p.rest
      rw [hc]
      simp only [PM.lift_ok, PM.ret_bind]
      split
      · exact .ret (Nat.le_refl _)
      · refine (ih.memb p (by omega)).bind fun m hm => ?_
        have hl := takespace_len m.2.rest
        refine Done.bind (Done.lift (takec_total _)) fun t ht => ?_
        split
        · next h =>
          have hlt := takec_some ht (by rw [h]; decide)
          exact (ih.objL ⟨t.2, m.2.depth⟩ _ (by dsimp only; omega)).mono fun x hx => by dsimp only at hx; omega
        · split
          · exact .ret (by dsimp only; omega)
          · split <;> exact .err
    · intro p acc hf
      rw [arrLoop]
      refine (ih.elt p (by omega)).bind fun m hm => ?_
      have hl := takespace_len m.2.rest
      refine Done.bind (Done.lift (takec_total _)) fun t ht => ?_
      split
      · next h =>
        have hlt := takec_some ht (by rw [h]; decide)
        exact (ih.arrL ⟨t.2, m.2.depth⟩ _ (by dsimp only; omega)).mono fun x hx => by dsimp only at hx; omega
      · split
        · exact .ret (by dsimp only; omega)
        · split <;> exact .err
    · intro p hf
      rw [member]
      have hl := takespace_len p.rest
      refine (jsonstr_done _).bind fun s hs => ?_
      have hl2 := takespace_len s.2
      refine Done.bind (Done.lift (takec_total _)) fun t ht => ?_
      split
      · have hl3 := takespace_len t.2
        exact (ih.elt ⟨takespace t.2, p.depth⟩ (by dsimp only; omega)).bind fun e he => .ret (by dsimp only at he ⊢; omega)
      · exact .err

end Verif.Json
