import Verif.Dfmt.Model
import Verif.Dfmt.Spec

/-! # Lemmas on writing and reading dates -/

namespace Verif.Dfmt

open Date (Inst)
open Spec (Item render letters agree Valid fine nogap)

/-! ## Numbers -/

theorem need_ok (n : Nat) : ∀ (ds rest : List Char), n ≤ ds.length → ds.all isdigit = true →
    need n (ds ++ rest) = .ok (ds.drop n ++ rest) := by
  induction n with
  | zero => intro ds rest _ _; simp [need]
  | succ n ih =>
    intro ds rest h1 h2
    cases ds with
    | nil => simp at h1
    | cons c ds =>
      simp only [List.all_cons, Bool.and_eq_true] at h2
      rw [List.cons_append, need, if_pos h2.1, ih ds rest (by simpa using h1) h2.2]
      rfl

theorem more_ok : ∀ (ds rest : List Char), ds.all isdigit = true → more ds.length (ds ++ rest) = (ds.length, rest)
  | [], rest, _ => by simp [more]
  | c :: ds, rest, h => by
    simp only [List.all_cons, Bool.and_eq_true] at h
    rw [List.cons_append, List.length_cons, more, if_pos h.1, more_ok ds rest h.2]

theorem intval_ok (min max : Nat) (ds rest : List Char) (h : min ≤ max) (hl : ds.length = max) (hd : ds.all isdigit = true) :
    intval min max (ds ++ rest) = .ok (value ds, rest) := by
  unfold intval
  rw [need_ok min ds rest (by omega) hd]
  have hd' : (ds.drop min).all isdigit = true := by
    rw [List.all_eq_true] at hd ⊢
    exact fun x hx => hd x (List.mem_of_mem_drop hx)
  have e : max - min = (ds.drop min).length := by simp [hl]
  show Except.ok _ = _
  rw [e, more_ok _ rest hd']
  have : min + (ds.drop min).length = ds.length := by simp; omega
  dsimp only
  rw [this, List.take_left]

theorem two' : ∀ n : Fin 100, (num '0' 2 (n.val : Int)).length = 2 ∧ (num '0' 2 (n.val : Int)).all isdigit = true ∧
    value (num '0' 2 (n.val : Int)) = (n.val : Int) := by decide +kernel

theorem two (v : Int) (h0 : 0 ≤ v) (h1 : v < 100) : (num '0' 2 v).length = 2 ∧ (num '0' 2 v).all isdigit = true ∧
    value (num '0' 2 v) = v := by
  have := two' ⟨v.toNat, by omega⟩
  rwa [show ((⟨v.toNat, by omega⟩ : Fin 100).val : Int) = v from Int.toNat_of_nonneg h0] at this

theorem dig' : ∀ n : Fin 10, isdigit (Char.ofNat (48 + n.val)) = true ∧ (Char.ofNat (48 + n.val)).toNat - 48 = n.val := by
  decide +kernel

theorem dig_ok (n : Nat) : isdigit (dig n) = true ∧ (dig n).toNat - 48 = n % 10 := dig' ⟨n % 10, by omega⟩

theorem four (v : Int) (h0 : 1000 ≤ v) (h1 : v < 10000) : (num ' ' 0 v).length = 4 ∧ (num ' ' 0 v).all isdigit = true ∧
    value (num ' ' 0 v) = v := by
  obtain ⟨n, rfl⟩ : ∃ n : Nat, v = n := ⟨v.toNat, by omega⟩
  have e : num ' ' 0 (n : Int) = [dig (n / 10 / 10 / 10), dig (n / 10 / 10), dig (n / 10), dig n] := by
    unfold num
    dsimp only
    rw [if_neg (by omega), Int.natAbs_natCast, digs, if_neg (by omega), digs, if_neg (by omega), digs, if_neg (by omega),
      digs, if_pos (by omega), Nat.zero_sub]
    rfl
  rw [e]
  refine ⟨rfl, by simp [dig_ok], ?_⟩
  unfold value
  simp only [List.foldl_cons, List.foldl_nil, dig_ok]
  omega

/-! ## Letters -/

/-- The text of a letter, and what reading it does. -/
def Trip (d : Inst) (c : Char) (upd : Inst → Inst) : Prop :=
  ∃ t, (∀ sub, fmtLetter sub c d = .ok t) ∧ (∃ x r, t = x :: r ∧ isspace x = false) ∧
    ∀ sub st rest, st.s = t ++ rest → letter sub c st = some (.ok { st with d := upd st.d, s := rest })

theorem digit_not_space (x : Char) (h : isdigit x = true) : isspace x = false := by
  unfold isdigit at h
  unfold isspace
  simp only [Bool.and_eq_true, decide_eq_true_eq] at h
  simp only [Bool.or_eq_false_iff, decide_eq_false_iff_not]
  refine ⟨⟨?_, ?_⟩, ?_⟩ <;> rintro rfl <;> revert h <;> decide

theorem head_digit (ds : List Char) (hl : 0 < ds.length) (h : ds.all isdigit = true) : ∃ x r, ds = x :: r ∧ isspace x = false := by
  cases ds with
  | nil => simp at hl
  | cons x r =>
    simp only [List.all_cons, Bool.and_eq_true] at h
    exact ⟨x, r, rfl, digit_not_space x h.1⟩

theorem fld_ok (st : St) (min max : Nat) (set : Inst → Int → Inst) (ds rest : List Char) (hs : st.s = ds ++ rest)
    (h : min ≤ max) (hl : ds.length = max) (hd : ds.all isdigit = true) :
    fld st min max set = some (.ok { st with d := set st.d (value ds), s := rest }) := by
  unfold fld
  rw [hs, intval_ok min max ds rest h hl hd]
  rfl

theorem trip_two (d : Inst) (c : Char) (v : Int) (h0 : 0 ≤ v) (h1 : v < 100) (set : Inst → Int → Inst) (min : Nat) (hm : min ≤ 2)
    (hf : ∀ sub, fmtLetter sub c d = .ok (num '0' 2 v)) (hl : ∀ sub st, letter sub c st = fld st min 2 set) :
    Trip d c (fun d0 => set d0 v) := by
  obtain ⟨t1, t2, t3⟩ := two v h0 h1
  refine ⟨num '0' 2 v, hf, head_digit _ (by omega) t2, fun sub st rest hs => ?_⟩
  rw [hl, fld_ok st min 2 set _ rest hs hm t1 t2, t3]

theorem trip_year (d : Inst) (h0 : 1000 ≤ d.year) (h1 : d.year < 10000) : Trip d 'Y' (fun d0 => { d0 with year := d.year }) := by
  obtain ⟨t1, t2, t3⟩ := four d.year h0 h1
  refine ⟨num ' ' 0 d.year, fun _ => rfl, head_digit _ (by omega) t2, fun sub st rest hs => ?_⟩
  rw [show letter sub 'Y' st = fld st 1 4 (fun d v => { d with year := v }) from rfl, fld_ok st 1 4 _ _ rest hs (by omega) t1 t2, t3]

theorem trip_b (d : Inst) (h0 : 1 ≤ d.mon) (h1 : d.mon ≤ 12) : Trip d 'b' (fun d0 => { d0 with mon := d.mon }) := by
  have h : d.mon = 1 ∨ d.mon = 2 ∨ d.mon = 3 ∨ d.mon = 4 ∨ d.mon = 5 ∨ d.mon = 6 ∨ d.mon = 7 ∨ d.mon = 8 ∨ d.mon = 9 ∨
    d.mon = 10 ∨ d.mon = 11 ∨ d.mon = 12 := by omega
  unfold Trip
  simp only [show ∀ sub, fmtLetter sub 'b' d = at' abbrevmon d.mon from fun _ => rfl]
  rcases h with h | h | h | h | h | h | h | h | h | h | h | h <;> rw [h] <;>
    refine ⟨_, fun _ => rfl, ⟨_, _, rfl, rfl⟩, fun sub st rest hs => ?_⟩ <;>
    rw [show letter sub 'b' st = name st abbrevmon (fun d v => { d with mon := v }) from rfl] <;> unfold name <;> rw [hs] <;> rfl

theorem trip_B (d : Inst) (h0 : 1 ≤ d.mon) (h1 : d.mon ≤ 12) : Trip d 'B' (fun d0 => { d0 with mon := d.mon }) := by
  have h : d.mon = 1 ∨ d.mon = 2 ∨ d.mon = 3 ∨ d.mon = 4 ∨ d.mon = 5 ∨ d.mon = 6 ∨ d.mon = 7 ∨ d.mon = 8 ∨ d.mon = 9 ∨
    d.mon = 10 ∨ d.mon = 11 ∨ d.mon = 12 := by omega
  unfold Trip
  simp only [show ∀ sub, fmtLetter sub 'B' d = at' fullmon d.mon from fun _ => rfl]
  rcases h with h | h | h | h | h | h | h | h | h | h | h | h <;> rw [h] <;>
    refine ⟨_, fun _ => rfl, ⟨_, _, rfl, rfl⟩, fun sub st rest hs => ?_⟩ <;>
    rw [show letter sub 'B' st = name st fullmon (fun d v => { d with mon := v }) from rfl] <;> unfold name <;> rw [hs] <;> rfl

theorem zone' : ∀ n : Fin 24, (num '0' 2 (n.val : Int) ++ num '0' 2 0).length = 4 ∧
    (num '0' 2 (n.val : Int) ++ num '0' 2 0).all isdigit = true ∧
    value (num '0' 2 (n.val : Int) ++ num '0' 2 0) = (n.val * 100 : Int) := by decide +kernel

theorem zone (v : Int) (h0 : 0 ≤ v) (h1 : v < 24) : (num '0' 2 v ++ num '0' 2 0).length = 4 ∧
    (num '0' 2 v ++ num '0' 2 0).all isdigit = true ∧ value (num '0' 2 v ++ num '0' 2 0) = v * 100 := by
  have := zone' ⟨v.toNat, by omega⟩
  rwa [show ((⟨v.toNat, by omega⟩ : Fin 24).val : Int) = v from Int.toNat_of_nonneg h0] at this

theorem letter_z (sub : List Char → St → Step) (st : St) : letter sub 'z' st =
    some ((tzoffset st.s).map (fun r => { st with d := { st.d with tzoff := r.1 }, s := r.2 })) := rfl

theorem trip_z (d : Inst) (k : Int) (hk : d.tzoff = k * 3600000000) (h0 : -24 < k) (h1 : k < 24) :
    Trip d 'z' (fun d0 => { d0 with tzoff := d.tzoff }) := by
  by_cases hn : k < 0
  · obtain ⟨t1, t2, t3⟩ := zone (-k) (by omega) (by omega)
    have ht : timezone d.tzoff = '-' :: (num '0' 2 (-k) ++ num '0' 2 0) := by
      unfold timezone
      simp only
      rw [if_pos (by omega), if_pos (by omega), hk, show -(k * 3600000000) = (-k * 3600) * 1000000 by omega,
        Int.mul_tdiv_cancel _ (by decide), Int.mul_tdiv_cancel _ (by decide), Int.mul_tmod_left]
    refine ⟨_, fun _ => congrArg Res.ok ht, ⟨_, _, rfl, rfl⟩, fun sub st rest hs => ?_⟩
    rw [letter_z, hs, List.cons_append, tzoffset, intval_ok 2 4 _ rest (by omega) t1 t2, t3]
    show some (Except.ok { st with d := { st.d with tzoff := _ }, s := rest }) = _
    rw [show -1 * (-k * 100).tdiv 100 * 3600 * 1000000 + (-k * 100).tmod 100 * 60 * 1000000 = d.tzoff by
      rw [Int.mul_tdiv_cancel _ (by decide), Int.mul_tmod_left]; omega]
  · obtain ⟨t1, t2, t3⟩ := zone k (by omega) (by omega)
    have ht : timezone d.tzoff = '+' :: (num '0' 2 k ++ num '0' 2 0) := by
      unfold timezone
      simp only
      rw [if_neg (by omega), if_neg (by omega), hk, show k * 3600000000 = (k * 3600) * 1000000 by omega,
        Int.mul_tdiv_cancel _ (by decide), Int.mul_tdiv_cancel _ (by decide), Int.mul_tmod_left]
    refine ⟨_, fun _ => congrArg Res.ok ht, ⟨_, _, rfl, rfl⟩, fun sub st rest hs => ?_⟩
    rw [letter_z, hs, List.cons_append, tzoffset, intval_ok 2 4 _ rest (by omega) t1 t2, t3]
    show some (Except.ok { st with d := { st.d with tzoff := _ }, s := rest }) = _
    rw [show 1 * (k * 100).tdiv 100 * 3600 * 1000000 + (k * 100).tmod 100 * 60 * 1000000 = d.tzoff by
      rw [Int.mul_tdiv_cancel _ (by decide), Int.mul_tmod_left]; omega]

/-- What the letters put into an instant. -/
def upd (d : Inst) (c : Char) (d0 : Inst) : Inst :=
  match c with
  | 'Y' => { d0 with year := d.year }
  | 'm' => { d0 with mon := d.mon }
  | 'b' => { d0 with mon := d.mon }
  | 'B' => { d0 with mon := d.mon }
  | 'd' => { d0 with day := d.day }
  | 'H' => { d0 with h := d.h }
  | 'k' => { d0 with h := d.h }
  | 'M' => { d0 with m := d.m }
  | 'S' => { d0 with s := d.s }
  | 'z' => { d0 with tzoff := d.tzoff }
  | _ => d0

theorem trip (d : Inst) (hv : Valid d) (c : Char) (hc : c ∈ fine) (hz : c = 'z' → ∃ k : Int, d.tzoff = k * 3600000000) :
    Trip d c (upd d c) := by
  obtain ⟨⟨y0, y1⟩, ⟨m0, m1⟩, ⟨d0, d1⟩, ⟨h0, h1⟩, ⟨n0, n1⟩, ⟨s0, s1⟩, _, ⟨k, k0, k1, k2⟩⟩ := hv
  simp only [fine, List.mem_cons, List.not_mem_nil, or_false] at hc
  rcases hc with rfl | rfl | rfl | rfl | rfl | rfl | rfl | rfl | rfl | rfl
  · exact trip_year d y0 y1
  · exact trip_two d 'm' d.mon (by omega) (by omega) (fun d v => { d with mon := v }) 1 (by omega) (fun _ => rfl) (fun _ _ => rfl)
  · exact trip_b d m0 m1
  · exact trip_B d m0 m1
  · exact trip_two d 'd' d.day (by omega) (by omega) (fun d v => { d with day := v }) 2 (by omega) (fun _ => rfl) (fun _ _ => rfl)
  · exact trip_two d 'H' d.h (by omega) (by omega) (fun d v => { d with h := v }) 1 (by omega) (fun _ => rfl) (fun _ _ => rfl)
  · exact trip_two d 'k' d.h (by omega) (by omega) (fun d v => { d with h := v }) 1 (by omega) (fun _ => rfl) (fun _ _ => rfl)
  · exact trip_two d 'M' d.m (by omega) (by omega) (fun d v => { d with m := v }) 1 (by omega) (fun _ => rfl) (fun _ _ => rfl)
  · exact trip_two d 'S' d.s (by omega) (by omega) (fun d v => { d with s := v }) 1 (by omega) (fun _ => rfl) (fun _ _ => rfl)
  · obtain ⟨j, hj⟩ := hz rfl
    exact trip_z d j hj (by omega) (by omega)

/-! ## Whole formats -/

theorem fmtLoop_lit (sub : List Char → Inst → Res (List Char)) (c : Char) (f : List Char) (d : Inst) (h : c ≠ '%') :
    fmtLoop sub (c :: f) d = (fmtLoop sub f d).bind (fun r => .ok (c :: r)) := by
  rw [fmtLoop]
  · rfl
  · intro e; exact absurd e h
  · intro c' f' e; exact absurd e h

theorem fillLoop_lit (sub : List Char → St → Step) (c : Char) (f : List Char) (st : St) (h : c ≠ '%') (s : List Char)
    (hs : sep c st.s = .ok s) : fillLoop sub (c :: f) st = fillLoop sub f { st with s := s } := by
  rw [fillLoop]
  · rw [hs]
  · intro e; exact absurd e h
  · intro c' f' e; exact absurd e h

theorem eatspace_id (s : List Char) (h : ∀ x r, s = x :: r → isspace x = false) : eatspace s = s := by
  cases s with
  | nil => rfl
  | cons x r => rw [eatspace, if_neg (by simp [h x r rfl])]

theorem sep_ok (c : Char) (s : List Char) (h : isspace c = true → ∀ x r, s = x :: r → isspace x = false) :
    sep c (c :: s) = .ok s := by
  rw [sep]
  by_cases hc : isspace c = true
  · rw [if_pos (by simp [hc]), eatspace_id s (h hc)]
  · rw [if_neg (by simp [hc]), if_neg (by simp)]

/-- All letters put into an instant. -/
def updAll (d : Inst) (cs : List Char) (d0 : Inst) : Inst := cs.foldl (fun d0 c => upd d c d0) d0

theorem run (sub : List Char → Inst → Res (List Char)) (sub' : List Char → St → Step) (d : Inst) (hv : Valid d) :
    ∀ (is : List Item), (∀ c ∈ letters is, c ∈ fine) → (letters is).Nodup → Item.lit '%' ∉ is → nogap isspace is →
    ('z' ∈ letters is → ∃ k : Int, d.tzoff = k * 3600000000) →
    ∃ t, fmtLoop sub (render is) d = .ok t ∧
      (∀ x r, t = x :: r → isspace x = true → ∃ is', is = .lit x :: is') ∧
      ∀ st : St, st.s = t → (∀ c ∈ letters is, c ∉ st.seen) →
        fillLoop sub' (render is) st =
          some (.ok (finish ⟨updAll d (letters is) st.d, (letters is).reverse ++ st.seen, [], st.am⟩)) := by
  intro is
  induction is with
  | nil =>
    intro _ _ _ _ _
    refine ⟨[], rfl, fun x r e => by simp at e, fun st hs _ => ?_⟩
    obtain ⟨d0, seen, s, am⟩ := st
    subst hs
    rfl
  | cons i is ih =>
    intro h1 h2 h3 h4 h5
    cases i with
    | lit c =>
      have hc : c ≠ '%' := fun e => h3 (by simp [e])
      have h4' : nogap isspace is := by
        cases is with
        | nil => trivial
        | cons j js => cases j with
          | lit b => exact h4.2
          | fld b => exact h4
      obtain ⟨t, e1, e2, e3⟩ := ih h1 h2 (fun e => h3 (List.mem_cons_of_mem _ e)) h4' h5
      refine ⟨c :: t, ?_, ?_, ?_⟩
      · rw [render, fmtLoop_lit sub c _ d hc, e1]; rfl
      · intro x r e _
        cases e
        exact ⟨is, rfl⟩
      · intro st hs hn
        have hsep : sep c st.s = .ok t := by
          rw [hs]
          refine sep_ok c t fun hcs x r e => ?_
          cases hx : isspace x with
          | false => rfl
          | true =>
            obtain ⟨is', e'⟩ := e2 x r e hx
            subst e'
            exact absurd ⟨hcs, hx⟩ h4.1
        rw [render, fillLoop_lit sub' c _ st hc t hsep, e3 { st with s := t } rfl hn]
        rfl
    | fld c =>
      have hc : c ∈ fine := h1 c (by simp [letters])
      rw [letters, List.nodup_cons] at h2
      obtain ⟨t, e1, e2, e3⟩ := ih (fun x hx => h1 x (by simp [letters, hx])) h2.2 (fun e => h3 (List.mem_cons_of_mem _ e)) h4
        (fun hz => h5 (by simp [letters, hz]))
      obtain ⟨u, f1, ⟨x, r, f2, f3⟩, f4⟩ := trip d hv c hc (fun e => h5 (by simp [letters, e]))
      refine ⟨u ++ t, ?_, ?_, ?_⟩
      · rw [render, fmtLoop, f1, e1]; rfl
      · intro x' r' e hx
        rw [f2] at e
        cases e
        rw [f3] at hx
        cases hx
      · intro st hs hn
        rw [render, fillLoop, if_neg (hn c (by simp [letters])), f4 sub' { st with seen := c :: st.seen } t hs]
        dsimp only
        rw [e3 _ rfl]
        · simp [letters, updAll]
        · intro y hy
          simp only [List.mem_cons, not_or]
          exact ⟨fun e => h2.1 (e ▸ hy), hn y (by simp [letters, hy])⟩

theorem upd_agree (d d0 : Inst) (c : Char) (hc : c ∈ fine) : agree c d (upd d c d0) := by
  simp only [fine, List.mem_cons, List.not_mem_nil, or_false] at hc
  rcases hc with rfl | rfl | rfl | rfl | rfl | rfl | rfl | rfl | rfl | rfl <;> rfl

theorem upd_keep (d d0 : Inst) (c c' : Char) (hc : c ∈ fine) (hc' : c' ∈ fine) (h : agree c d d0) : agree c d (upd d c' d0) := by
  simp only [fine, List.mem_cons, List.not_mem_nil, or_false] at hc hc'
  rcases hc with rfl | rfl | rfl | rfl | rfl | rfl | rfl | rfl | rfl | rfl <;>
    rcases hc' with rfl | rfl | rfl | rfl | rfl | rfl | rfl | rfl | rfl | rfl <;> first | exact h | rfl

theorem updAll_keep (d : Inst) (c : Char) (hc : c ∈ fine) : ∀ (cs : List Char) (d0 : Inst), (∀ x ∈ cs, x ∈ fine) →
    agree c d d0 → agree c d (updAll d cs d0)
  | [], _, _, h => h
  | x :: cs, d0, hf, h => updAll_keep d c hc cs _ (fun y hy => hf y (List.mem_cons_of_mem _ hy))
      (upd_keep d d0 c x hc (hf x (by simp)) h)

theorem updAll_agree (d : Inst) : ∀ (cs : List Char) (d0 : Inst), (∀ x ∈ cs, x ∈ fine) → ∀ c ∈ cs, agree c d (updAll d cs d0)
  | [], _, _, c, h => by simp at h
  | x :: cs, d0, hf, c, h => by
    have hf' : ∀ y ∈ cs, y ∈ fine := fun y hy => hf y (List.mem_cons_of_mem _ hy)
    rcases List.mem_cons.1 h with rfl | h
    · exact updAll_keep d c (hf c (by simp)) cs _ hf' (upd_agree d d0 c (hf c (by simp)))
    · exact updAll_agree d cs _ hf' c h

/-- A field no letter is of keeps its value. -/
theorem updAll_other {α : Type} (d : Inst) (p : Inst → α) (bad : List Char) (hp : ∀ c d0, c ∉ bad → p (upd d c d0) = p d0) :
    ∀ (cs : List Char) (d0 : Inst), (∀ c ∈ cs, c ∉ bad) → p (updAll d cs d0) = p d0
  | [], _, _ => rfl
  | x :: cs, d0, hf => by
    show p (updAll d cs (upd d x d0)) = _
    rw [updAll_other d p bad hp cs _ (fun y hy => hf y (List.mem_cons_of_mem _ hy)), hp x d0 (hf x (by simp))]

end Verif.Dfmt
