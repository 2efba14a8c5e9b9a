import Verif.Json.Format

/-!
# C25: JSON
-/

namespace Verif.Json

open Utf (Char32 Badchar utf8 enc CodePoints)

theorem cp_len (cs : List Char32) : cs.length ≤ (enc cs).length := by
  induction cs with
  | nil => exact Nat.le_refl _
  | cons c cs ih =>
    have := enc_len_pos c cs
    simp only [List.length_cons]
    omega

/-- **C25, every input.** The parser comes back with a value or an error, whatever bytes it is given. -/
theorem parse_total {F : Type} (fp : List Byte → Option F) (str : List Byte) : (∃ v, parse fp str = PM.ret v) ∨ ∃ e, parse fp str = PM.err e := by
  have h : Done (parse fp str) fun _ => True := by
    unfold parse
    refine ((tot fp _).elt ⟨str, 0⟩ (by dsimp only; omega)).bind fun e _ => ?_
    dsimp only
    split
    · obtain ⟨c, hc, -⟩ := peekc_total (takespace e.2.rest)
      unfold peekc at hc
      rw [hc]
      exact .err
    · exact .ret trivial
  rcases h with ⟨a, h, -⟩ | h
  · exact .inl ⟨a, h⟩
  · exact .inr h

/-- **C25, depth.** What was read is not nested deeper than the limit, whatever bytes were given. -/
theorem parse_depth {F : Type} (fp : List Byte → Option F) (str : List Byte) (v : Val F) (h : parse fp str = PM.ret v) : depthOf v ≤ 1024 := by
  unfold parse at h
  rw [PM.bind_eq_ret] at h
  obtain ⟨e, he, h⟩ := h
  dsimp only at h
  have := (shallow fp _).elt _ _ _ (by dsimp only; omega) he
  split at h
  · rw [PM.bind_eq_ret] at h
    obtain ⟨c, -, h⟩ := h
    exact (PM.err_ne.1 h).elim
  · rw [PM.ret_inj] at h
    subst h
    dsimp only at this
    omega

/-- **C25, reading** (partial). A text of the grammar is read as the value it denotes: shown for texts without `\uXXXX`, and counting the empty arrays and objects as levels of nesting. -/
theorem parse_reads_partial {F : Type} (fp : List Byte → Option F) (cs : List Char32) (v : Val F) (hcp : CodePoints cs) (h : Doc fp false cs v) (hd : depthOf v + empties v ≤ 1024) :
    parse fp (enc cs) = PM.ret v := by
  obtain ⟨w1, t, w2, rfl, h1, h2, h3⟩ := h
  have hl := cp_len (w1 ++ t ++ w2)
  simp only [List.length_append] at hl
  rw [cp_app, cp_app] at hcp
  unfold parse
  rw [List.append_assoc] at hl ⊢
  have hf : Follow w2 := by simpa using follow_ws h3 follow_nil
  rw [elt_reads h2 h1 hcp.1.2 hcp.2 hf (by omega) (by omega)]
  simp only [PM.ret_bind]
  rw [takespace_enc hcp.2]
  have : w2.dropWhile isWs = [] := by simpa using dropWhile_ws (cs := []) h3
  rw [this, enc_nil, if_neg (by simp)]

/-- **C25, rejecting** (partial). What is accepted is a text of the grammar, with the value it denotes: shown for texts with neither `\u` nor `,}`. -/
theorem rejects_partial {F : Type} (fp : List Byte → Option F) (cs : List Char32) (v : Val F) (hcp : CodePoints cs) (hu : ¬ [92#32, 117#32] <:+: cs) (hc : ¬ [44#32, 125#32] <:+: cs)
    (h : parse fp (enc cs) = PM.ret v) : Doc fp false cs v := by
  unfold parse at h
  rw [PM.bind_eq_ret] at h
  obtain ⟨e, he, h⟩ := h
  obtain ⟨w, t, cs', rfl, hw, h1, h2⟩ := (sound fp _).elt _ _ _ _ ⟨hcp, hu, hc⟩ he
  rw [cp_app, cp_app] at hcp
  dsimp only at h
  rw [h2, takespace_enc hcp.2.2] at h
  split at h
  · rw [PM.bind_eq_ret] at h
    obtain ⟨c, -, h⟩ := h
    exact (PM.err_ne.1 h).elim
  · next hz =>
    rw [PM.ret_inj] at h
    subst h
    obtain ⟨w2, hw2, e2⟩ := ws_split cs'
    have : cs'.dropWhile isWs = [] := by
      rw [not_not] at hz
      have := cp_len (cs'.dropWhile isWs)
      exact List.eq_nil_of_length_eq_zero (by omega)
    rw [this, List.append_nil] at e2
    subst e2
    exact ⟨w, t, _, by rw [List.append_assoc], hw, h1, hw2⟩

/-- **C25, round trip** (partial). What is written is read as the same value: shown for strings without quotes and without the control characters for which nothing is escaped. -/
theorem format_round_partial : RoundTrip Tame := by
  intro F fp ff v h hd
  obtain ⟨t, h1, h2, h3⟩ := eltfmt_elt v 0 h
  unfold format
  rw [h1]
  exact parse_reads_partial fp t v h3 ⟨[], t, [], by simp, ws_nil, h2, ws_nil⟩ hd

/-! ## Cases -/

/-- Numbers of one digit, to try the parser. -/
def oneDigit (s : List Byte) : Option Nat :=
  match s with
  | [b] => if 48#8 ≤ b ∧ b ≤ 57#8 then some (b.toNat - 48) else none
  | _ => none

/-- The string that was read. -/
def strOf {F : Type} : PM (Val F) → Option (List Byte)
  | .ok (.ok (.str s)) => some s
  | _ => none

/-- Whether something was read. -/
def accepts {F : Type} : PM (Val F) → Bool
  | .ok (.ok _) => true
  | _ => false

/-- `[7, {"a": "\n"}]` denotes what it should. -/
example : Doc oneDigit false [91#32, 55#32, 44#32, 32#32, 123#32, 34#32, 97#32, 34#32, 58#32, 32#32, 34#32, 92#32, 110#32, 34#32, 125#32, 93#32] (.arr [.num 7, .obj [([97#8], .str [10#8])]]) := by
  refine ⟨[], _, [], by simp, ws_nil, .arr (t := [55#32, 44#32, 32#32, 123#32, 34#32, 97#32, 34#32, 58#32, 32#32, 34#32, 92#32, 110#32, 34#32, 125#32]) ?_, ws_nil⟩
  refine .more (w1 := []) (t := [55#32]) (w2 := []) ws_nil (.num ⟨[], [55#32], [], [], rfl, .inl rfl, .inr ⟨⟨by simp, by simp⟩, by decide⟩, .inl rfl, .inl rfl⟩ (by decide +kernel)) ws_nil ?_
  refine .one (w1 := [32#32]) (t := [123#32, 34#32, 97#32, 34#32, 58#32, 32#32, 34#32, 92#32, 110#32, 34#32, 125#32]) (w2 := []) (by simp [Ws]) (.obj (t := [34#32, 97#32, 34#32, 58#32, 32#32, 34#32, 92#32, 110#32, 34#32]) ?_) ws_nil
  exact .one (w1 := []) (k := [34#32, 97#32, 34#32]) (w2 := []) (w3 := [32#32]) (t := [34#32, 92#32, 110#32, 34#32]) (w4 := []) ws_nil ⟨[97#32], [97], rfl, .plain (c := 97#32) (by decide) .nil, by decide +kernel⟩
    ws_nil (by simp [Ws]) (.str ⟨[92#32, 110#32], [10], rfl, .esc (e := 110#32) (by decide) .nil, by decide +kernel⟩) ws_nil

example : accepts (parse oneDigit (enc [91#32, 55#32, 44#32, 32#32, 34#32, 92#32, 110#32, 34#32, 93#32])) = true := by decide +kernel
example : accepts (parse oneDigit (enc [91#32, 55#32, 44#32, 93#32])) = false := by decide +kernel

/-- The character U+0041, written as an escape. -/
theorem reads_violated : ¬ Reads := by
  intro h
  have h1 := h Nat oneDigit [34#32, 92#32, 117#32, 48#32, 48#32, 52#32, 49#32, 34#32] (.str [65#8]) (by simp [CodePoints]) ⟨[], _, [], by simp, ws_nil,
    .str ⟨[92#32, 117#32, 48#32, 48#32, 52#32, 49#32], [65], rfl, .uni (i := 0) (j := 0) (k := 4) (l := 1) rfl (by unfold Hex; decide) (by unfold Hex; decide) (by unfold Hex; decide) (by unfold Hex; decide) (by decide) .nil,
      by decide +kernel⟩, ws_nil⟩ (by decide)
  have h2 : strOf (parse oneDigit (enc [34#32, 92#32, 117#32, 48#32, 48#32, 52#32, 49#32, 34#32])) = some [80#8] := by decide +kernel
  rw [h1] at h2
  exact absurd h2 (by decide)

/-- `n + 1` empty arrays. -/
def sibs : Nat → List Char32
  | 0 => [91#32, 93#32]
  | n + 1 => 91#32 :: 93#32 :: 44#32 :: sibs n

theorem sibs_cp (n : Nat) : CodePoints (sibs n) := by
  induction n with
  | zero => simp [sibs, CodePoints]
  | succ n ih => exact cp_cons.2 ⟨by decide, cp_cons.2 ⟨by decide, cp_cons.2 ⟨by decide, ih⟩⟩⟩

theorem sibs_elts {F : Type} (fp : List Byte → Option F) (n : Nat) : Elts fp false (sibs n) (List.replicate (n + 1) (.arr [])) := by
  induction n with
  | zero => exact .one (w1 := []) (w2 := []) ws_nil (.arr0 (w := []) ws_nil) ws_nil
  | succ n ih => exact .more (w1 := []) (w2 := []) ws_nil (.arr0 (w := []) ws_nil) ws_nil ih

theorem sibs_depth {F : Type} (n : Nat) : depthsOf (List.replicate n (.arr [] : Val F)) ≤ 1 := by
  induction n with
  | zero => simp [depthsOf]
  | succ n ih => rw [List.replicate_succ, depthsOf, depthOf, depthsOf]; omega

theorem sibs_err {F : Type} (fp : List Byte → Option F) (n : Nat) : ∀ (f : Nat) (d : Int) (r : List Char32) (acc : List (Val F)), CodePoints r → d ≤ 1024 → 1024 < d + n + 1 →
    arrLoop fp (n + f + 3) ⟨enc (sibs n ++ r), d⟩ acc = PM.err .depth := by
  have hs : ∀ n, ∃ x, sibs n = 91#32 :: 93#32 :: x := by intro n; cases n <;> exact ⟨_, rfl⟩
  have step : ∀ (f : Nat) (d : Int) (x : List Char32), CodePoints x → parseelt fp (f + 2) ⟨enc (91#32 :: 93#32 :: x), d⟩ = if d + 1 > 1024 then PM.err .depth else PM.ret (.arr [], ⟨enc x, d + 1⟩) := by
    intro f d x hx
    have h1 := parseelt_step (fp := fp) (f := f + 1) (d := d) (w := []) ws_nil (show isWs 91#32 = false by decide) (cp_cons.2 ⟨by decide, cp_cons.2 ⟨(show (93#32 : Char32).toNat < 0x110000 by decide), hx⟩⟩)
    rw [List.nil_append] at h1
    rw [h1, if_neg (by decide), if_pos rfl, parsearr]
    dsimp only
    rw [takec_enc (by decide)]
    simp only [PM.lift_ok, PM.ret_bind, ne_eq, not_true_eq_false, if_false]
    unfold Maxdepth
    split
    · rfl
    · have := takespace_skip (w := []) ws_nil (show isWs 93#32 = false by decide) (cp_cons.2 ⟨by decide, hx⟩)
      rw [List.nil_append] at this
      rw [this, peekc_enc (by decide)]
      simp only [PM.lift_ok, PM.ret_bind, if_true]
      rw [takec_enc (by decide)]
      rfl
  induction n with
  | zero =>
    intro f d r acc hr hd hn
    rw [arrLoop, show sibs 0 ++ r = 91#32 :: 93#32 :: r from rfl, show 0 + f + 2 = f + 2 by omega, step _ _ _ hr, if_pos (by omega)]
    rfl
  | succ n ih =>
    intro f d r acc hr hd hn
    have hx : CodePoints (44#32 :: (sibs n ++ r)) := cp_cons.2 ⟨by decide, cp_app.2 ⟨sibs_cp n, hr⟩⟩
    rw [arrLoop, show sibs (n + 1) ++ r = 91#32 :: 93#32 :: (44#32 :: (sibs n ++ r)) from rfl, show n + 1 + f + 2 = (n + f + 1) + 2 by omega, step _ _ _ hx]
    split
    · rfl
    · simp only [PM.ret_bind]
      have := takespace_skip (w := []) ws_nil (show isWs 44#32 = false by decide) hx
      rw [List.nil_append] at this
      rw [this, takec_enc (by decide)]
      simp only [PM.lift_ok, PM.ret_bind, if_true]
      exact ih f (d + 1) r _ hr (by omega) (by omega)

/-- An array of 1024 empty arrays, which is nested two deep, is rejected as too deep. -/
theorem readsPlain_violated : ¬ ReadsPlain := by
  intro h
  obtain ⟨n, hn⟩ : ∃ n : Nat, n = 1023 := ⟨_, rfl⟩
  have hcp : CodePoints (91#32 :: sibs n ++ [93#32]) := cp_app.2 ⟨cp_cons.2 ⟨by decide, sibs_cp n⟩, cp_cons.2 ⟨by decide, cp_nil⟩⟩
  have h1 := h Nat oneDigit (91#32 :: sibs n ++ [93#32]) (.arr (List.replicate (n + 1) (.arr []))) hcp ⟨[], _, [], by simp, ws_nil, .arr (sibs_elts _ n), ws_nil⟩ (by
    rw [depthOf]; have := sibs_depth (F := Nat) (n + 1); omega)
  have hl := cp_len (91#32 :: sibs n ++ [93#32])
  have hl2 : ∀ n, n + 2 ≤ (sibs n).length := by
    intro n
    induction n with
    | zero => decide
    | succ n ih => simp only [sibs, List.length_cons]; omega
  have hl3 := hl2 n
  simp only [List.length_append, List.length_cons] at hl
  unfold parse at h1
  obtain ⟨f, hf⟩ : ∃ f, 3 * (enc (91#32 :: sibs n ++ [93#32])).length + 8 = n + f + 3 + 1 + 1 := ⟨3 * (enc (91#32 :: sibs n ++ [93#32])).length + 8 - n - 5, by omega⟩
  rw [hf] at h1
  rw [List.cons_append] at hcp h1
  have h2 := parseelt_step (fp := oneDigit) (f := n + f + 3 + 1) (d := 0) (w := []) ws_nil (show isWs 91#32 = false by decide) hcp
  rw [List.nil_append, if_neg (by decide), if_pos rfl, parsearr] at h2
  dsimp only at h2
  rw [takec_enc (by decide)] at h2
  simp only [PM.lift_ok, PM.ret_bind, ne_eq, not_true_eq_false, if_false] at h2
  obtain ⟨x, hx⟩ : ∃ x, sibs n = 91#32 :: x := by cases n <;> exact ⟨_, rfl⟩
  have ht : takespace (enc (sibs n ++ [93#32])) = enc (sibs n ++ [93#32]) := by
    have h3 := (cp_cons.1 hcp).2
    rw [hx, List.cons_append] at h3 ⊢
    have := takespace_skip (w := []) ws_nil (show isWs 91#32 = false by decide) h3
    rwa [List.nil_append] at this
  have hp : peekc (enc (sibs n ++ [93#32])) = .ok 91#32 := by
    rw [hx, List.cons_append]
    exact peekc_enc (by decide)
  rw [if_neg (by decide), ht, hp] at h2
  simp only [PM.lift_ok, PM.ret_bind] at h2
  rw [if_neg (by decide), sibs_err oneDigit n f _ _ _ (cp_cons.2 ⟨by decide, cp_nil⟩) (by decide) (by omega)] at h2
  rw [h2] at h1
  exact (PM.err_ne.1 h1).elim

/-- Whether a value is an object. -/
def isObj {F : Type} : Val F → Bool
  | .obj _ => true
  | _ => false

/-- Whether what was read is an object with an object as its only member. -/
def nested {F : Type} : PM (Val F) → Bool
  | .ok (.ok (.obj [m])) => isObj m.2
  | _ => false

/-- `{"a":{"b":null,}`. -/
def unclosed : List Char32 := [123#32, 34#32, 97#32, 34#32, 58#32, 123#32, 34#32, 98#32, 34#32, 58#32, 110#32, 117#32, 108#32, 108#32, 44#32, 125#32]

/-- The braces of an object with a comma at its end are one too few. -/
theorem rejects_violated : ¬ Rejects := by
  intro h
  have h1 : nested (parse oneDigit (enc unclosed)) = true := by decide +kernel
  obtain ⟨v, hv⟩ : ∃ v, parse oneDigit (enc unclosed) = PM.ret v := by
    rcases parse_total oneDigit (enc unclosed) with h2 | ⟨e, h2⟩
    · exact h2
    · rw [h2] at h1
      exact absurd h1 (by simp [nested, PM.err])
  obtain ⟨w1, t, w2, e, -, hE, -⟩ := h _ _ _ _ (by simp [CodePoints, unclosed]) hv
  rw [hv] at h1
  have hc : unclosed.count 125#32 = 1 := by decide
  rw [e, List.count_append, List.count_append] at hc
  have two : 2 ≤ t.count 125#32 := by
    cases hE with
    | obj hm =>
      cases hm with
      | one _ _ _ _ h5 _ =>
        cases h5 with
        | obj => simp only [List.count_append, List.count_cons, List.count_nil, beq_self_eq_true, if_true]; omega
        | obj0 => simp only [List.count_append, List.count_cons, List.count_nil, beq_self_eq_true, if_true]; omega
        | _ => exact absurd h1 (by simp [nested, isObj, PM.ret])
      | more _ _ _ _ _ _ h7 =>
        cases h7 <;> exact absurd h1 (by simp [nested, PM.ret])
    | _ => exact absurd h1 (by simp [nested, PM.ret])
  omega

/-- A string with a quote is written so that it cannot be read. -/
theorem roundtrip_violated : ¬ RoundTrip Utf8 := by
  intro h
  have h1 := h Nat oneDigit (fun _ => []) (.str [34#8]) (by rw [All]; exact ⟨[34#32], by simp [CodePoints], by decide +kernel⟩) (by decide)
  have h2 : accepts (parse oneDigit (format (fun _ : Nat => []) (.str [34#8]))) = false := by decide +kernel
  rw [h1] at h2
  exact absurd h2 (by decide)

/-- An array with a string and a number satisfies the hypotheses of the round trip. -/
example : parse oneDigit (format (fun n : Nat => [BitVec.ofNat 8 (48 + n)]) (.arr [.num 7, .str [10#8, 92#8]])) = PM.ret (.arr [.num 7, .str [10#8, 92#8]]) :=
  format_round_partial Nat oneDigit _ _ (by
    simp only [All, Alls]
    refine ⟨⟨[55#32], ⟨[], [55#32], [], [], rfl, .inl rfl, .inr ⟨⟨by simp, by simp⟩, by decide⟩, .inl rfl, .inl rfl⟩, by decide +kernel, by decide +kernel⟩,
      ⟨[10#32, 92#32], by simp [CodePoints], by decide +kernel, by simp⟩, trivial⟩) (by decide +kernel)

end Verif.Json
