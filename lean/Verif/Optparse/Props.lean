import Verif.Optparse.Lemmas

/-!
# C94: command lines
-/

namespace Verif.Optparse

open Utf (Char32)

/-- What a program gets is what the command line means. -/
def Meets (d : Def) (prog : List Byte) (out : Spec.Out) (r : Res (Ends Parsed)) : Prop :=
  match out with
  | .help => r = .ok (.exit 0)
  | .refused => r = .ok (.exit 1)
  | .done o a =>
    (¬Spec.CountOk d.minargs d.maxargs d.noargs a.length → r = .ok (.exit 1)) ∧
    (Spec.CountOk d.minargs d.maxargs d.noargs a.length →
      ∃ p, r = .ok (.go p) ∧ Spec.Agree o p.opts ∧ p.args = a.map Utf.enc ∧ p.prog = prog ∧
        p.stores = (Spec.stores (d.opts.map specOpt) o).map encStore)

/-- **C94, full claim.**  Every command line means what it usually means. -/
def FullClaim : Prop :=
  ∀ (junk : List Byte) (d : Def) (prog : List Byte) (ws : List Spec.Word),
    (∀ o ∈ d.opts, o.opt.toNat < 0x110000) → (∀ w ∈ ws, ∀ c ∈ w, c.toNat < 0x110000) →
    Meets d prog (Spec.parse (d.opts.map specOpt) ws) (optparse junk (prog :: ws.map Utf.enc) d)

/-- **C94, what fails: standard input.**  A lone dash, usually an operand, ends every program. -/
theorem dash_violated : ¬FullClaim := by
  intro h
  have h := h [] ⟨0, 0, false, []⟩ [] [[0x2d#32]] (by simp) (by simp)
  rw [show Spec.parse (List.map specOpt []) [[0x2d#32]] = .done [] [[0x2d#32]] from by decide +kernel,
    show optparse [] ([] :: [[0x2d#32]].map Utf.enc) ⟨0, 0, false, []⟩ = .ok (.exit 1) from by decide +kernel] at h
  obtain ⟨p, hp, _⟩ := h.2 ⟨by simp, by simp, by simp⟩
  cases hp

/-- An option the argument of which can be left out. -/
def leaves : Def := ⟨0, 0, false, [⟨0x61#32, [0x78#8], none, true⟩]⟩

/-- **C94, what fails: arguments that can be left out.**  An option the argument of which can be left out, as the last
word: the argument can not be left out. -/
theorem optional_violated : ¬FullClaim := by
  intro h
  have h := h [] leaves [] [[0x2d#32, 0x61#32]] (by simp [leaves]) (by simp)
  rw [show Spec.parse (List.map specOpt leaves.opts) [[0x2d#32, 0x61#32]] = .done [(0x61#32, none)] []
      from by decide +kernel,
    show optparse [] ([] :: [[0x2d#32, 0x61#32]].map Utf.enc) leaves = .ok (.exit 1) from by decide +kernel] at h
  obtain ⟨p, hp, _⟩ := h.2 ⟨by simp [leaves], by simp [leaves], by simp [leaves]⟩
  cases hp

/-- **C94, what fails: operands as bytes.**  A word that does not begin with the byte of a dash should be an operand.
One that begins with two other bytes, an overlong encoding of the dash, is taken for an option. -/
theorem operand_violated :
    ¬∀ (junk : List Byte) (prog w : List Byte), w.head? ≠ some 0x2d#8 →
      optparse junk [prog, w] ⟨0, 0, false, []⟩ = .ok (.go ⟨[], [w], prog, []⟩) := by
  intro h
  have h := h [] [] [0xc0#8, 0xad#8, 0x61#8] (by decide)
  rw [show optparse [] [[], [0xc0#8, 0xad#8, 0x61#8]] ⟨0, 0, false, []⟩ = .ok (.exit 1) from by decide +kernel] at h
  cases h

/-- **C94, it always ends.**  For all bytes on the command line. -/
theorem total (junk : List Byte) (d : Def) (args : List (List Byte)) (h : args ≠ [])
    (hb : ∀ o ∈ d.opts, o.opt.toNat < 0x110000) : ∃ r, optparse junk args d = .ok r := by
  have hb' : ∀ o ∈ d.opts, o.opt ≠ Utf.Badchar := by
    intro o ho he
    have := hb o ho
    rw [he] at this
    exact absurd this (by decide)
  obtain ⟨p, args, rfl⟩ := List.exists_cons_of_ne_nil h
  obtain ⟨c, h1, _, _, h2⟩ := next_total ⟨[], p :: args, 0, [], false, false, []⟩
  obtain ⟨r, h3⟩ := loop_total d.opts junk hb' (fuelFor (p :: args)) c [] (by
    refine Nat.lt_of_le_of_lt h2 ?_
    simp only [left, fuelFor, List.length_nil, List.drop_succ_cons, List.drop_zero, List.map_cons, List.sum_cons]
    omega)
  unfold optparse
  rw [show rdChk (p :: args) 0 = .ok p from rfl, Res.bind_ok, h1, Res.bind_ok, h3, Res.bind_ok]
  cases r with
  | exit s => exact ⟨_, rfl⟩
  | go q => exact ⟨_, rfl⟩

example : ∃ r, optparse [] [[0x61#8], [0x2d#8, 0xff#8, 0x2d#8]] ⟨0, 0, false, [⟨0x61#32, [0x78#8], none, true⟩]⟩ = .ok r :=
  total _ _ _ (by decide) (by decide)

/-- Without words the program is stopped. -/
theorem no_name (junk : List Byte) (d : Def) : optparse junk [] d = .abort := rfl

theorem finish_eq (d : Def) (prog : List Byte) (opts : List (Char32 × List Byte)) (c : Ctx) :
    (Spec.CountOk d.minargs d.maxargs d.noargs c.args.length →
      finish d prog opts c = .go ⟨opts, c.args, prog, c.stores⟩) ∧
    (¬Spec.CountOk d.minargs d.maxargs d.noargs c.args.length → finish d prog opts c = .exit 1) := by
  unfold Spec.CountOk finish
  constructor
  · intro h
    rw [if_neg (by omega), if_neg (by omega), if_neg (fun x => x.2 (h.2.2 x.1))]
  · intro h
    split
    · rfl
    · split
      · rfl
      · split
        · rfl
        · rename_i h1 h2 h3
          exact absurd ⟨by omega, fun h => by omega, fun hn => Decidable.byContradiction fun hx => h3 ⟨hn, hx⟩⟩ h

/-- **C94, partial.**  Without lone dashes: every command line on which no argument is left out means what it usually
means; if one is left out (which is so only for the last word) the program ends.  Missing: lone dashes, and arguments
left out. -/
theorem optparse_partial (junk : List Byte) (d : Def) (prog : List Byte) (ws : List Spec.Word)
    (hb : ∀ o ∈ d.opts, o.opt.toNat < 0x110000) (hw : ∀ w ∈ ws, ∀ c ∈ w, c.toNat < 0x110000)
    (hd : ∀ w ∈ ws, w ≠ [0x2d#32]) :
    (∀ o a, Spec.parse (d.opts.map specOpt) ws = .done o a → (∃ p ∈ o, p.2 = none) →
      optparse junk (prog :: ws.map Utf.enc) d = .ok (.exit 1)) ∧
    ((∀ o a, Spec.parse (d.opts.map specOpt) ws = .done o a → ∀ p ∈ o, p.2 ≠ none) →
      Meets d prog (Spec.parse (d.opts.map specOpt) ws) (optparse junk (prog :: ws.map Utf.enc) d)) := by
  have hb' : ∀ o ∈ d.opts, o.opt ≠ Utf.Badchar := by
    intro o ho he
    have := hb o ho
    rw [he] at this
    exact absurd this (by decide)
  obtain ⟨c, h1, ha, hs, ho⟩ := next_spec (d.opts.map specOpt) ws ⟨[], prog :: ws.map Utf.enc, 0, [], false, false, []⟩
    (by simp; omega) rfl (fun w h => ⟨hw w h, hd w h⟩) rfl rfl rfl
  obtain ⟨r, h2⟩ : ∃ r, loop d.opts junk (fuelFor (prog :: ws.map Utf.enc)) c [] = .ok r := by
    obtain ⟨c', h1', _, _, h2⟩ := next_total ⟨[], prog :: ws.map Utf.enc, 0, [], false, false, []⟩
    rw [h1] at h1'
    injection h1' with h1'
    subst h1'
    refine loop_total d.opts junk hb' _ c [] (Nat.lt_of_le_of_lt h2 ?_)
    simp only [left, fuelFor, List.length_nil, List.drop_succ_cons, List.drop_zero, List.map_cons, List.sum_cons]
    omega
  have hfin := loop_after (loop_ok d.opts junk hb' _) ha h2
  have he : optparse junk (prog :: ws.map Utf.enc) d =
      match (generalizing := false) r with
      | .exit s => .ok (.exit s)
      | .go (opts, c) => .ok (finish d prog opts c) := by
    unfold optparse
    rw [show rdChk (prog :: ws.map Utf.enc) 0 = .ok prog from rfl, Res.bind_ok, h1, Res.bind_ok, h2, Res.bind_ok]
    rfl
  rw [hs] at hfin
  constructor
  · intro o a hp hn
    rw [hp, Fin] at hfin
    dsimp only at hfin
    rw [if_pos hn] at hfin
    rw [he, hfin]
  · intro hn
    cases hp : Spec.parse (d.opts.map specOpt) ws with
    | help =>
      rw [hp] at hfin
      unfold Meets
      rw [he, show r = .exit 0 from hfin]
    | refused =>
      rw [hp] at hfin
      unfold Meets
      rw [he, show r = .exit 1 from hfin]
    | done o a =>
      have hnone : ¬∃ p ∈ o, p.2 = none := fun ⟨p, h3, h4⟩ => hn o a hp p h3 h4
      rw [hp, Fin] at hfin
      dsimp only at hfin
      rw [if_neg hnone] at hfin
      obtain ⟨c', hr, h3, h4⟩ := hfin
      rw [he, hr]
      have hlen : c'.args.length = a.length := by rw [h3]; simp
      have hf := finish_eq d prog ([] ++ o.map encOpt) c'
      rw [hlen] at hf
      refine ⟨fun hc => ?_, fun hc => ?_⟩
      · dsimp only; rw [hf.2 hc]
      · refine ⟨_, by dsimp only; rw [hf.1 hc], ⟨?_, ?_⟩, ?_, rfl, ?_⟩
        · simp [encOpt, Function.comp_def]
        · intro x hx w hw
          simp only [List.nil_append, List.zip_map_right] at hx
          obtain ⟨y, hy, rfl⟩ := List.mem_map.1 hx
          have : y.1 = y.2 := by
            rw [List.zip_eq_zipWith] at hy
            clear * - hy
            induction o with
            | nil => simp at hy
            | cons q o ih =>
              simp only [List.zipWith_cons_cons, List.mem_cons] at hy
              rcases hy with rfl | hy
              · rfl
              · exact ih hy
          simp only [Prod.map] at hw ⊢
          rw [← this, encOpt, id_eq] at *
          simp [hw]
        · simpa using h3
        · simpa using h4

/-- Options of the examples: `-a` takes nothing, `-b` an argument, stored in variable 3. -/
def exampleDef : Def := ⟨1, 2, false, [⟨0x61#32, [], none, false⟩, ⟨0x62#32, [0x78#8], some 3, false⟩]⟩

/-- `x -ab y -bz -- -a` -/
example : optparse [] ([0x70#8] :: ([[0x78#32], [0x2d#32, 0x61#32, 0x62#32], [0x79#32], [0x2d#32, 0x62#32, 0x7a#32],
      [0x2d#32, 0x2d#32], [0x2d#32, 0x61#32]] : List Spec.Word).map Utf.enc) exampleDef =
    .ok (.go ⟨[(0x61#32, []), (0x62#32, [0x79#8]), (0x62#32, [0x7a#8])], [[0x78#8], [0x2d#8, 0x61#8]], [0x70#8],
      [(3, [0x79#8]), (3, [0x7a#8])]⟩) := by decide +kernel

example : (∀ o ∈ exampleDef.opts, o.opt.toNat < 0x110000) ∧
    (∀ w ∈ ([[0x78#32], [0x2d#32, 0x61#32, 0x62#32], [0x79#32], [0x2d#32, 0x2d#32], [0x2d#32, 0x61#32]] : List Spec.Word),
      (∀ c ∈ w, c.toNat < 0x110000) ∧ w ≠ [0x2d#32]) ∧
    Spec.parse (exampleDef.opts.map specOpt)
      [[0x78#32], [0x2d#32, 0x61#32, 0x62#32], [0x79#32], [0x2d#32, 0x2d#32], [0x2d#32, 0x61#32]] =
      .done [(0x61#32, some []), (0x62#32, some [0x79#32])] [[0x78#32], [0x2d#32, 0x61#32]] :=
  ⟨by simp [exampleDef], by simp, by decide +kernel⟩

end Verif.Optparse
