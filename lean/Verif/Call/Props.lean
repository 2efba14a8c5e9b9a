import Verif.Call.Place

/-!
# Arguments arrive where they are looked for (C90)
-/

namespace Verif.Call

open Verif.Layout

/-- What `call_cases` needs of the types of a function. -/
structure Callable (f : FnTy) : Prop where
  /-- The result has a class. -/
  ret : Passable f.ret
  /-- So do the parameters. -/
  params : ∀ t ∈ f.params, Passable t
  /-- No void parameters before `...`. -/
  novoid : f.variadic = true → ∀ t ∈ f.params, isvoid t = false

theorem call_cases (j k : Bool) (sp : Int) (f : FnTy) (va : List Ty) (h : Callable f) :
    (gencall j sp f va = .ub ∧ ∃ t ∈ f.params, classify t = .ok .aggrF) ∨
    HandsOver sp f va (gencall j sp f va) (addarglocs k (framePtr sp) f) := by
  obtain ⟨a, hr⟩ := classify_passable f.ret h.ret
  have hptr : classify .ptr = .ok .reg := rfl
  generalize hH : (if a = .big then [Ty.ptr] else [] : List Ty) = H
  have hHm : ∀ t ∈ H, t = .ptr := by
    intro t ht
    subst hH
    split at ht
    · simpa using ht
    · simp at ht
  have hHf : H.filter (fun t => !isvoid t) = H := by
    rw [List.filter_eq_self]
    intro t ht
    rw [hHm t ht]
    rfl
  have hc : countargs f = .ok (H.length + f.params.length) := by
    unfold countargs
    rw [hr, Res.bind_ok]
    subst hH
    cases f.variadic <;> by_cases ha : a = .big <;> simp [ha] <;> omega
  have ht : callerTys f va = .ok ((H ++ f.params).filter (fun t => !isvoid t) ++
      (if f.variadic then .ptr :: va.filter (fun t => !isvoid t) else [])) := by
    unfold callerTys
    rw [hr, Res.bind_ok, hH, List.filter_append, hHf]
    rfl
  have hu : funcTys f = .ok ((H ++ f.params) ++ (if f.variadic then [.valist] else [])) := by
    unfold funcTys
    rw [hr, Res.bind_ok, hH]
    rfl
  have hcl : ∀ t ∈ H ++ f.params, ∃ a, classify t = .ok a := by
    intro t ht
    rw [List.mem_append] at ht
    rcases ht with ht | ht
    · rw [hHm t ht]; exact ⟨_, hptr⟩
    · exact classify_passable t (h.params t ht)
  generalize hn : H.length + f.params.length = n at *
  generalize hps : H ++ f.params = ps at *
  have hpl : ps.length = n := by rw [← hps, List.length_append, hn]
  generalize hvs : (if f.variadic then Ty.ptr :: va.filter (fun t => !isvoid t) else [] : List Ty) = vs at *
  have hmem : ∀ t ∈ (ps.filter (fun t => !isvoid t) ++ vs).take (n - 0), t ∈ ps := by
    intro t ht
    cases hvar : f.variadic with
    | false =>
      rw [hvar] at hvs
      simp only [Bool.false_eq_true, if_false] at hvs
      subst hvs
      rw [List.append_nil] at ht
      exact (List.mem_filter.1 (List.mem_of_mem_take ht)).1
    | true =>
      have : ps.filter (fun t => !isvoid t) = ps := by
        rw [List.filter_eq_self]
        intro t ht
        rw [← hps, List.mem_append] at ht
        rcases ht with ht | ht
        · rw [hHm t ht]; rfl
        · rw [h.novoid hvar t ht]; rfl
      rw [this, Nat.sub_zero, List.take_append_of_le_length (by omega)] at ht
      exact List.mem_of_mem_take ht
  have hnv : ∀ t ∈ ps.filter (fun t => !isvoid t) ++ vs, isvoid t = false := by
    intro t ht
    rw [List.mem_append] at ht
    rcases ht with ht | ht
    · simpa using (List.mem_filter.1 ht).2
    · subst hvs
      split at ht
      · rw [List.mem_cons] at ht
        rcases ht with rfl | ht
        · rfl
        · simpa using (List.mem_filter.1 ht).2
      · simp at ht
  rcases callArgs_placed j sp n (ps.filter (fun t => !isvoid t) ++ vs) 0 0 ⟨0, 0, 0⟩ ⟨by simp, by simp⟩ hnv
    (fun t ht => hcl t (hmem t ht)) (Nat.dvd_zero 8) (by simp) with ⟨h1, t, h2, h3⟩ | ⟨xs, s', h1, h2, h3, h4, h5, h6, h7⟩
  · left
    refine ⟨?_, t, ?_, h3⟩
    · unfold gencall
      rw [hc, Res.bind_ok, ht, Res.bind_ok, h1]
      rfl
    · have := hmem t h2
      rw [← hps, List.mem_append] at this
      rcases this with h | h
      · rw [hHm t h, hptr] at h3; cases h3
      · exact h
  · right
    obtain ⟨x1, s1, x2, k1, k2, k3⟩ := callArgs_append j sp n _ _ 0 _ _ _ h1
    obtain ⟨ys, t', m1, m2, m3, m4⟩ := func_skip k j sp n ps 0 0 ⟨0, 0, 0⟩ ⟨0, 0, 0⟩ s1 x1 ⟨rfl, rfl, rfl⟩ (by omega) (by omega) k1
    have hg : gencall j sp f va = .ok xs := by
      unfold gencall
      rw [hc, Res.bind_ok, ht, Res.bind_ok, h1]
      rfl
    have hw : ∀ p ∈ xs.flatten, p.Within sp (argsz (ps.filter (fun t => !isvoid t) ++ vs)) := by
      intro p hp
      have hb := h5 p hp
      unfold argsz
      have := le_calign ((ps.filter (fun t => !isvoid t) ++ vs).foldl bump 0) 16
      cases p with
      | ireg k => trivial
      | freg k => trivial
      | mem x len =>
        obtain ⟨b1, b2⟩ := hb
        refine ⟨by simpa using b1, ?_⟩
        omega
    cases hvar : f.variadic with
    | false =>
      rw [hvar] at hvs hu
      simp only [Bool.false_eq_true, if_false] at hvs hu
      subst hvs
      rw [callArgs] at k2
      cases k2
      refine ⟨_, _, xs, ys, [], ht, hu, hg, ?_, by simpa using m2, ?_, h2, h6, hw⟩
      · unfold addarglocs
        rw [hc, Res.bind_ok, hu, Res.bind_ok, List.append_nil, m1]
        rfl
      · rw [k3, m4]; simp
    | true =>
      rw [hvar] at hvs hu
      simp only [if_true] at hvs hu
      have hfe : ps.filter (fun t => !isvoid t) = ps := by
        rw [List.filter_eq_self]
        intro t ht
        rw [← hps, List.mem_append] at ht
        rcases ht with ht | ht
        · rw [hHm t ht]; rfl
        · rw [h.novoid hvar t ht]; rfl
      subst hvs
      rw [hfe] at k2
      rw [callArgs] at k2
      obtain ⟨⟨x, s2⟩, n1, k2⟩ := Res.bind_eq_ok.1 k2
      dsimp only at k2
      obtain ⟨⟨x3, s3⟩, n2, k2⟩ := Res.bind_eq_ok.1 k2
      cases k2
      have hd : decide (n ≤ 0 + ps.length) = true := by simp; omega
      rw [hd, callArg_var] at n1
      cases n1
      have hf : funcArg k (framePtr sp) true .valist t' =
          .ok ([.mem (sp + (alignto s1.off .ptr : Nat)) (tysize .ptr)], { t' with off := alignto t'.off .valist + tysize .valist }) := by
        rw [func_call k j sp true .valist t' rfl, callArg_var]
        have e1 : alignto t'.off .valist = align t'.off 8 := rfl
        have e2 : alignto s1.off .ptr = align s1.off 8 := rfl
        rw [e1, e2, ← m3.2.2]
        rfl
      refine ⟨_, _, xs, ys ++ [[.mem (sp + (alignto s1.off .ptr : Nat)) (tysize .ptr)]], x3, ht, hu, hg, ?_, ?_, ?_, h2, h6, hw⟩
      · unfold addarglocs
        rw [hc, Res.bind_ok, hu, Res.bind_ok]
        rw [funcArgs_append k (framePtr sp) n ps [.valist] 0 _ t' { t' with off := alignto t'.off .valist + tysize .valist } ys
          [[.mem (sp + (alignto s1.off .ptr : Nat)) (tysize .ptr)]] m1 (by
            rw [funcArgs, hd, hf, Res.bind_ok]
            rfl)]
        rfl
      · simp [m2]
      · rw [k3, m4, List.zip_append m2, List.filter_append, List.map_append]
        simp [List.zip, isvoid, base]

/-- The full claim: every call hands over its arguments. -/
def HandoverFull : Prop :=
  ∀ (j k : Bool) (sp : Int) (f : FnTy) (va : List Ty), HandsOver sp f va (gencall j sp f va) (addarglocs k (framePtr sp) f)

/-- The claim for functions whose parameters and results are `Passable`, with no void parameters before
`...`, and without parameters which are small aggregates of floating point values in one register. -/
theorem handover_partial (j k : Bool) (sp : Int) (f : FnTy) (va : List Ty) (h : Callable f)
    (hf : ∀ t ∈ f.params, classify t ≠ .ok .aggrF) :
    HandsOver sp f va (gencall j sp f va) (addarglocs k (framePtr sp) f) := by
  rcases call_cases j k sp f va h with ⟨_, t, h1, h2⟩ | h
  · exact absurd h2 (hf t h1)
  · exact h

/-- With such parameters the claim holds if the caller stays within the table of registers. -/
theorem handover_lone_partial (j k : Bool) (sp : Int) (f : FnTy) (va : List Ty) (h : Callable f)
    (hf : gencall j sp f va ≠ .ub) :
    HandsOver sp f va (gencall j sp f va) (addarglocs k (framePtr sp) f) := by
  rcases call_cases j k sp f va h with ⟨h1, _⟩ | h
  · exact absurd h1 hf
  · exact h

/-- `(a : int, b : flt64, c : struct x : flt64; y : byte ;;, d : byte[:], e : void, g : byte -> byte[:])`. -/
def sampleFn : FnTy :=
  { ret := .slice
    params := [.int32, .flt64, .struct (.cons 0 .flt64 (.cons 1 .int8 .nil)), .slice, .void, .int8]
    variadic := false, named := false }

example : gencall true 1000 sampleFn [] = .ok [[.ireg 0], [.ireg 1], [.freg 0], [.freg 1, .ireg 2],
    [.mem 1000 16], [.ireg 3]] := by decide +kernel

example : addarglocs false (framePtr 1000) sampleFn = .ok [[.ireg 0], [.ireg 1], [.freg 0], [.freg 1, .ireg 2],
    [.mem 1000 16], [], [.ireg 3]] := by decide +kernel

example : Callable sampleFn := by
  refine ⟨fun h _ => ?_, ?_, fun h => by cases h⟩
  · exact absurd h (by decide)
  · intro t ht
    simp only [sampleFn, List.mem_cons, List.not_mem_nil, or_false] at ht
    rcases ht with rfl | rfl | rfl | rfl | rfl | rfl <;> intro h _ <;>
      first | exact absurd h (by decide) | exact Or.inr ⟨by decide +kernel, by decide +kernel⟩

/-- `struct a : int32; b : std.option(int32) ;;`, 12 bytes. -/
def optTy : Ty := .struct (.cons 0 .int32 (.cons 1 (.name (.union (.cons .int32 (.bare .nil)))) .nil))

/-- The compiler dies on a parameter of the type `struct a : int32; b : std.option(int32) ;;`. -/
theorem handover_violated : ¬ HandoverFull := by
  intro h
  obtain ⟨_, _, xs, _, _, _, _, h1, _⟩ := h false false 0 ⟨.void, [optTy], false, false⟩ []
  have : gencall false 0 ⟨.void, [optTy], false, false⟩ [] = .abort := by decide +kernel
  rw [this] at h1
  cases h1

/-- It dies on empty structs as well, and on results of such types. -/
theorem empty_dies : classify (.struct .nil) = .abort ∧ classify (.array (some 0) .int8) = .abort ∧ classify optTy = .abort ∧
    countargs ⟨optTy, [], false, false⟩ = .abort := by decide +kernel

/-- A struct of one floating point value after eight floating point values: the register is read from
beyond the table, by the caller and the function. -/
theorem lone_float_ub (j k : Bool) (sp : Int) :
    let f : FnTy := ⟨.void, List.replicate 8 .flt64 ++ [.struct (.cons 0 .flt64 .nil)], false, false⟩
    gencall j sp f [] = .ub ∧ addarglocs k (framePtr sp) f = .ub := by
  cases j <;> cases k <;> exact ⟨rfl, rfl⟩

/-- A void parameter before `...`: the caller puts the type description into a register, and the
function looks for it on the stack, where the first variadic argument is. -/
theorem void_variadic (j k : Bool) :
    let f : FnTy := ⟨.void, [.void], true, false⟩
    gencall j 1000 f [.int32] = .ok [[.ireg 0], [.mem 1000 4]] ∧
    addarglocs k (framePtr 1000) f = .ok [[], [.mem 1000 8]] := by
  cases j <;> cases k <;> decide +kernel

/-- For every argument passed in memory the table of needed registers is read beyond its end. -/
theorem table_overrun : needed .big = none := rfl

end Verif.Call
