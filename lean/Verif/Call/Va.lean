import Verif.Call.Props
import Verif.Tydesc.Props

/-!
# Variadic arguments are read back (C91)
-/

namespace Verif.Call

open Verif.Layout

theorem alignptr_add (sp off a : Nat) (hs : 8 ∣ sp) (ha : Layout.Pow a) : alignptr (sp + off) a = sp + align off a := by
  have e : ∀ p, alignptr p a = align p a := by
    intro p
    unfold alignptr align
    rw [if_neg (by unfold Layout.Pow at ha; omega)]
  rw [e, align_add]
  exact Nat.dvd_trans (pow_dvd ha (by unfold Layout.Pow; omega) (by unfold Layout.Pow at ha; omega)) hs

/-- Where the variadic arguments which are not void are put, and where `vanext` looks for each. -/
theorem reads_back (j : Bool) (sp n : Nat) (hs : 8 ∣ sp) : ∀ (va : List Ty) (tis : List (Nat × Nat)) (i : Nat) (s : PS),
    List.Forall₂ (fun t ti => ti.2 = tyalign t) va tis → n ≤ i →
    ∃ s', callArgs j sp n i (va.filter (fun t => !isvoid t)) s =
      .ok (((va.zip (vareads (sp + s.off) (tis.zip (va.map tysize)))).filter (fun u => !isvoid u.1)).map
        (fun u => [.mem (u.2 : Nat) (tysize u.1)]), s')
  | [], _, i, s, .nil, _ => ⟨s, rfl⟩
  | t :: va, ti :: tis, i, s, .cons h1 h2, hn => by
    rw [List.map_cons, List.zip_cons_cons, vareads, vanext, h1, alignptr_add sp s.off _ hs (tyalign_pow t)]
    dsimp only
    rw [List.zip_cons_cons]
    cases hv : isvoid t with
    | true =>
      rw [List.filter_cons_of_neg (by simp [hv]), List.filter_cons_of_neg (by simp [hv])]
      have hb : base t = .void := by
        unfold isvoid at hv
        split at hv
        · assumption
        · cases hv
      have ha : tyalign t = 1 := by rw [← base_align, hb]; rfl
      have hz : tysize t = 0 := by rw [← base_size, hb]; rfl
      rw [ha, hz, show align s.off 1 = s.off by rw [align_of_dvd _ _ (Nat.one_dvd _)], Nat.add_zero]
      exact reads_back j sp n hs va tis i s h2 hn
    | false =>
      rw [List.filter_cons_of_pos (by simp [hv]), List.filter_cons_of_pos (by simp [hv]), callArgs,
        show decide (n ≤ i) = true by simpa using hn, callArg_var, Res.bind_ok]
      dsimp only
      obtain ⟨s', h⟩ := reads_back j sp n hs va tis (i + 1) { s with off := alignto s.off t + tysize t } h2 (by omega)
      rw [h]
      refine ⟨s', ?_⟩
      rw [List.map_cons, Nat.add_assoc]
      unfold alignto
      rw [show ((sp : Int) + (align s.off (tyalign t) : Nat)) = ((sp + align s.off (tyalign t) : Nat) : Int) by omega]
      rfl

/-- A function with `...` after its parameters gets the address of a type description; `vanext`, used
once for every variadic argument with the type of the argument, reads from the addresses where the
caller put them.  (`tis` is what `typeinfo` says of the types; see `typeinfo_align`.  The stack pointer
is a multiple of 8.) -/
theorem vanext_partial (j k : Bool) (sp : Nat) (hs : 8 ∣ sp) (f : FnTy) (va : List Ty) (hc : Callable f)
    (hv : f.variadic = true) (tis : List (Nat × Nat)) (ht : List.Forall₂ (fun t ti => ti.2 = tyalign t) va tis)
    (xs : List (List Place)) (hx : gencall j sp f va = .ok xs) :
    ∃ (fixed : List (List Place)) (desc : Nat), addarglocs k (framePtr sp) f = .ok (fixed ++ [[.mem desc 8]]) ∧
      xs = fixed ++ [.mem desc 8] ::
        ((va.zip (vareads (vastart desc) (tis.zip (va.map tysize)))).filter (fun u => !isvoid u.1)).map
          (fun u => [.mem (u.2 : Nat) (tysize u.1)]) := by
  rcases call_cases j k sp f va hc with ⟨h1, _⟩ | ⟨ts, us, xs', ys, rest, h1, h2, h3, h4, h5, h6, h7, h8, h9⟩
  · rw [h1] at hx; cases hx
  · rw [hx] at h3
    cases h3
    obtain ⟨a, hr⟩ := classify_passable f.ret hc.ret
    unfold funcTys at h2
    rw [hr, Res.bind_ok, hv, if_pos rfl] at h2
    unfold callerTys at h1
    rw [hr, Res.bind_ok, hv, if_pos rfl] at h1
    have hn : countargs f = .ok ((if a = .big then 1 else 0) + f.params.length) := by
      unfold countargs
      rw [hr, Res.bind_ok, hv]
      by_cases ha : a = .big <;> simp [ha] <;> omega
    have hpf : f.params.filter (fun t => !isvoid t) = f.params := by
      rw [List.filter_eq_self]
      intro t ht
      rw [hc.novoid hv t ht]
      rfl
    rw [hpf] at h1
    generalize hH : ((if a = .big then [Ty.ptr] else []) ++ f.params : List Ty) = ps at h1 h2
    have hpl : (if a = .big then 1 else 0) + f.params.length = ps.length := by
      rw [← hH]; split <;> simp [Nat.add_comm]
    have hnv : ∀ t ∈ ps, isvoid t = false := by
      intro t ht
      rw [← hH, List.mem_append] at ht
      rcases ht with ht | ht
      · split at ht
        · rw [List.mem_singleton] at ht; subst ht; rfl
        · simp at ht
      · exact hc.novoid hv t ht
    have e1 : ts = ps ++ .ptr :: va.filter (fun t => !isvoid t) := by
      rw [show (pure (ps ++ .ptr :: va.filter (fun t => !isvoid t)) : Res (List Ty)) = .ok _ from rfl, Res.ok.injEq] at h1
      exact h1.symm
    have e2 : us = ps ++ [.valist] := by
      rw [show (pure (ps ++ [.valist]) : Res (List Ty)) = .ok _ from rfl, Res.ok.injEq] at h2
      exact h2.symm
    -- the caller's list
    have hx' := hx
    unfold gencall callerTys at hx'
    rw [hn, Res.bind_ok, hr, Res.bind_ok, hv, if_pos rfl, hpf, hH, hpl] at hx'
    rw [show (pure (ps ++ .ptr :: va.filter (fun t => !isvoid t)) : Res (List Ty)) = .ok _ from rfl, Res.bind_ok] at hx'
    obtain ⟨⟨r, s⟩, g1, g2⟩ := Res.bind_eq_ok.1 hx'
    cases g2
    obtain ⟨x1, s1, x2, k1, k2, k3⟩ := callArgs_append j sp ps.length _ _ 0 _ _ _ g1
    rw [callArgs, show decide (ps.length ≤ 0 + ps.length) = true by simp, callArg_var, Res.bind_ok] at k2
    dsimp only at k2
    obtain ⟨s', q⟩ := reads_back j sp ps.length hs va tis (0 + ps.length + 1)
      { s1 with off := alignto s1.off .ptr + tysize .ptr } ht (by omega)
    rw [q] at k2
    cases k2
    -- the function's list
    have hl1 : x1.length = ps.length := by
      have hq : ∀ (ts : List Ty) (i : Nat) (s s' : PS) (xs : List (List Place)), callArgs j sp ps.length i ts s = .ok (xs, s') →
          xs.length = ts.length := by
        intro ts
        induction ts with
        | nil => intro i s s' xs h; rw [callArgs] at h; cases h; rfl
        | cons t ts ih =>
          intro i s s' xs h
          rw [callArgs] at h
          obtain ⟨⟨x, s1⟩, _, h⟩ := Res.bind_eq_ok.1 h
          dsimp only at h
          obtain ⟨⟨r1, s2⟩, h2, h⟩ := Res.bind_eq_ok.1 h
          cases h
          simp [ih _ _ _ _ h2]
      exact hq _ _ _ _ _ k1
    have hfz : (us.zip ys).filter (fun u => !isvoid u.1) = us.zip ys := by
      rw [List.filter_eq_self]
      rintro ⟨u, y⟩ hu
      have := (List.of_mem_zip hu).1
      rw [e2, List.mem_append] at this
      rcases this with h | h
      · simp [hnv u h]
      · rw [List.mem_singleton] at h; subst h; rfl
    rw [hfz, List.map_snd_zip (by omega)] at h6
    rw [k3] at h6
    have hyl : ys.length = ps.length + 1 := by rw [← h5, e2]; simp
    have hys : ys = x1 ++ [[.mem (sp + (alignto s1.off .ptr : Nat)) (tysize .ptr)]] := by
      rw [List.append_cons] at h6
      exact (List.append_inj_left h6 (by simp [hl1, hyl])).symm
    refine ⟨x1, sp + alignto s1.off .ptr, ?_, ?_⟩
    · rw [h4, hys]; rfl
    · rw [k3]
      rw [show vastart (sp + alignto s1.off .ptr) = sp + (alignto s1.off .ptr + tysize .ptr) by unfold vastart; rw [tysize]; omega]
      rfl

/-- The types described to the function are those of the variadic arguments. -/
def VatypesFull : Prop := ∀ (f : FnTy) (va : List Ty), f.variadic = true → vatypes f va = va

/-- They are if the type of the function has no name of its own. -/
theorem vatypes_partial (f : FnTy) (va : List Ty) (hv : f.variadic = true) (hn : f.named = false) : vatypes f va = va := by
  unfold vatypes
  rw [hv, hn]
  simp only [Bool.false_eq_true, if_false, if_true]
  rw [show 1 + f.params.length + 1 - 1 = (Ty.func :: f.params).length by simp; omega, List.drop_left]

/-- If it has, the function itself and the other arguments are described too. -/
theorem vatypes_violated : ¬ VatypesFull := by
  intro h
  have := h ⟨.void, [.slice], true, true⟩ [.int32] rfl
  have h2 := congrArg List.length this
  revert h2
  decide

/-- The alignment which `typeinfo` gives is the compiler's, for every type (the sizes are not:
`Verif.Tydesc.typeinfo_violated`). -/
theorem typeinfo_align (env : Tydesc.Env) (d t : Tydesc.Desc) (h : Tydesc.EndsIn env d t) :
    ∃ k, ∀ f, k ≤ f → ∀ e, Tydesc.Body d e → ∃ sz, Tydesc.typeinfo env f e = .ok (sz, tyalign (Tydesc.lay d)) := by
  by_cases hx : t = .atom 2 ∨ ∃ ts, t = .func ts
  · induction h with
    | atom t h1 h2 =>
      have : t = 2 := by
        rcases hx with h | ⟨ts, h⟩
        · cases h; rfl
        · cases h
      subst this
      refine ⟨1, fun f hf e he => ⟨0, ?_⟩⟩
      obtain ⟨f, rfl⟩ : ∃ g, f = g + 1 := ⟨f - 1, by omega⟩
      obtain ⟨sub, n, hs, hsz, rfl⟩ := Tydesc.body_ok he
      rw [Tydesc.tysub] at hs
      cases hs
      rw [Tydesc.typeinfo]
      rfl
    | func ts =>
      refine ⟨1, fun f hf e he => ⟨8, ?_⟩⟩
      obtain ⟨f, rfl⟩ : ∃ g, f = g + 1 := ⟨f - 1, by omega⟩
      exact (Tydesc.typeinfo_func env f ts e he).1
    | ptr t => simp at hx
    | slice t => simp at hx
    | array n t => simp at hx
    | tuple ts => simp at hx
    | struct ts => simp at hx
    | union ts => simp at hx
    | name a nm t u hat _ ih =>
      obtain ⟨k, ih⟩ := ih hx
      refine ⟨k + 2, fun f hf e he => ?_⟩
      obtain ⟨f, rfl⟩ : ∃ g, f = g + 2 := ⟨f - 2, by omega⟩
      obtain ⟨sub, n, hs, hsz, rfl⟩ := Tydesc.body_ok he
      rw [Tydesc.tysub] at hs
      cases hs
      obtain ⟨e, he, hl, hnm, hg⟩ := Tydesc.nameAt_getenc hat
      rw [show Tydesc.emits (.cons (.i8 (28 ||| 0x80)) (.cons (.ref a) .nil)) = 156#8 :: (List.ofFn a ++ []) from rfl]
      rw [Tydesc.typeinfo, Tydesc.rdChk_cons, Res.bind_ok, Tydesc.suffix_one, Res.bind_ok, if_neg (by decide), if_neg (by decide),
        if_neg (by decide), if_neg (by decide), if_neg (by decide), if_neg (by decide), if_pos (by rfl), Tydesc.address_ok,
        Res.bind_ok, hg, Res.bind_ok]
      rw [Tydesc.typeinfo, Tydesc.rdChk_cons, Res.bind_ok, Tydesc.suffix_one, Res.bind_ok, if_neg (by decide), if_neg (by decide),
        if_neg (by decide), if_neg (by decide), if_neg (by decide), if_pos (by rfl), Tydesc.namedesc_ok _ _ _ hnm hl, Res.bind_ok]
      dsimp only
      rw [Tydesc.lay]
      exact ih f (by omega) e he
  · obtain ⟨k, h⟩ := Tydesc.typeinfo_partial env d t h (fun e => hx (Or.inl e)) (fun ts e => hx (Or.inr ⟨ts, e⟩))
    exact ⟨k, fun f hf e he => ⟨_, h f hf e he⟩⟩

/-- The full claim for `vabytes`: the bytes are those at the address where `vanext` would read. -/
def VabytesFull : Prop :=
  ∀ (args : Nat) (ti : Nat × Nat) (size : Nat), Layout.Pow ti.2 →
    vabytes args ti = (((vanext args ti size).1, ti.1), (vanext args ti ti.1).2)

/-- After a byte, the bytes of an 8-byte number begin too early. -/
theorem vabytes_violated : ¬ VabytesFull := by
  intro h
  have := h 1001 (8, 8) 8 (by unfold Layout.Pow; omega)
  revert this
  decide

/-- They are right if no padding comes before them; and the next value is found behind them. -/
theorem vabytes_partial (args : Nat) (ti : Nat × Nat) (size : Nat) (hp : Layout.Pow ti.2) :
    (ti.2 ∣ args → vabytes args ti = (((vanext args ti size).1, ti.1), (vanext args ti ti.1).2)) ∧
    (vabytes args ti).2 = (vanext args ti ti.1).2 := by
  refine ⟨fun h => ?_, rfl⟩
  have e : alignptr args ti.2 = args := by
    unfold alignptr
    have := align_of_dvd args ti.2 h
    unfold align at this
    rwa [if_neg (by unfold Layout.Pow at hp; omega)] at this
  unfold vabytes vanext
  rw [e]

/-- Skipping a `bool` with `vabytes` does not move on: `typeinfo` says that it has no bytes. -/
theorem vabytes_bool (args : Nat) (env : Tydesc.Env) :
    ∃ ti, Tydesc.typeinfo env 1 [2] = .ok ti ∧ (vabytes args ti).2 = args := by
  exact ⟨(0, 1), by rfl, by simp [vabytes, alignptr]; omega⟩

/-- `f(a : byte[:], args : ...)` called with `(1 : byte), 'x', void, 2.0`. -/
example : gencall false 1024 ⟨.void, [.slice], true, false⟩ [.int8, .char, .void, .flt64] =
    .ok [[.mem 1024 16], [.mem 1040 8], [.mem 1048 1], [.mem 1052 4], [.mem 1056 8]] := by decide +kernel

example : vareads (vastart 1040) [((1, 1), 1), ((4, 4), 4), ((0, 1), 0), ((8, 8), 8)] = [1048, 1052, 1056, 1056] := by decide

example : Callable ⟨.void, [.slice], true, false⟩ :=
  ⟨fun h _ => absurd h (by decide), fun t ht h => by rw [List.mem_singleton] at ht; subst ht; exact absurd h (by decide),
    fun _ t ht => by rw [List.mem_singleton] at ht; subst ht; rfl⟩

example : vatypes ⟨.void, [.slice], true, true⟩ [.int32] = [.func, .slice, .int32] := by rfl

end Verif.Call
