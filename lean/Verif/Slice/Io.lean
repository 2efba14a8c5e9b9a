import Verif.Slice.Props

/-!
# C63: whole-file reading and writing
-/

namespace Verif.Slice

theorem slurpLoop_spec (fresh : Nat → List Byte) (hf : Fresh fresh) (env : Nat → Option Nat) (fuel : Nat) :
    ∀ (t : Nat) (file : List Byte) (buf : Sl Byte) (done : List Byte),
      file.length + 1 < fuel → done.length < buf.data.length → buf.data.take done.length = done →
      ∃ r, slurpLoop fresh env fuel t file buf done.length buf.data.length = .ok r ∧
        (r = some (done ++ file) ∨
          (r = none ∧ ∃ k, k ≤ file.length ∧ env (t + k) = none)) := by
  induction fuel with
  | zero => intro t file buf done h; omega
  | succ n ih =>
    intro t file buf done h1 h2 h3
    unfold slurpLoop
    rw [slice_suffix (by omega), Res.bind_ok, List.length_drop, sysread]
    cases he : env t with
    | none => exact ⟨none, rfl, Or.inr ⟨rfl, 0, by omega, by simpa using he⟩⟩
    | some k =>
      simp only [Option.map_some]
      by_cases hz : min (k + 1) (min file.length (buf.data.length - done.length)) = 0
      · have : file = [] := List.eq_nil_of_length_eq_zero (by omega)
        subst this
        rw [if_pos hz, slice_prefix (by omega), Res.bind_ok, h3]
        exact ⟨_, rfl, Or.inl (by simp)⟩
      · rw [if_neg hz]
        obtain ⟨m, hm⟩ : ∃ m, m = min (k + 1) (min file.length (buf.data.length - done.length)) := ⟨_, rfl⟩
        rw [← hm]
        have hdl : (done ++ file.take m).length = done.length + m := by simp; omega
        have fin : ∀ (b : Sl Byte), b.data.take (done.length + m) = done ++ file.take m →
            done.length + m < b.data.length → ∃ r, slurpLoop fresh env n (t + 1) (file.drop m) b
              (done.length + m) b.data.length = .ok r ∧
              (r = some (done ++ file) ∨ (r = none ∧ ∃ k, k ≤ file.length ∧ env (t + k) = none)) := by
          intro b hb hl
          obtain ⟨r, g1, g2⟩ := ih (t + 1) (file.drop m) b (done ++ file.take m) (by simp; omega) (by omega)
            (by rw [hdl]; exact hb)
          rw [hdl] at g1
          refine ⟨r, g1, ?_⟩
          rcases g2 with g2 | ⟨g2, j, g3, g4⟩
          · left; rw [g2, List.append_assoc, List.take_append_drop]
          · refine Or.inr ⟨g2, j + 1, ?_, ?_⟩
            · simp at g3; omega
            · rw [← g4]; congr 1; omega
        have hbl : (buf.data.take done.length ++ file.take m ++ buf.data.drop (done.length + m)).length =
            buf.data.length := by simp; omega
        have hbt : (buf.data.take done.length ++ file.take m ++ buf.data.drop (done.length + m)).take
            (done.length + m) = done ++ file.take m := by
          rw [h3, List.take_left' hdl]
        by_cases hg : done.length + m + 2 * m ≥ buf.data.length
        · simp only [if_pos hg]
          obtain ⟨b, g1, g2, g3⟩ := slgrow_spec fresh hf
            ⟨buf.data.take done.length ++ file.take m ++ buf.data.drop (done.length + m), buf.spare⟩
            (buf.data.length * 2)
          rw [g1, Res.bind_ok, ← g2]
          simp only [hbl] at g3
          refine fin b ?_ (by omega)
          have : (b.data.take buf.data.length).take (done.length + m) = done ++ file.take m := by
            rw [g3, List.take_take, Nat.min_eq_left (by omega), hbt]
          rwa [List.take_take, Nat.min_eq_left (by omega)] at this
        · simp only [if_neg hg]
          have := fin ⟨buf.data.take done.length ++ file.take m ++ buf.data.drop (done.length + m), buf.spare⟩
            hbt (by simp only [hbl]; omega)
          simp only [hbl] at this
          exact this

/-- **C63, `fslurp`.**  For every file and every schedule of short reads, the result is the
complete content; an error is returned only if a read failed. -/
theorem fslurp_spec (fresh : Nat → List Byte) (hf : Fresh fresh) (env : Nat → Option Nat) (file : List Byte) :
    ∃ r, fslurp fresh env (file.length + 2) file = .ok r ∧
      (r = some file ∨ (r = none ∧ ∃ k, k ≤ file.length ∧ env k = none)) := by
  have h := hf 4096
  obtain ⟨r, h1, h2⟩ := slurpLoop_spec fresh hf env (file.length + 2) 0 file
    ⟨(fresh 4096).take 4096, (fresh 4096).drop 4096⟩ [] (by omega) (by simp; omega) (by simp)
  have e : ((fresh 4096).take 4096).length = 4096 := by simp; omega
  simp only [e, List.nil_append, Nat.zero_add, List.length_nil] at h1 h2
  exact ⟨r, h1, h2⟩

theorem readallLoop_spec (env : Nat → Option Nat) (fuel : Nat) : ∀ (t : Nat) (file done : List Byte) (dst : Nat),
    dst < fuel →
    ∃ r, readallLoop env fuel t file done dst = .ok r ∧
      (r = some (done ++ file.take dst) ∨ (r = none ∧ ∃ k, env (t + k) = none)) := by
  induction fuel with
  | zero => intro t file done dst h; omega
  | succ n ih =>
    intro t file done dst h
    unfold readallLoop
    by_cases hd : dst = 0
    · subst hd; exact ⟨some done, by simp, Or.inl (by simp)⟩
    · rw [if_pos hd, sysread]
      cases he : env t with
      | none => exact ⟨none, rfl, Or.inr ⟨rfl, 0, by simpa using he⟩⟩
      | some k =>
        simp only [Option.map_some]
        by_cases hz : min (k + 1) (min file.length dst) = 0
        · have : file = [] := List.eq_nil_of_length_eq_zero (by omega)
          subst this
          rw [if_pos hz]
          exact ⟨_, rfl, Or.inl (by simp)⟩
        · rw [if_neg hz]
          obtain ⟨m, hm⟩ : ∃ m, m = min (k + 1) (min file.length dst) := ⟨_, rfl⟩
          rw [← hm]
          obtain ⟨r, g1, g2⟩ := ih (t + 1) (file.drop m) (done ++ file.take m) (dst - m) (by omega)
          refine ⟨r, g1, ?_⟩
          rcases g2 with g2 | ⟨g2, j, g3⟩
          · left
            rw [g2, List.append_assoc, ← List.take_add]
            congr 3
            omega
          · exact Or.inr ⟨g2, j + 1, by rw [← g3]; congr 1; omega⟩

/-- **C63, `readall`.**  Reads exactly the buffer's length or up to the end of the file. -/
theorem readall_spec (env : Nat → Option Nat) (file : List Byte) (dst : Nat) :
    ∃ r, readallLoop env (dst + 1) 0 file [] dst = .ok r ∧
      (r = some (file.take dst) ∨ (r = none ∧ ∃ k, env k = none)) := by
  obtain ⟨r, h1, h2⟩ := readallLoop_spec env (dst + 1) 0 file [] dst (by omega)
  simp only [List.nil_append, Nat.zero_add] at h2
  exact ⟨r, h1, h2⟩

/-- Every write makes progress. -/
def Progress (env : Nat → Option Nat) : Prop := ∀ t, env t ≠ none ∧ env t ≠ some 0

theorem writeallLoop_spec (env : Nat → Option Nat) (fuel : Nat) : ∀ (t : Nat) (out src : List Byte),
    src.length < fuel → ∃ o ok, writeallLoop env fuel t out src = .ok (o, ok) ∧
      (∃ k, o = out ++ src.take k) ∧ (ok = true → o = out ++ src) ∧ (Progress env → ok = true) := by
  induction fuel with
  | zero => intro t out src h; omega
  | succ n ih =>
    intro t out src h
    unfold writeallLoop
    by_cases hs : src.length = 0
    · have : src = [] := List.eq_nil_of_length_eq_zero hs
      subst this
      exact ⟨out, true, by simp, ⟨0, by simp⟩, by simp, by simp⟩
    · rw [if_pos hs, syswrite]
      cases he : env t with
      | none => exact ⟨out, false, rfl, ⟨0, by simp⟩, by simp, fun hp => absurd he (hp t).1⟩
      | some k =>
        simp only [Option.map_some]
        by_cases hz : min k src.length = 0
        · rw [if_pos hz]
          refine ⟨out, false, rfl, ⟨0, by simp⟩, by simp, fun hp => absurd he ?_⟩
          rw [show k = 0 by omega]
          exact (hp t).2
        · rw [if_neg hz]
          obtain ⟨m, hm⟩ : ∃ m, m = min k src.length := ⟨_, rfl⟩
          rw [← hm]
          obtain ⟨o, ok, g1, ⟨j, g2⟩, g3, g4⟩ := ih (t + 1) (out ++ src.take m) (src.drop m) (by simp; omega)
          refine ⟨o, ok, g1, ⟨m + j, ?_⟩, ?_, g4⟩
          · rw [g2, List.append_assoc, ← List.take_add]
          · intro hok; rw [g3 hok, List.append_assoc, List.take_append_drop]

/-- **C63, `writeall`.**  Writes a prefix in order; `Ok` means everything was written; it
succeeds whenever every write makes progress. -/
theorem writeall_spec (env : Nat → Option Nat) (src : List Byte) :
    ∃ o ok, writeallLoop env (src.length + 1) 0 [] src = .ok (o, ok) ∧ o <+: src ∧
      (ok = true → o = src) ∧ (Progress env → ok = true) := by
  obtain ⟨o, ok, h1, ⟨k, h2⟩, h3, h4⟩ := writeallLoop_spec env (src.length + 1) 0 [] src (by omega)
  exact ⟨o, ok, h1, by rw [h2, List.nil_append]; exact List.take_prefix _ _, by simpa using h3, h4⟩

theorem fblatLoop_spec (env : Nat → Option Nat) (buf : List Byte) (fuel : Nat) : ∀ (t count : Nat),
    count ≤ buf.length → buf.length - count < fuel →
    ∃ o ok, fblatLoop env buf fuel t (buf.take count) count = .ok (o, ok) ∧
      o <+: buf ∧ (ok = true → o = buf) ∧ (Progress env → ok = true) := by
  induction fuel with
  | zero => intro t count _ h; omega
  | succ n ih =>
    intro t count hc h
    unfold fblatLoop
    rw [slice_suffix hc, Res.bind_ok, List.length_drop, syswrite]
    cases he : env t with
    | none => exact ⟨_, false, rfl, List.take_prefix _ _, by simp, fun hp => absurd he (hp t).1⟩
    | some k =>
      simp only [Option.map_some]
      by_cases hz : min k (buf.length - count) = 0
      · rw [if_pos hz]
        refine ⟨_, decide (count = buf.length), rfl, List.take_prefix _ _, ?_, ?_⟩
        · intro h; simp at h; subst h; simp
        · intro hp
          have : k ≠ 0 := fun h0 => (hp t).2 (by rw [he, h0])
          simp; omega
      · rw [if_neg hz]
        obtain ⟨m, hm⟩ : ∃ m, m = min k (buf.length - count) := ⟨_, rfl⟩
        rw [← hm, ← List.take_add]
        exact ih (t + 1) (count + m) (by omega) (by omega)

/-- **C63, `fblat`.**  As `writeall`. -/
theorem fblat_spec (env : Nat → Option Nat) (buf : List Byte) :
    ∃ o ok, fblatLoop env buf (buf.length + 1) 0 [] 0 = .ok (o, ok) ∧
      o <+: buf ∧ (ok = true → o = buf) ∧ (Progress env → ok = true) := by
  have := fblatLoop_spec env buf (buf.length + 1) 0 0 (by omega) (by omega)
  simpa using this

/-- The claim of C63 for `blat`: when it returns true the file's content is `buf`. -/
def BlatClaim : Prop := ∀ (env : Nat → Option Nat) (old buf : List Byte) c, blat env old buf = .ok (c, true) → c = buf

/-- **C63, `blat`, part.**  Holds when the file was no longer than the new content; what is
missing is truncation of longer files. -/
theorem blat_partial (env : Nat → Option Nat) (old buf : List Byte) (h : old.length ≤ buf.length) :
    ∃ c ok, blat env old buf = .ok (c, ok) ∧ (ok = true → c = buf) ∧ (Progress env → ok = true) := by
  obtain ⟨o, ok, h1, h2, h3, h4⟩ := fblat_spec env buf
  refine ⟨_, ok, by rw [blat, h1]; rfl, ?_, h4⟩
  intro hok
  rw [h3 hok, List.drop_of_length_le h, List.append_nil]

/-- Writing one byte over a three byte file leaves two old bytes. -/
theorem blat_violated : ¬ BlatClaim := by
  intro h
  have := h (fun _ => some 10) [1, 2, 3] [9] [9, 2, 3] (by decide +kernel)
  cases this

theorem cstrconv_aux (buf : List Byte) (n : Nat) : n ≤ buf.length → 0#8 ∉ buf.take (buf.length - n) →
    cstrconv buf n = .ok (buf.takeWhile (· ≠ 0#8)) := by
  induction n with
  | zero =>
    intro _ h
    unfold cstrconv
    rw [Nat.sub_zero, List.take_length] at h
    congr 1
    symm
    have e := List.takeWhile_append_of_pos (p := fun b : Byte => decide (b ≠ 0#8)) (l₁ := buf) (l₂ := [])
      (by
        intro b hb
        simp only [ne_eq, decide_not, Bool.not_eq_eq_eq_not, Bool.not_true, decide_eq_false_iff_not]
        rintro rfl
        exact h hb)
    simpa using e
  | succ n ih =>
    intro hn h
    unfold cstrconv
    have hlt : buf.length - (n + 1) < buf.length := by omega
    rw [rdChk_ok hlt, Res.bind_ok]
    have hsplit : buf = buf.take (buf.length - (n + 1)) ++ buf[buf.length - (n + 1)] :: buf.drop (buf.length - n) := by
      have e := List.drop_eq_getElem_cons hlt
      rw [show buf.length - (n + 1) + 1 = buf.length - n by omega] at e
      rw [← e, List.take_append_drop]
    by_cases hb : buf[buf.length - (n + 1)] = 0#8
    · rw [if_pos hb, slice_prefix (by omega)]
      congr 1
      rw [hb] at hsplit
      conv => rhs; rw [hsplit]
      rw [List.takeWhile_append_of_pos]
      · simp
      · intro b hb
        simp only [ne_eq, decide_not, Bool.not_eq_eq_eq_not, Bool.not_true, decide_eq_false_iff_not]
        rintro rfl
        exact h hb
    · rw [if_neg hb]
      refine ih (by omega) ?_
      rw [show buf.length - n = buf.length - (n + 1) + 1 by omega, List.take_add_one, List.getElem?_eq_getElem hlt]
      simp only [Option.toList_some, List.mem_append, List.mem_singleton, not_or]
      exact ⟨h, fun h => hb h.symm⟩

/-- **C63, C strings.**  `cstrconv` gives the bytes before the first NUL, or all of them. -/
theorem cstrconv_spec (buf : List Byte) : cstrconv buf buf.length = .ok (buf.takeWhile (· ≠ 0#8)) :=
  cstrconv_aux buf buf.length (Nat.le_refl _) (by simp)

/-- Short reads of one and two bytes. -/
example : fslurp (fun n => List.replicate n 0) (fun t => some (t % 2)) 9 [1, 2, 3, 4] = .ok (some [1, 2, 3, 4]) := by
  decide +kernel

/-- A read error. -/
example : fslurp (fun n => List.replicate n 0) (fun t => if t = 1 then none else some 0) 9 [1, 2] = .ok none := by
  decide +kernel

/-- Writes of one byte at a time; then a disk that fills up. -/
example : writeallLoop (fun _ => some 1) 4 0 [] [1, 2, 3] = .ok ([1, 2, 3], true) ∧
    writeallLoop (fun t => some (if t = 0 then 2 else 0)) 4 0 [] [1, 2, 3] = .ok ([1, 2], false) := by
  decide +kernel

example : Progress fun _ => some 1 := fun _ => by simp
example : cstrconv [97, 98, 0, 99] 4 = .ok [97, 98] := by decide +kernel

end Verif.Slice
