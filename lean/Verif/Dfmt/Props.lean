import Verif.Dfmt.Lemmas
import Verif.Date.Props

/-!
# C97: dates written with a format are read back with it
-/

namespace Verif.Dfmt

open Date (Inst recalc w64 mkinstantoff)
open Spec (Item render letters agree Good Valid known fine nogap)

/-- The instant read is that of its fields. -/
def Consistent (d : Inst) : Prop := d.actual = w64 (recalc d - d.tzoff)

/-- The full claim: a date written with a format of known letters is read back with the format; what the letters say is
the same, and the instant is that of the fields. -/
def FullClaim : Prop :=
  ∀ (is : List Item) (d : Inst), Good is → Valid d →
    ∃ t, datefmt (render is) d = .ok t ∧ ∃ d', parsefmt (render is) t = some (.ok d') ∧ (∀ c ∈ letters is, agree c d d') ∧
      Consistent d'

/-- C97, partial: for the letters `Y m b B d H k M S z`, no two blanks in a row, and with `%z` zones of whole hours.
Fields no letter speaks of are zero. -/
theorem written_dates_read_back_partial (is : List Item) (d : Inst) (hf : ∀ c ∈ letters is, c ∈ fine)
    (hn : (letters is).Nodup) (hl : Item.lit '%' ∉ is) (hg : nogap isspace is)
    (hz : 'z' ∈ letters is → ∃ k : Int, d.tzoff = k * 3600000000) (hv : Valid d) :
    ∃ t, datefmt (render is) d = .ok t ∧ ∃ d', parsefmt (render is) t = some (.ok d') ∧
      (∀ c ∈ letters is, agree c d d') ∧ Consistent d' ∧ d'.us = 0 ∧ d'.wday = 0 ∧
      ('Y' ∉ letters is → d'.year = 0) ∧ ('z' ∉ letters is → d'.tzoff = 0) := by
  obtain ⟨t, e1, -, e3⟩ := run (fmtLoop (fun _ _ => .spin)) (fun f st => fillLoop (fun _ _ => none) f { st with am := none })
    d hv is hf hn hl hg hz
  have e := e3 ⟨zero, [], t, none⟩ rfl (by simp)
  obtain ⟨u, hu⟩ : ∃ u, u = updAll d (letters is) zero := ⟨_, rfl⟩
  have hp : parsefmt (render is) t = some (.ok { u with actual := w64 (recalc u - u.tzoff) }) := by
    unfold parsefmt filldate
    rw [e, ← hu]
    rfl
  have keep : ∀ c ∈ letters is, agree c d { u with actual := w64 (recalc u - u.tzoff) } := by
    intro c hc
    have h := updAll_agree d (letters is) zero hf c hc
    rw [← hu] at h
    have hc' := hf c hc
    simp only [fine, List.mem_cons, List.not_mem_nil, or_false] at hc'
    rcases hc' with rfl | rfl | rfl | rfl | rfl | rfl | rfl | rfl | rfl | rfl <;> exact h
  refine ⟨t, e1, _, hp, keep, rfl, ?_, ?_, ?_, ?_⟩
  · show u.us = 0
    rw [hu]
    exact updAll_other d Inst.us [] (fun c d0 _ => by unfold upd; split <;> rfl) _ zero (by simp)
  · show u.wday = 0
    rw [hu]
    exact updAll_other d Inst.wday [] (fun c d0 _ => by unfold upd; split <;> rfl) _ zero (by simp)
  · intro h
    show u.year = 0
    rw [hu]
    refine updAll_other d Inst.year ['Y'] (fun c d0 hc => ?_) _ zero (fun c hc hm => h (by simpa using (List.mem_singleton.1 hm) ▸ hc))
    unfold upd
    split <;> first | rfl | simp at hc
  · intro h
    show u.tzoff = 0
    rw [hu]
    refine updAll_other d Inst.tzoff ['z'] (fun c d0 hc => ?_) _ zero (fun c hc hm => h (by simpa using (List.mem_singleton.1 hm) ▸ hc))
    unfold upd
    split <;> first | rfl | simp at hc

/-- C97, partial: with a format that says everything, the instant itself is read back. -/
theorem written_instants_read_back_partial (is : List Item) (i : Inst) (tm off k : Int) (n : Nat) (t0 : Int) (h0 : 0 ≤ t0)
    (h1 : t0 < Date.DayUsec) (hr : Date.Reach n) (htm : tm + off = Date.usec n t0) (hi : mkinstantoff tm off = .ok i)
    (hoff : i.tzoff = off) (hk : off = k * 3600000000) (hus : i.us = 0) (hr64 : -2 ^ 63 ≤ tm ∧ tm < 2 ^ 63)
    (hf : ∀ c ∈ letters is, c ∈ fine) (hn : (letters is).Nodup) (hl : Item.lit '%' ∉ is) (hg : nogap isspace is)
    (hall : 'Y' ∈ letters is ∧ ('m' ∈ letters is ∨ 'b' ∈ letters is ∨ 'B' ∈ letters is) ∧ 'd' ∈ letters is ∧
      ('H' ∈ letters is ∨ 'k' ∈ letters is) ∧ 'M' ∈ letters is ∧ 'S' ∈ letters is ∧ 'z' ∈ letters is) (hv : Valid i) :
    ∃ t, datefmt (render is) i = .ok t ∧ ∃ d', parsefmt (render is) t = some (.ok d') ∧ d'.actual = tm := by
  obtain ⟨t, e1, d', e2, ag, co, us, -, -, -⟩ :=
    written_dates_read_back_partial is i hf hn hl hg (fun _ => ⟨k, by rw [hoff, hk]⟩) hv
  obtain ⟨hY, hm, hd, hH, hM, hS, hz⟩ := hall
  have aY : d'.year = i.year := ag _ hY
  have am : d'.mon = i.mon := by rcases hm with h | h | h <;> exact ag _ h
  have ad : d'.day = i.day := ag _ hd
  have aH : d'.h = i.h := by rcases hH with h | h <;> exact ag _ h
  have aM : d'.m = i.m := ag _ hM
  have aS : d'.s = i.s := ag _ hS
  have az : d'.tzoff = i.tzoff := ag _ hz
  have er : recalc d' = recalc i := by
    unfold recalc
    rw [aY, am, ad, aH, aM, aS, us, hus]
  refine ⟨t, e1, d', e2, ?_⟩
  rw [co, er, Date.instant_roundtrip_partial tm off n t0 h0 h1 hr htm i hi, az, hoff, show tm + off - off = tm by omega]
  unfold w64
  rw [Int.bmod_eq_of_le] <;> omega

/-! ## Cases -/

/-- 2026-11-17 04:05:06, Tuesday, one hour east. -/
def sample : Inst := ⟨0, 3600000000, 2026, 11, 17, 2, 4, 5, 6, 0⟩

theorem sample_valid : Valid sample := by
  refine ⟨by decide, by decide, by decide, by decide, by decide, by decide, by decide, 60, by decide, by decide, by decide⟩

/-- "%d %B %Y, %H:%M:%S (%z)". -/
def long : List Item :=
  [.fld 'd', .lit ' ', .fld 'B', .lit ' ', .fld 'Y', .lit ',', .lit ' ', .fld 'H', .lit ':', .fld 'M', .lit ':', .fld 'S',
    .lit ' ', .lit '(', .fld 'z', .lit ')']

example : ∃ t, datefmt (render long) sample = .ok t ∧ ∃ d', parsefmt (render long) t = some (.ok d') ∧
    (∀ c ∈ letters long, agree c sample d') ∧ Consistent d' ∧ d'.us = 0 ∧ d'.wday = 0 ∧
      ('Y' ∉ letters long → d'.year = 0) ∧ ('z' ∉ letters long → d'.tzoff = 0) :=
  written_dates_read_back_partial long sample (by decide) (by decide) (by decide) (by simp [nogap, long]; decide) (fun _ => ⟨1, rfl⟩)
    sample_valid

example : datefmt (render long) sample = .ok "17 November 2026, 04:05:06 (+0100)".toList := by decide +kernel

/-- The epoch, one hour east. -/
def epoch1 : Inst := ⟨0, 3600000000, 1970, 1, 1, 4, 1, 0, 0, 0⟩

example : ∃ t, datefmt (render long) epoch1 = .ok t ∧ ∃ d', parsefmt (render long) t = some (.ok d') ∧ d'.actual = 0 :=
  written_instants_read_back_partial long epoch1 0 3600000000 1 719162 3600000000 (by decide) (by decide) (by unfold Date.Reach; decide)
    (by decide +kernel) (by decide +kernel) rfl rfl rfl (by decide) (by decide) (by decide) (by decide)
    (by simp [nogap, long]; decide) (by decide)
    ⟨by decide, by decide, by decide, by decide, by decide, by decide, by decide, 60, by decide, by decide, by decide⟩

/-! ## Violations -/

/-- What goes wrong: the text cannot be read, or what is read says something else. -/
def bad (is : List Item) (d : Inst) (p : Option (Except Fail Inst) → Bool) : Bool :=
  match datefmt (render is) d with
  | .ok t => p (parsefmt (render is) t)
  | _ => false

/-- Reading failed. -/
def failed : Option (Except Fail Inst) → Bool
  | some (.error _) => true
  | _ => false

/-- Reading gave an instant with the property. -/
def gave (p : Inst → Bool) : Option (Except Fail Inst) → Bool
  | some (.ok d) => p d
  | _ => false

/-- `%F` is written with a year of four digits and read with one of two. -/
theorem full_date_unread : bad [.fld 'F'] sample failed = true := by decide +kernel

/-- `%a` and `%A` are read into the day of the month. -/
theorem weekday_misread : bad [.fld 'a'] sample (gave (fun d => d.wday ≠ 2 && d.day = 2)) = true ∧
    bad [.fld 'd', .lit ' ', .fld 'A'] sample (gave (fun d => d.day ≠ 17)) = true := by
  constructor <;> decide +kernel

/-- `%h` is read into the day of the month. -/
theorem month_misread : bad [.fld 'h'] sample (gave (fun d => d.mon = 0 && d.day = 11)) = true := by decide +kernel

/-- `%e` of the first nine days is written with a blank, and is not read. -/
theorem day_unread : bad [.fld 'e'] { sample with day := 5 } failed = true := by decide +kernel

/-- `%%` at the end of the text is not read. -/
theorem percent_unread : bad [.fld 'Y', .fld '%'] sample failed = true := by decide +kernel

/-- Two blanks in a format are not read. -/
theorem blanks_unread : bad [.fld 'Y', .lit ' ', .lit ' ', .fld 'm'] sample failed = true := by decide +kernel

/-- Half past five hours east is written with 1800 minutes and so read as 23:00; half past three west likewise. -/
theorem zone_misread : datefmt (render [.fld 'z']) { sample with tzoff := 19800000000 } = .ok "+051800".toList ∧
    bad [.fld 'z'] { sample with tzoff := 19800000000 } (gave (fun d => d.tzoff ≠ 19800000000)) = true := by
  constructor <;> decide +kernel

/-- "-0330" is read as two and a half hours west. -/
theorem west_misread : gave (fun d => d.tzoff = -9000000000) (parsefmt ['%', 'z'] "-0330".toList) = true := by
  decide +kernel

/-- With `%p` the hour is corrected after the instant is computed: five in the afternoon is the instant of five in the
morning. -/
theorem afternoon_misread :
    bad [.fld 'Y', .lit ' ', .fld 'I', .lit ' ', .fld 'p'] { sample with h := 17 }
      (gave (fun d => d.h = 17 && d.actual + 12 * 3600000000 = w64 (recalc d - d.tzoff))) = true := by decide +kernel

/-- `%T` is written, and stops the program when read. -/
theorem clock_fatal : datefmt ['%', 'T'] sample = .ok "04:05:06".toList ∧
    (parsefmt ['%', 'T'] "04:05:06".toList).isNone = true := by
  constructor <;> decide +kernel

/-- C97 is violated. -/
theorem written_dates_violated : ¬FullClaim := by
  intro h
  obtain ⟨t, e1, d', e2, -⟩ := h [.fld 'F'] sample ⟨by decide, by decide, by decide⟩ sample_valid
  have b := full_date_unread
  unfold bad at b
  rw [e1] at b
  dsimp only at b
  rw [e2] at b
  cases b

end Verif.Dfmt
