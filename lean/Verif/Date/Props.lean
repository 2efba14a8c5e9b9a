import Verif.Date.Lemmas

/-!
# C29, C69: calendar conversions and date arithmetic
-/

namespace Verif.Date

/-- Values of a 64-bit time. -/
def Int64 (x : Int) : Prop := -(2 ^ 63) ≤ x ∧ x < 2 ^ 63

/-- Values of a 32-bit field. -/
def Int32 (x : Int) : Prop := -(2 ^ 31) ≤ x ∧ x < 2 ^ 31

theorem w64_id {x : Int} (h : Int64 x) : w64 x = x := by
  obtain ⟨h1, h2⟩ := h
  exact Int.bmod_eq_of_le (by omega) (by omega)

theorem w32_id {x : Int} (h : Int32 x) : w32 x = x := by
  obtain ⟨h1, h2⟩ := h
  exact Int.bmod_eq_of_le (by omega) (by omega)

/-- The microsecond `t` of day `n` counted from 1 January of year 1 (specification). -/
def usec (n : Nat) (t : Int) : Int := ((n : Int) - epoch) * DayUsec + t

/-- Days the code can handle: the sum in date.myr:118 stays in range. The last such day is in the year
287562. -/
def Reach (n : Nat) : Prop := n ≤ 105030563

theorem epoch_eq : epoch = 719162 := rfl

theorem dayusec : DayUsec = 86400000000 := rfl

theorem timepart_usec (n : Nat) (t : Int) (h0 : 0 ≤ t) (h1 : t < DayUsec) :
    timepart (usec n t) = (t, (n : Int) - epoch) := by
  rw [timepart, usec]
  rw [dayusec] at *
  rw [epoch_eq] at *
  by_cases h : (n : Int) - (719162 : Nat) ≥ 0
  · rw [Int.tmod_eq_emod_of_nonneg (by omega), Int.tdiv_eq_ediv_of_nonneg (by omega), if_neg (by omega)]
    simp only [Prod.mk.injEq]
    omega
  · obtain ⟨k, hk⟩ : ∃ k : Int, k = (719162 : Nat) - (n : Int) := ⟨_, rfl⟩
    have e : ((n : Int) - (719162 : Nat)) * 86400000000 + t = -(k * 86400000000 - t) := by omega
    have e2 : (n : Int) - (719162 : Nat) = -k := by omega
    rw [e, e2, Int.neg_tmod, Int.neg_tdiv, Int.tmod_eq_emod_of_nonneg (by omega), Int.tdiv_eq_ediv_of_nonneg (by omega)]
    split
    · simp only [Prod.mk.injEq]; omega
    · simp only [Prod.mk.injEq]; omega

theorem datepart_usec (n : Nat) (t : Int) (h0 : 0 ≤ t) (h1 : t < DayUsec) (hr : Reach n) :
    datepart (usec n t) = .ok (((civil n).y : Int), ((civil n).m : Int), ((civil n).d : Int)) := by
  have hv := civil_valid n
  have hd := civil_dnum n
  rw [datepart, usec]
  unfold Reach at hr
  rw [dayusec] at *
  rw [epoch_eq] at *
  rw [w64_id ⟨by omega, by omega⟩, Int.tdiv_eq_ediv_of_nonneg (by omega)]
  have e : (((n : Int) - (719162 : Nat)) * 86400000000 + t + 2440588 * 86400000000) / 86400000000 - 1721119 = (dnum (civil n) : Nat) := by
    rw [hd]; omega
  rw [e, ymd_dnum _ hv]
  simp only [fixup]
  obtain ⟨a1, a2, a3, a4, a5⟩ := hv
  rw [if_neg (by omega), if_neg (by omega)]
  rfl

/-- The time of day of an instant in microseconds. -/
def tod (i : Inst) : Int := i.h * 3600000000 + i.m * 60000000 + i.s * 1000000 + i.us

/-- The time fields are in range. -/
def TimeOk (i : Inst) : Prop :=
  0 ≤ i.h ∧ i.h < 24 ∧ 0 ≤ i.m ∧ i.m < 60 ∧ 0 ≤ i.s ∧ i.s < 60 ∧ 0 ≤ i.us ∧ i.us < 1000000

/-- The date fields are those of the day. -/
def DateIs (i : Inst) (v : Day) : Prop := i.year = v.y ∧ i.mon = v.m ∧ i.day = v.d

/-- The weekday field is right up to a multiple of seven, and right from 28 December 1969. -/
def WdayIs (i : Inst) (n : Nat) : Prop :=
  (i.wday = weekday n ∨ i.wday = (weekday n : Int) - 7) ∧ (epoch ≤ n + 4 → i.wday = weekday n)

theorem weekday_eq : ∀ n, weekday n = (n + 1) % 7
  | 0 => rfl
  | n + 1 => by rw [weekday, weekday_eq n]; omega

/-- **C29.**  An instant whose local time falls on a day from 1 January of year 1 on gets the date of
that day in the proleptic Gregorian calendar, the right time of day, and a weekday. Missing: earlier
days, and the weekday before 1970; both are refuted below. -/
theorem instant_date_partial (tm off : Int) (n : Nat) (t : Int) (h0 : 0 ≤ t) (h1 : t < DayUsec) (hr : Reach n)
    (h : tm + off = usec n t) :
    ∃ i, mkinstantoff tm off = .ok i ∧ i.actual = tm ∧ i.tzoff = off ∧ DateIs i (civil n) ∧ TimeOk i ∧ tod i = t ∧
      WdayIs i n := by
  have hb : Int64 (usec n t) := by
    unfold usec Reach at *
    rw [dayusec, epoch_eq] at *
    exact ⟨by omega, by omega⟩
  rw [mkinstantoff, h, w64_id hb, timepart_usec n t h0 h1, datepart_usec n t h0 h1 hr]
  refine ⟨_, rfl, rfl, rfl, ⟨rfl, rfl, rfl⟩, ?_, ?_, ?_⟩
  · rw [dayusec] at h1
    unfold TimeOk
    simp only
    rw [Int.tmod_eq_emod_of_nonneg h0, Int.tdiv_eq_ediv_of_nonneg h0]
    have g1 : 0 ≤ t / 1000000 := by omega
    rw [Int.tmod_eq_emod_of_nonneg g1, Int.tdiv_eq_ediv_of_nonneg g1]
    have g2 : 0 ≤ t / 1000000 / 60 := by omega
    rw [Int.tmod_eq_emod_of_nonneg g2, Int.tdiv_eq_ediv_of_nonneg g2]
    omega
  · rw [dayusec] at h1
    unfold tod
    simp only
    rw [Int.tmod_eq_emod_of_nonneg h0, Int.tdiv_eq_ediv_of_nonneg h0]
    have g1 : 0 ≤ t / 1000000 := by omega
    rw [Int.tmod_eq_emod_of_nonneg g1, Int.tdiv_eq_ediv_of_nonneg g1]
    have g2 : 0 ≤ t / 1000000 / 60 := by omega
    rw [Int.tmod_eq_emod_of_nonneg g2, Int.tdiv_eq_ediv_of_nonneg g2]
    omega
  · unfold WdayIs
    simp only [weekday_eq]
    rw [epoch_eq]
    by_cases hn : (n : Int) - (719162 : Nat) + 4 ≥ 0
    · rw [Int.tmod_eq_emod_of_nonneg hn]; omega
    · rw [show (n : Int) - (719162 : Nat) + 4 = -((719158 : Int) - n) by omega, Int.neg_tmod,
        Int.tmod_eq_emod_of_nonneg (by omega)]
      omega

/-- 29 February 2000, 12:34:56.789012 -/
example : mkinstantoff 951827696789012 0 =
    .ok { actual := 951827696789012, tzoff := 0, year := 2000, mon := 2, day := 29, wday := 2, h := 12, m := 34, s := 56, us := 789012 } := by
  decide +kernel
example : (951827696789012 : Int) + 0 = usec 730178 45296789012 ∧ Reach 730178 := by unfold Reach; decide +kernel

/-- Fields of a day, with the day of the month possibly displaced by `k`. -/
theorem recalc_eq (i : Inst) (v : Day) (hv : v.Valid) (hy : v.y < 2 ^ 31) (k : Int) (h1 : i.year = v.y)
    (h2 : i.mon = v.m) (h3 : i.day = v.d + k) :
    recalc i = w64 (((dnum v : Int) + k - 719469) * DayUsec + tod i) := by
  obtain ⟨a1, a2, a3, a4, a5⟩ := hv
  rw [recalc, h1, h2, h3]
  have hm : (if (v.m : Int) > 2 then w32 ((v.m : Int) - 3) else w32 ((v.m : Int) + 9)) = (march v.m : Nat) := by
    unfold march
    split
    · rw [w32_id ⟨by omega, by omega⟩, if_pos (by omega)]; omega
    · rw [w32_id ⟨by omega, by omega⟩, if_neg (by omega)]; omega
  have hyy : (if (v.m : Int) > 2 then (v.y : Int) else w32 ((v.y : Int) - 1)) = (myear v : Nat) := by
    unfold myear
    split
    · rw [if_pos (by omega)]
    · rw [w32_id ⟨by omega, by omega⟩, if_neg (by omega)]; omega
  simp only [hm, hyy]
  have t1 : (myear v : Int).tdiv 100 = (myear v / 100 : Nat) := tdiv_nat _ 100
  have t2 : (myear v : Int) - 100 * (myear v / 100 : Nat) = (myear v % 100 : Nat) := by omega
  have t3 : (((myear v / 100 : Nat) : Int) * Days400y).tdiv 4 = (myear v / 100 * 146097 / 4 : Nat) := tdiv_nat (myear v / 100 * 146097) 4
  have t4 : (Days4y * (myear v % 100 : Nat)).tdiv 4 = (1461 * (myear v % 100) / 4 : Nat) := tdiv_nat (1461 * (myear v % 100)) 4
  have t5 : (153 * ((march v.m : Nat) : Int) + 2).tdiv 5 = ((153 * march v.m + 2) / 5 : Nat) := tdiv_nat (153 * march v.m + 2) 5
  rw [t1, t2, t3, t4, t5, tod, dnum]
  congr 1
  simp only [Int.natCast_add, dayusec]
  omega

theorem usec_dnum (n : Nat) (t : Int) : ((dnum (civil n) : Int) - 719469) * DayUsec + t = usec n t := by
  rw [civil_dnum, usec, dayusec]
  rw [epoch_eq] at *
  omega

theorem civil_year_le (n : Nat) : (civil n).y ≤ n + 1 := by
  induction n with
  | zero => exact Nat.le_refl _
  | succ n ih =>
    rw [civil, Day.next]
    split
    · simp only; omega
    · split <;> simp only <;> omega

theorem usec_int64 {n : Nat} {t : Int} (h0 : 0 ≤ t) (h1 : t < DayUsec) (hr : Reach n) : Int64 (usec n t) := by
  unfold usec Reach at *
  rw [dayusec] at *
  rw [epoch_eq] at *
  exact ⟨by omega, by omega⟩

/-- **C29, round trip.**  Converting the fields of an instant back gives its local time. -/
theorem instant_roundtrip_partial (tm off : Int) (n : Nat) (t : Int) (h0 : 0 ≤ t) (h1 : t < DayUsec) (hr : Reach n)
    (h : tm + off = usec n t) (i : Inst) (hi : mkinstantoff tm off = .ok i) : recalc i = tm + off := by
  obtain ⟨i', hi', -, -, ⟨d1, d2, d3⟩, -, ht, -⟩ := instant_date_partial tm off n t h0 h1 hr h
  rw [hi] at hi'
  cases hi'
  have hy := civil_year_le n
  unfold Reach at hr
  rw [recalc_eq i (civil n) (civil_valid n) (by omega) 0 d1 d2 (by rw [d3]; omega), ht,
    show (dnum (civil n) : Int) + 0 - 719469 = dnum (civil n) - 719469 by omega, usec_dnum, h,
    w64_id (usec_int64 h0 h1 hr)]

/-- Every valid day is some day of the calendar. -/
theorem dnum_ge (v : Day) (hv : v.Valid) : 307 ≤ dnum v := by
  obtain ⟨a1, a2, a3, a4, a5⟩ := hv
  unfold dnum myear march
  split
  · have : 1 ≤ v.y / 100 ∨ 1 ≤ v.y % 100 := by omega
    rw [cent, four]
    omega
  · rw [cent, four]; omega

theorem valid_civil (v : Day) (hv : v.Valid) : civil (dnum v - 307) = v := by
  have h := ymd_dnum _ (civil_valid (dnum v - 307))
  rw [civil_dnum, show 307 + (dnum v - 307) = dnum v by have := dnum_ge v hv; omega, ymd_dnum v hv] at h
  simp only [Prod.mk.injEq, Int.ofNat_inj] at h
  obtain ⟨h1, h2, h3⟩ := h
  cases hc : civil (dnum v - 307)
  rw [hc] at h1 h2 h3
  cases v
  simp_all

/-- **C29, the other round trip.**  Building an instant in UTC from the fields of a valid day and time
gives an instant with those fields. -/
theorem fields_roundtrip_partial (v : Day) (hv : v.Valid) (hr : Reach (dnum v - 307)) (h m s : Int)
    (ht : 0 ≤ h ∧ h < 24 ∧ 0 ≤ m ∧ m < 60 ∧ 0 ≤ s ∧ s < 60) :
    ∃ i, mkdatetime v.y v.m v.d h m s 0 = .ok i ∧ DateIs i v ∧ i.h = h ∧ i.m = m ∧ i.s = s ∧ i.us = 0 ∧
      WdayIs i (dnum v - 307) := by
  have hc := valid_civil v hv
  have hy := civil_year_le (dnum v - 307)
  have hr' := hr
  unfold Reach at hr
  rw [hc] at hy
  have ht2 : tod (fields v.y v.m v.d h m s) = h * 3600000000 + m * 60000000 + s * 1000000 := by
    simp only [tod, fields]; omega
  obtain ⟨t, htt⟩ : ∃ t, t = h * 3600000000 + m * 60000000 + s * 1000000 := ⟨_, rfl⟩
  have h0 : 0 ≤ t := by omega
  have h1 : t < DayUsec := by rw [dayusec]; omega
  have e := recalc_eq (fields v.y v.m v.d h m s) v hv (by omega) 0 rfl rfl (by simp [fields])
  rw [ht2, ← htt, show (dnum v : Int) + 0 - 719469 = dnum v - 719469 by omega, ← hc, usec_dnum, hc,
    w64_id (usec_int64 h0 h1 hr')] at e
  obtain ⟨i, hi, -, -, hd, hto, htd, hw⟩ :=
    instant_date_partial (usec (dnum v - 307) t) 0 (dnum v - 307) t h0 h1 hr' (by omega)
  rw [hc] at hd
  refine ⟨i, ?_, hd, ?_⟩
  · rw [mkdatetime, e, hi]
  · unfold TimeOk tod at *
    refine ⟨?_, ?_, ?_, ?_, hw⟩ <;> omega

example : (⟨2024, 2, 29⟩ : Day).Valid ∧ Reach (dnum ⟨2024, 2, 29⟩ - 307) := by unfold Day.Valid Reach; decide +kernel

/-- **C29, leap years.** -/
theorem isleap_leap (i : Inst) (v : Day) (h : i.year = v.y) : isleap i = leap v.y := by
  have e : ∀ k : Nat, (v.y : Int).tmod k = (v.y % k : Nat) := fun k => by
    rw [Int.tmod_eq_emod_of_nonneg (by omega)]; rfl
  rw [Bool.eq_iff_iff, leap_iff, isleap, h]
  rw [show (4 : Int) = ((4 : Nat) : Int) from rfl, show (100 : Int) = ((100 : Nat) : Int) from rfl,
    show (400 : Int) = ((400 : Nat) : Int) from rfl, e, e, e]
  simp only [Bool.and_eq_true, Bool.or_eq_true, decide_eq_true_eq]
  omega

/-- The full claim of C29 about instants: fields convert back, and the weekday is a weekday. -/
def FullClaim : Prop :=
  ∀ tm, Int64 tm → ∀ i, mkinstantoff tm 0 = .ok i → recalc i = tm ∧ 0 ≤ i.wday ∧ i.wday ≤ 6

/-- **C29 is violated.**  27 December 1969 gets the weekday -1. -/
theorem wday_violated : ¬ FullClaim := by
  intro h
  have := (h (-5 * DayUsec) (by unfold Int64; decide +kernel)
    { actual := -432000000000, tzoff := 0, year := 1969, mon := 12, day := 27, wday := -1, h := 0, m := 0, s := 0, us := 0 }
    (by decide +kernel)).2.1
  simp at this

/-- **C29 is violated.**  31 December of the year before year 1 is called year -1 and converts back to a
day a year earlier: the convention without a year 0 is not undone. -/
theorem bce_violated : mkinstantoff (-719163 * DayUsec) 0 =
      .ok { actual := -719163 * DayUsec, tzoff := 0, year := -1, mon := 12, day := 31, wday := 0, h := 0, m := 0, s := 0, us := 0 } ∧
    recalc { actual := -719163 * DayUsec, tzoff := 0, year := -1, mon := 12, day := 31, wday := 0, h := 0, m := 0, s := 0, us := 0 } =
      -719528 * DayUsec := by
  decide +kernel

/-- **C29 is violated.**  Two days in a row get the same date: 29 February and 1 March of year 0. -/
theorem bce_collision : (mkinstantoff (-719469 * DayUsec) 0).map (fun i => (i.year, i.mon, i.day)) = .ok (-1, 3, 1) ∧
    (mkinstantoff (-719468 * DayUsec) 0).map (fun i => (i.year, i.mon, i.day)) = .ok (-1, 3, 1) := by
  decide +kernel

/-- **C29 is violated.**  On 25 November of the year before year 0 the program is stopped by a bounds
check: the month is 0, and the table is indexed with -1. Another such day gets a date, which is wrong
(it is 10 January of year 0). -/
theorem bce_abort : mkinstantoff (-719565 * DayUsec) 0 = .abort ∧
    (mkinstantoff (-719519 * DayUsec) 0).map (fun i => (i.year, i.mon, i.day)) = .ok (-1, 2, 11) := by
  decide +kernel

/-! ## C69: arithmetic -/

/-- **C69, durations.**  The difference between an instant and the instant `dt` later is `dt`, and
subtracting `dt` again restores the instant. -/
theorem add_duration (tm off dt : Int) (htm : Int64 tm) (hdt : Int64 dt) (d e : Inst)
    (hd : mkinstantoff tm off = .ok d) (he : add d dt = .ok e) :
    duration d e = dt ∧ sub e dt = .ok d := by
  have act : ∀ tm off i, mkinstantoff tm off = .ok i → i.actual = tm ∧ i.tzoff = off := by
    intro tm off i h
    rw [mkinstantoff] at h
    simp only [Res.bind_eq_ok] at h
    obtain ⟨x, -, h⟩ := h
    cases h; exact ⟨rfl, rfl⟩
  obtain ⟨a1, a2⟩ := act _ _ _ hd
  obtain ⟨b1, b2⟩ := act _ _ _ he
  constructor
  · rw [duration, b1, a1, w64, w64, Int.bmod_sub_bmod]
    rw [show tm + dt - tm = dt by omega]
    exact w64_id hdt
  · rw [sub, b1, b2, a1, a2, w64, w64, Int.bmod_sub_bmod, show tm + dt - dt = tm by omega]
    rw [show tm.bmod (2 ^ 64) = w64 tm from rfl, w64_id htm, hd]

example : ∃ d e, mkinstantoff 0 3600000000 = .ok d ∧ add d DayUsec = .ok e ∧ duration d e = DayUsec ∧ e.day = 2 ∧ e.h = 1 :=
  ⟨{ actual := 0, tzoff := 3600000000, year := 1970, mon := 1, day := 1, wday := 4, h := 1, m := 0, s := 0, us := 0 },
   { actual := 86400000000, tzoff := 3600000000, year := 1970, mon := 1, day := 2, wday := 5, h := 1, m := 0, s := 0, us := 0 },
   by decide +kernel⟩

/-- The length in microseconds of a period that has a fixed length. -/
def plen : Period → Option Int
  | .day n => some (n * 86400000000)
  | .hour n => some (n * 3600000000)
  | .minute n => some (n * 60000000)
  | .second n => some (n * 1000000)
  | _ => none

/-- The number in a period. -/
def Period.n : Period → Int
  | .year n | .month n | .day n | .hour n | .minute n | .second n => n

/-- **C69, fixed periods.**  In UTC, adding days, hours, minutes or seconds moves the instant by
their length. Missing: other zones and months (refuted below), numbers that overflow a field. -/
theorem addperiod_fixed_partial (tm : Int) (n : Nat) (t : Int) (h0 : 0 ≤ t) (h1 : t < DayUsec) (hr : Reach n)
    (h : tm = usec n t) (p : Period) (len : Int) (hp : plen p = some len) (hn : -(2 ^ 30) ≤ p.n ∧ p.n < 2 ^ 30)
    (hf : Int64 (tm + len)) (i : Inst) (hi : mkinstantoff tm 0 = .ok i) :
    addperiod i p = mkinstantoff (tm + len) 0 := by
  obtain ⟨i0, hi0, -, ho, ⟨d1, d2, d3⟩, hto, ht, -⟩ := instant_date_partial tm 0 n t h0 h1 hr (by omega)
  rw [hi] at hi0
  cases hi0
  have hv := civil_valid n
  have hy := civil_year_le n
  have hml : (civil n).d ≤ 31 := by
    have := hv.2.2.2.2
    have ml : mlen (civil n).y (civil n).m ≤ 31 := by unfold mlen; (repeat' split) <;> omega
    omega
  unfold TimeOk at hto
  have key : recalc (bump i p) = tm + len := by
    unfold Reach at hr
    rw [← w64_id hf, h, ← usec_dnum]
    cases p with
    | year k => simp [plen] at hp
    | month k => simp [plen] at hp
    | day k =>
      simp only [plen, Option.some.injEq] at hp
      simp only [Period.n] at hn
      rw [recalc_eq (bump i (.day k)) (civil n) hv (by omega) k d1 d2
        (by simp only [bump]; rw [w32_id ⟨by omega, by omega⟩, d3])]
      rw [show tod (bump i (.day k)) = tod i from rfl, ht, dayusec]
      congr 1; omega
    | hour k =>
      simp only [plen, Option.some.injEq] at hp
      simp only [Period.n] at hn
      rw [recalc_eq (bump i (.hour k)) (civil n) hv (by omega) 0 d1 d2 (by simp only [bump]; rw [d3]; omega)]
      have : tod (bump i (.hour k)) = tod i + len := by
        simp only [tod, bump]; rw [w32_id ⟨by omega, by omega⟩]; omega
      rw [this, ht, dayusec]
      congr 1; omega
    | minute k =>
      simp only [plen, Option.some.injEq] at hp
      simp only [Period.n] at hn
      rw [recalc_eq (bump i (.minute k)) (civil n) hv (by omega) 0 d1 d2 (by simp only [bump]; rw [d3]; omega)]
      have : tod (bump i (.minute k)) = tod i + len := by
        simp only [tod, bump]; rw [w32_id ⟨by omega, by omega⟩]; omega
      rw [this, ht, dayusec]
      congr 1; omega
    | second k =>
      simp only [plen, Option.some.injEq] at hp
      simp only [Period.n] at hn
      rw [recalc_eq (bump i (.second k)) (civil n) hv (by omega) 0 d1 d2 (by simp only [bump]; rw [d3]; omega)]
      have : tod (bump i (.second k)) = tod i + len := by
        simp only [tod, bump]; rw [w32_id ⟨by omega, by omega⟩]; omega
      rw [this, ht, dayusec]
      congr 1; omega
  rw [addperiod, key, ho]

example : plen (.day 60) = some 5184000000000 := rfl
/-- 60 days after 31 December 2023. -/
example : ∃ i, mkinstantoff (usec 738884 0) 0 = .ok i ∧ i.year = 2023 ∧ i.mon = 12 ∧ i.day = 31 ∧
    (addperiod i (.day 60)).map (fun j => (j.year, j.mon, j.day)) = .ok (2024, 2, 29) :=
  ⟨{ actual := 1703980800000000, tzoff := 0, year := 2023, mon := 12, day := 31, wday := 0, h := 0, m := 0, s := 0, us := 0 },
    by decide +kernel⟩

/-- The opposite period. -/
def Period.neg : Period → Period
  | .year n => .year (-n)
  | .month n => .month (-n)
  | .day n => .day (-n)
  | .hour n => .hour (-n)
  | .minute n => .minute (-n)
  | .second n => .second (-n)

/-- **C69.**  Subtracting a period is adding its opposite. -/
theorem subperiod_neg (i : Inst) (p : Period) : subperiod i p = addperiod i p.neg := by
  cases p <;> simp only [subperiod, addperiod, unbump, bump, Period.neg, Int.sub_eq_add_neg]

/-- The day a number of years or months later, within the year; the same day of the month. -/
def moved (v : Day) : Period → Option (Int × Int)
  | .year k => some ((v.y : Int) + k, v.m)
  | .month k => some (v.y, (v.m : Int) + k)
  | _ => none

/-- **C69, years and months.**  In UTC, adding years, or months that stay in the year, keeps the day of
the month and the time if the target day exists. Missing: months that leave the year. -/
theorem addperiod_calendar_partial (tm : Int) (n : Nat) (t : Int) (h0 : 0 ≤ t) (h1 : t < DayUsec) (hr : Reach n)
    (h : tm = usec n t) (p : Period) (v : Day) (hv : v.Valid) (hp : moved (civil n) p = some ((v.y : Int), (v.m : Int)))
    (hd : v.d = (civil n).d) (hrv : Reach (dnum v - 307)) (i : Inst) (hi : mkinstantoff tm 0 = .ok i) :
    ∃ i', addperiod i p = .ok i' ∧ DateIs i' v ∧ tod i' = tod i ∧ TimeOk i' ∧ WdayIs i' (dnum v - 307) := by
  obtain ⟨i0, hi0, -, ho, ⟨d1, d2, d3⟩, hto, ht, -⟩ := instant_date_partial tm 0 n t h0 h1 hr (by omega)
  rw [hi] at hi0
  cases hi0
  have hc := valid_civil v hv
  have hy := civil_year_le (dnum v - 307)
  rw [hc] at hy
  have hrv' := hrv
  unfold Reach at hrv'
  obtain ⟨a1, a2, a3, a4, a5⟩ := id hv
  have hb : DateIs (bump i p) v ∧ tod (bump i p) = t := by
    cases p with
    | year k =>
      simp only [moved, Option.some.injEq, Prod.mk.injEq] at hp
      refine ⟨⟨?_, ?_, ?_⟩, ht⟩
      · simp only [bump]; rw [w32_id ⟨by omega, by omega⟩]; omega
      · simp only [bump]; omega
      · simp only [bump]; omega
    | month k =>
      simp only [moved, Option.some.injEq, Prod.mk.injEq] at hp
      refine ⟨⟨?_, ?_, ?_⟩, ht⟩
      · simp only [bump]; omega
      · simp only [bump]; rw [w32_id ⟨by omega, by omega⟩]; omega
      · simp only [bump]; omega
    | day k => simp [moved] at hp
    | hour k => simp [moved] at hp
    | minute k => simp [moved] at hp
    | second k => simp [moved] at hp
  obtain ⟨⟨b1, b2, b3⟩, b4⟩ := hb
  have e := recalc_eq (bump i p) v hv (by omega) 0 b1 b2 (by omega)
  rw [b4, show (dnum v : Int) + 0 - 719469 = dnum v - 719469 by omega, ← hc, usec_dnum,
    w64_id (usec_int64 h0 h1 hrv)] at e
  obtain ⟨i', hi', -, -, hd', hto', ht', hw'⟩ :=
    instant_date_partial (usec (dnum v - 307) t) 0 (dnum v - 307) t h0 h1 hrv (by omega)
  rw [hc] at hd'
  exact ⟨i', by rw [addperiod, e, ho, hi'], hd', by rw [ht', ht], hto', hw'⟩

/-- A year after 28 February 2023. -/
example : moved (civil (dnum ⟨2023, 2, 28⟩ - 307)) (.year 1) = some (((⟨2024, 2, 28⟩ : Day).y : Int), ((⟨2024, 2, 28⟩ : Day).m : Int)) := by
  rw [valid_civil _ (by unfold Day.Valid; decide)]; rfl

/-- The full claim of C69 about months: three months after the first of December is the first of March. -/
def MonthClaim : Prop :=
  ∀ y : Nat, 1 ≤ y → y < 10000 → ∀ i, mkdate y 12 1 0 = .ok i → ∃ i', addperiod i (.month 3) = .ok i' ∧ i'.mon = 3 ∧ i'.day = 1

/-- **C69 is violated.**  Three months after 1 December 2021 is 3 March 2022. -/
theorem addperiod_month_violated : ¬ MonthClaim := by
  intro h
  obtain ⟨i', h1, -, h3⟩ := h 2021 (by decide) (by decide)
    { actual := 1638316800000000, tzoff := 0, year := 2021, mon := 12, day := 1, wday := 3, h := 0, m := 0, s := 0, us := 0 }
    (by decide +kernel)
  have e : (addperiod { actual := 1638316800000000, tzoff := 0, year := 2021, mon := 12, day := 1, wday := 3, h := 0, m := 0, s := 0, us := 0 }
    (.month 3)).map (fun j => (j.year, j.mon, j.day)) = .ok (2022, 3, 3) := by decide +kernel
  rw [h1] at e
  simp only [Res.map_ok, Res.ok.injEq, Prod.mk.injEq] at e
  omega

/-- The full claim of C69 about zones: adding nothing changes nothing. -/
def ZoneClaim : Prop :=
  ∀ tm off i, Int64 tm → mkinstantoff tm off = .ok i → ∀ i', addperiod i (.hour 0) = .ok i' → i'.actual = tm

/-- **C69 is violated.**  In a zone one hour east, adding no time moves the instant by an hour; building
an instant from midnight gives one o'clock. -/
theorem addperiod_zone_violated : ¬ ZoneClaim ∧
    (mkdatetime 2020 1 1 0 0 0 3600000000).map (fun i => (i.h, i.m)) = .ok (1, 0) := by
  refine ⟨fun h => ?_, by decide +kernel⟩
  have := h 0 3600000000
    { actual := 0, tzoff := 3600000000, year := 1970, mon := 1, day := 1, wday := 4, h := 1, m := 0, s := 0, us := 0 }
    (by unfold Int64; decide) (by decide +kernel)
    { actual := 3600000000, tzoff := 3600000000, year := 1970, mon := 1, day := 1, wday := 4, h := 2, m := 0, s := 0, us := 0 }
    (by decide +kernel)
  simp at this

end Verif.Date
