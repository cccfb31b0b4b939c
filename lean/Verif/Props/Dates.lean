import Verif.Lemmas.DateTensor

/-!
# Property theorems C01–C08: date conversion and date arithmetic
-/

namespace Props
open Model Spec

/-- The model date `t` is the representation of the valid Gregorian date `d`:
its three fields are `d`'s and its ordinal is `d`'s day number. -/
def Represents (t : DateT) (d : YMD) : Prop :=
  d.Valid ∧ t.year = d.year ∧ t.month = d.month ∧ t.day = d.day ∧ t.ordinal = d.number

theorem represents_iff (t : DateT) (d : YMD) : Represents t d ↔ d.Valid ∧ t = Lemmas.repr d := by
  obtain ⟨o, y, m, dd⟩ := t
  simp only [Represents, Lemmas.repr, DateT.mk.injEq]
  constructor
  · rintro ⟨h, rfl, rfl, rfl, rfl⟩; exact ⟨h, rfl, rfl, rfl, rfl⟩
  · rintro ⟨h, rfl, rfl, rfl, rfl⟩; exact ⟨h, rfl, rfl, rfl, rfl⟩

/-! ## C01 -/

/-- C01: date → ordinal → date is the identity on valid dates. -/
theorem C01_date_roundtrip (d : YMD) (h : d.Valid) :
    ordinalToYearMonthDay (yearMonthDayToOrdinal d.year d.month d.day) = (d.year, d.month, d.day) :=
  Lemmas.ymd_roundtrip d.year d.month d.day h

example : (⟨2024, 2, 29⟩ : YMD).Valid := by decide

/-- C01: ordinal → date → ordinal is the identity on all integers, and the date is valid. -/
theorem C01_ordinal_roundtrip (n : Int) :
    let r := ordinalToYearMonthDay n
    (⟨r.1, r.2.1, r.2.2⟩ : YMD).Valid ∧ yearMonthDayToOrdinal r.1 r.2.1 r.2.2 = n :=
  Lemmas.ord_of_split n

/-- C01: 0001-01-01 has ordinal 1. -/
theorem C01_epoch : yearMonthDayToOrdinal 1 1 1 = 1 := by decide

/-- C01: the date of ordinal `n + 1` is the calendar successor of the date of ordinal `n`. -/
theorem C01_successor (n : Int) :
    let r := ordinalToYearMonthDay n
    let s := ordinalToYearMonthDay (n + 1)
    (⟨s.1, s.2.1, s.2.2⟩ : YMD) = (⟨r.1, r.2.1, r.2.2⟩ : YMD).next := by
  intro r s
  have hv := Lemmas.dateOf_valid n
  have e := Lemmas.number_next _ hv
  rw [Lemmas.dateOf_number] at e
  have := Lemmas.dateOf_of_number _ (Lemmas.next_valid _ hv)
  rw [e] at this
  exact this

/-- C01: the date of ordinal `n ≥ 0` is reached from 0000-12-31 by `n` steps of "next day";
an absolute characterisation of the conversion by counting days. -/
theorem C01_counting (n : Nat) :
    let r := ordinalToYearMonthDay n
    (⟨r.1, r.2.1, r.2.2⟩ : YMD) = YMD.nextN n ⟨0, 12, 31⟩ := by
  intro r
  have hv : (⟨0, 12, 31⟩ : YMD).Valid := by decide
  apply Lemmas.number_inj _ _ (Lemmas.dateOf_valid n) (Lemmas.nextN_valid _ _ hv)
  rw [Lemmas.number_nextN _ _ hv, Lemmas.dateOf_number]
  have : (⟨0, 12, 31⟩ : YMD).number = 0 := by decide
  omega

/-- C01: the ordinal of a valid date is the day number of the calendar specification. -/
theorem C01_ordinal_is_day_number (d : YMD) (h : d.Valid) :
    yearMonthDayToOrdinal d.year d.month d.day = d.number := Lemmas.number_eq d h

/-- C01: leap years. -/
theorem C01_leap_year (y : Int) : isLeapYear y = true ↔ Leap y := Lemmas.isLeapYear_iff y

example : ordinalToYearMonthDay 738945 = (2024, 2, 29) := by decide
example : ordinalToYearMonthDay (738945 + 1) = (2024, 3, 1) := by decide

/-! ## C02 -/

/-- C02: 0001-01-01 is a Monday (0) and each following day is the following weekday, cyclically. -/
theorem C02_day_of_week (t t' : DateT) (d : YMD) (h : Represents t d) (h' : Represents t' d.next) :
    (d = ⟨1, 1, 1⟩ → t.dayOfWeek = 0) ∧ t'.dayOfWeek = (t.dayOfWeek + 1) % 7 ∧
    0 ≤ t.dayOfWeek ∧ t.dayOfWeek < 7 := by
  have e := Lemmas.number_next d h.1
  have e1 := h.2.2.2.2
  have e2 := h'.2.2.2.2
  unfold DateT.dayOfWeek
  refine ⟨?_, by omega, by omega, by omega⟩
  rintro rfl
  rw [e1]; decide

/-- C02: two dates have the same weekday iff they are a whole number of weeks apart. -/
theorem C02_same_weekday_iff (t t' : DateT) (d d' : YMD) (h : Represents t d)
    (h' : Represents t' d') :
    t.dayOfWeek = t'.dayOfWeek ↔ 7 ∣ d'.number - d.number := by
  have e1 := h.2.2.2.2
  have e2 := h'.2.2.2.2
  unfold DateT.dayOfWeek
  omega

/-- C02: day of year counts days since the last day of the previous year, and is between 1 and the
length of the year. -/
theorem C02_day_of_year (t : DateT) (d : YMD) (h : Represents t d) :
    t.dayOfYear = .ok (d.number - (⟨d.year - 1, 12, 31⟩ : YMD).number) ∧
    1 ≤ d.number - (⟨d.year - 1, 12, 31⟩ : YMD).number ∧
    d.number - (⟨d.year - 1, 12, 31⟩ : YMD).number ≤ yearLength d.year := by
  obtain ⟨hv, hy, hm, hd, ho⟩ := h
  have hv1 := hv
  obtain ⟨h1, h2, h3, h4⟩ := hv1
  rw [Lemmas.dayOfYear_eq t (by omega) (by omega), hy, hm, hd]
  have hz : (⟨d.year - 1, 12, 31⟩ : YMD).Valid := ⟨by simp, by simp, by simp, by simp [monthLength]⟩
  have hj : (⟨d.year - 1, 12, 31⟩ : YMD).next = ⟨d.year, 1, 1⟩ := by
    simp [YMD.next, monthLength]
  have en := Lemmas.number_next _ hz
  rw [hj] at en
  have hz' : (⟨d.year, 12, 31⟩ : YMD).Valid := ⟨by simp, by simp, by simp, by simp [monthLength]⟩
  have e0 : (⟨d.year, 1, 1⟩ : YMD).number = daysBeforeYear d.year + 1 := by
    simp [YMD.number, daysBeforeMonth]
  have e1 : d.number = daysBeforeYear d.year + daysBeforeMonth d.year d.month + d.day := rfl
  have hb := Lemmas.before_iff d ⟨d.year, 1, 1⟩ hv
    ⟨by simp, by simp, by simp, by simp [monthLength]⟩
  have hb' := Lemmas.before_iff ⟨d.year, 12, 31⟩ d hz' hv
  have hml := Lemmas.monthLength_pos d.year d.month
  have hb1 : ¬ d.Before ⟨d.year, 1, 1⟩ := by unfold YMD.Before; simp only; omega
  have hb2 : ¬ (⟨d.year, 12, 31⟩ : YMD).Before d := by unfold YMD.Before; simp only; omega
  have hl : (⟨d.year, 12, 31⟩ : YMD).number = daysBeforeYear d.year + yearLength d.year := by
    have := Lemmas.daysBeforeMonth_eq d.year 12 (by omega) (by omega)
    simp only [YMD.number, this, yearLength]
    by_cases hL : Leap d.year <;> simp [hL] <;> omega
  have := mt hb.mpr hb1
  have := mt hb'.mpr hb2
  refine ⟨?_, by omega, by omega⟩
  congr 1
  omega

example : Represents ⟨738945, 2024, 2, 29⟩ ⟨2024, 2, 29⟩ :=
  ⟨by decide, rfl, rfl, rfl, by decide⟩
example : Represents ⟨738946, 2024, 3, 1⟩ (YMD.next ⟨2024, 2, 29⟩) :=
  ⟨by decide, by decide, by decide, by decide, by decide⟩
example : (⟨738945, 2024, 2, 29⟩ : DateT).dayOfWeek = 3 ∧
    (⟨738945, 2024, 2, 29⟩ : DateT).dayOfYear = .ok 60 := ⟨by decide, rfl⟩

/-! ## C03 -/

/-- C03: adding `n` months moves the month counter by exactly `n` and clamps the day to the length
of the target month; the result is again a consistent representation of a valid date. -/
theorem C03_add_months (t : DateT) (d : YMD) (h : Represents t d) (n : Int) :
    ∃ t' d', t.add ⟨n, .MONTH⟩ = .ok t' ∧ Represents t' d' ∧
      12 * d'.year + d'.month = 12 * d.year + d.month + n ∧
      d'.day = min d.day (monthLength d'.year d'.month) := by
  rw [represents_iff] at h
  obtain ⟨hv, rfl⟩ := h
  refine ⟨_, _, Lemmas.add_month_eq d hv n,
    (represents_iff _ _).2 ⟨Lemmas.add_month_valid d hv n, rfl⟩, ?_, rfl⟩
  simp only; omega

/-- C03: adding years is adding twelve times as many months. -/
theorem C03_add_years (t : DateT) (d : YMD) (h : Represents t d) (n : Int) :
    ∃ t' d', t.add ⟨n, .YEAR⟩ = .ok t' ∧ Represents t' d' ∧
      d'.year = d.year + n ∧ d'.month = d.month ∧
      d'.day = min d.day (monthLength d'.year d'.month) := by
  obtain ⟨t', d', h1, h2, h3, h4⟩ := C03_add_months t d h (12 * n)
  rw [represents_iff] at h
  obtain ⟨hv, rfl⟩ := h
  refine ⟨t', d', by rw [Lemmas.add_year_eq d hv]; exact h1, h2, ?_, ?_, h4⟩
  · have := h2.1.1; have := h2.1.2.1; have := hv.1; have := hv.2.1; omega
  · have := h2.1.1; have := h2.1.2.1; have := hv.1; have := hv.2.1; omega

/-- C03: subtracting months/years is adding the negative number. -/
theorem C03_sub_months (t : DateT) (d : YMD) (h : Represents t d) (n : Int) :
    ∃ t' d', t.sub ⟨n, .MONTH⟩ = .ok t' ∧ Represents t' d' ∧
      12 * d'.year + d'.month = 12 * d.year + d.month - n ∧
      d'.day = min d.day (monthLength d'.year d'.month) := by
  obtain ⟨t', d', h1, h2, h3, h4⟩ := C03_add_months t d h (-n)
  exact ⟨t', d', h1, h2, by omega, h4⟩

/-- C03: when no clamping is needed (day at most 28) adding and subtracting months cancel. -/
theorem C03_add_sub_cancel (t : DateT) (d : YMD) (h : Represents t d) (n : Int) (h28 : d.day ≤ 28) :
    (t.add ⟨n, .MONTH⟩).bind (fun t' => t'.sub ⟨n, .MONTH⟩) = .ok t := by
  obtain ⟨t', d', h1, h2, h3, h4⟩ := C03_add_months t d h n
  obtain ⟨t'', d'', g1, g2, g3, g4⟩ := C03_sub_months t' d' h2 n
  rw [h1]
  show t'.sub _ = _
  rw [g1]
  have a := Lemmas.monthLength_pos d'.year d'.month
  have b := Lemmas.monthLength_pos d''.year d''.month
  have e : d'' = d := by
    obtain ⟨y, m, dd⟩ := d
    obtain ⟨y'', m'', dd''⟩ := d''
    have := g2.1.1; have := g2.1.2.1; have := h.1.1; have := h.1.2.1
    simp only at *
    congr 1 <;> omega
  rw [represents_iff] at g2 h
  rw [g2.2, h.2, e]

example : (⟨738945, 2024, 2, 29⟩ : DateT).add ⟨-12, .MONTH⟩ = .ok ⟨738579, 2023, 2, 28⟩ := rfl
example : (⟨738945, 2024, 2, 29⟩ : DateT).add ⟨1, .YEAR⟩ = .ok ⟨739310, 2025, 2, 28⟩ := rfl

/-! ## C04 -/

/-- C04: adding `n ≥ 0` days is the `n`-th calendar successor. -/
theorem C04_add_days (t : DateT) (d : YMD) (h : Represents t d) (hy : 1 ≤ d.year) (n : Nat) :
    ∃ t', t.add ⟨n, .DAY⟩ = .ok t' ∧ Represents t' (d.nextN n) := by
  rw [represents_iff] at h
  obtain ⟨hv, rfl⟩ := h
  have hp := (Lemmas.number_pos_iff d hv).2 hy
  rw [Lemmas.add_day_eq, Lemmas.fromOrdinals_pos _ (by omega)]
  refine ⟨_, rfl, (represents_iff _ _).2 ⟨Lemmas.nextN_valid n d hv, ?_⟩⟩
  rw [← Lemmas.number_nextN n d hv, Lemmas.dateOf_of_number _ (Lemmas.nextN_valid n d hv)]

/-- C04: subtracting `n` days from a date that is `n` steps after `d` gives `d` (when `d` is
0001-01-01 or later). -/
theorem C04_sub_days (t : DateT) (d : YMD) (n : Nat) (hv : d.Valid) (h : Represents t (d.nextN n))
    (hy : 1 ≤ d.year) :
    ∃ t', t.sub ⟨n, .DAY⟩ = .ok t' ∧ Represents t' d := by
  rw [represents_iff] at h
  obtain ⟨hv', rfl⟩ := h
  have hp := (Lemmas.number_pos_iff d hv).2 hy
  unfold DateT.sub
  simp only
  rw [Lemmas.add_day_eq, Lemmas.number_nextN n d hv,
    show d.number + (n : Int) + -(n : Int) = d.number by omega,
    Lemmas.fromOrdinals_pos _ hp]
  exact ⟨_, rfl, (represents_iff _ _).2 ⟨hv, by rw [Lemmas.dateOf_of_number d hv]⟩⟩

/-- C04: the length of a period in days is the number of days that lead to the date plus the period, and a period that cannot be added has no length. -/
theorem C04_period_length (t : DateT) (d : YMD) (h : Represents t d) (p : Period) :
    (∀ t', t.add p = .ok t' → t.periodLengthInDays p = .ok (t.daysUntil t')) ∧ (∀ e, t.add p = .error e → t.periodLengthInDays p = .error e) ∧
    ∀ n, t.periodLengthInDays ⟨n, .DAY⟩ = .ok n ∨ d.number + n ≤ 0 := by
  refine ⟨fun t' ht => ?_, fun e he => ?_, fun n => ?_⟩
  · unfold DateT.periodLengthInDays
    rw [ht]; rfl
  · unfold DateT.periodLengthInDays
    rw [he]; rfl
  · rw [represents_iff] at h
    obtain ⟨hv, rfl⟩ := h
    by_cases hp : 0 < d.number + n
    · left
      unfold DateT.periodLengthInDays
      rw [Lemmas.add_day_eq, Lemmas.fromOrdinals_pos _ hp]
      have h1 := Lemmas.dateOf_number (d.number + n)
      show Except.ok ((Lemmas.repr _).ordinal - (Lemmas.repr _).ordinal) = _
      simp only [Lemmas.repr, h1]
      congr 1
      omega
    · right; omega

/-- C04: a day/week addition either gives a date exactly `n` days (7·`n` days) away, in or after
year 1, or raises; it raises exactly when the target lies before 0001-01-01. -/
theorem C04_add_days_total (t : DateT) (d : YMD) (h : Represents t d) (n : Int) (p : PeriodType)
    (k : Int) (hp : (p = .DAY ∧ k = n) ∨ (p = .WEEK ∧ k = 7 * n)) :
    (d.number + k ≤ 0 ∧ ∃ e, t.add ⟨n, p⟩ = .error e) ∨
    (0 < d.number + k ∧ ∃ t' d', t.add ⟨n, p⟩ = .ok t' ∧ Represents t' d' ∧
      d'.number = d.number + k ∧ t.daysUntil t' = k) := by
  rw [represents_iff] at h
  obtain ⟨hv, rfl⟩ := h
  have key : ∀ q : Int, q = k →
      (d.number + k ≤ 0 ∧ ∃ e, fromOrdinals (d.number + q) = .error e) ∨
      (0 < d.number + k ∧ ∃ t' d', fromOrdinals (d.number + q) = .ok t' ∧ Represents t' d' ∧
        d'.number = d.number + k ∧ (Lemmas.repr d).daysUntil t' = k) := by
    rintro q rfl
    by_cases hpos : 0 < d.number + q
    · right
      refine ⟨hpos, _, _, Lemmas.fromOrdinals_pos _ hpos,
        (represents_iff _ _).2 ⟨Lemmas.dateOf_valid _, rfl⟩, Lemmas.dateOf_number _, ?_⟩
      simp only [DateT.daysUntil, Lemmas.repr, Lemmas.dateOf_number]; omega
    · left
      exact ⟨by omega, _, Lemmas.fromOrdinals_nonpos _ hpos _ rfl⟩
  rcases hp with ⟨rfl, rfl⟩ | ⟨rfl, rfl⟩
  · exact key k rfl
  · exact key (n * 7) (by omega)

example : (⟨1, 1, 1, 1⟩ : DateT).add ⟨-1, .DAY⟩ = .error "Ordinals must be positive." := rfl
example : (⟨738945, 2024, 2, 29⟩ : DateT).add ⟨-8, .WEEK⟩ = .ok ⟨738889, 2024, 1, 4⟩ := rfl
example : Represents ⟨738945, 2024, 2, 29⟩ (YMD.nextN 3 ⟨2024, 2, 26⟩) :=
  ⟨by decide, by decide, by decide, by decide, by decide⟩

/-! ## C05 -/

/-- C05: `is_end_of_month` says whether the next calendar day is in another month. -/
theorem C05_is_end_of_month (t : DateT) (d : YMD) (h : Represents t d) :
    ∃ b, t.isEndOfMonth = .ok b ∧ (b = true ↔ d.next.month ≠ d.month) := by
  obtain ⟨hv, hy, hm, hd, ho⟩ := h
  obtain ⟨h1, h2, h3, h4⟩ := hv
  unfold DateT.isEndOfMonth
  rw [Lemmas.numDaysInMonth_eq _ _ (by omega) (by omega)]
  refine ⟨_, rfl, ?_⟩
  rw [beq_iff_eq, hy, hm, hd]
  unfold YMD.next
  split
  · simp only; omega
  · split <;> simp only <;> omega

/-- C05: `to_end_of_month` gives the end-of-month date of the same month, does not move backwards
and is idempotent. -/
theorem C05_to_end_of_month (t : DateT) (d : YMD) (h : Represents t d) :
    ∃ t' d', t.toEndOfMonth = .ok t' ∧ Represents t' d' ∧ d'.year = d.year ∧ d'.month = d.month ∧
      d'.next.month ≠ d'.month ∧ d.number ≤ d'.number ∧ t'.toEndOfMonth = .ok t' := by
  obtain ⟨hv, hy, hm, hd, ho⟩ := h
  have hv0 := hv
  obtain ⟨h1, h2, h3, h4⟩ := hv0
  have ml := Lemmas.monthLength_pos d.year d.month
  have hv' : (⟨d.year, d.month, monthLength d.year d.month⟩ : YMD).Valid :=
    ⟨h1, h2, by simp only; omega, by simp only; omega⟩
  have e1 : t.toEndOfMonth = .ok (Lemmas.repr ⟨d.year, d.month, monthLength d.year d.month⟩) := by
    unfold DateT.toEndOfMonth
    rw [Lemmas.numDaysInMonth_eq _ _ (by omega) (by omega), hy, hm]
    exact Lemmas.fromYearMonthDay_valid_unchecked _ hv'
  refine ⟨_, _, e1, (represents_iff _ _).2 ⟨hv', rfl⟩, rfl, rfl, ?_, ?_, ?_⟩
  · unfold YMD.next
    rw [if_neg (by simp only; omega)]
    by_cases h12 : d.month < 12
    · simp [h12]; omega
    · simp [h12]; omega
  · simp only [YMD.number]; omega
  · unfold DateT.toEndOfMonth
    simp only [Lemmas.repr]
    rw [Lemmas.numDaysInMonth_eq _ _ h1 h2]
    exact Lemmas.fromYearMonthDay_valid_unchecked _ hv'

example : (⟨738944, 2024, 2, 28⟩ : DateT).isEndOfMonth = .ok false ∧
    (⟨738944, 2024, 2, 28⟩ : DateT).toEndOfMonth = .ok ⟨738945, 2024, 2, 29⟩ := ⟨rfl, rfl⟩
example : Represents ⟨738944, 2024, 2, 28⟩ ⟨2024, 2, 28⟩ := ⟨by decide, rfl, rfl, rfl, by decide⟩

/-! ## C06 -/

/-- C06: the comparison operators are the chronological (lexicographic) order and equality of the
dates. -/
theorem C06_comparisons (a b : DateT) (d e : YMD) (ha : Represents a d) (hb : Represents b e) :
    (a.lt b = true ↔ d.Before e) ∧ (a.gt b = true ↔ e.Before d) ∧ (a.eq b = true ↔ d = e) ∧
    (a.ne b = true ↔ d ≠ e) ∧ (a.le b = true ↔ (d.Before e ∨ d = e)) ∧
    (a.ge b = true ↔ (e.Before d ∨ d = e)) := by
  rw [Lemmas.before_iff d e ha.1 hb.1, Lemmas.before_iff e d hb.1 ha.1]
  have hi : d = e ↔ d.number = e.number :=
    ⟨fun h => by rw [h], Lemmas.number_inj d e ha.1 hb.1⟩
  have e1 := ha.2.2.2.2
  have e2 := hb.2.2.2.2
  simp only [DateT.lt, DateT.gt, DateT.eq, DateT.ne, DateT.le, DateT.ge, decide_eq_true_eq,
    beq_iff_eq, bne_iff_ne, ne_eq, e1, e2]
  rw [hi]
  refine ⟨?_, ?_, ?_, ?_, ?_, ?_⟩ <;> first | trivial | omega

example : Represents ⟨738945, 2024, 2, 29⟩ ⟨2024, 2, 29⟩ ∧ Represents ⟨738946, 2024, 3, 1⟩ ⟨2024, 3, 1⟩ ∧
    (⟨2024, 2, 29⟩ : YMD).Before ⟨2024, 3, 1⟩ :=
  ⟨⟨by decide, rfl, rfl, rfl, by decide⟩, ⟨by decide, rfl, rfl, rfl, by decide⟩,
    by unfold YMD.Before; simp⟩

/-! ## C07 -/

/-- C07: the validating constructor accepts exactly the valid dates of year 1 or later, and then
stores exactly that date. -/
theorem C07_from_year_month_day (y m d : Int) :
    ((∃ t, fromYearMonthDay y m d = .ok t) ↔ (1 ≤ y ∧ (⟨y, m, d⟩ : YMD).Valid)) ∧
    (∀ t, fromYearMonthDay y m d = .ok t → Represents t ⟨y, m, d⟩) := by
  by_cases h : 0 < y ∧ (⟨y, m, d⟩ : YMD).Valid
  · have e := Lemmas.fromYearMonthDay_ok y m d h.1 h.2
    refine ⟨⟨fun _ => ⟨by omega, h.2⟩, fun _ => ⟨_, e⟩⟩, ?_⟩
    intro t ht
    rw [e] at ht
    cases ht
    exact (represents_iff _ _).2 ⟨h.2, rfl⟩
  · obtain ⟨er, e⟩ := Lemmas.fromYearMonthDay_error y m d h
    refine ⟨⟨?_, ?_⟩, ?_⟩
    · rintro ⟨t, ht⟩; rw [e] at ht; cases ht
    · rintro ⟨h1, h2⟩; exact absurd ⟨by omega, h2⟩ h
    · intro t ht; rw [e] at ht; cases ht

/-- C07: `from_ordinals` accepts exactly the positive ordinals and builds the date with that day
number. -/
theorem C07_from_ordinals (o : Int) :
    ((∃ t, fromOrdinals o = .ok t) ↔ 1 ≤ o) ∧
    (∀ t, fromOrdinals o = .ok t → t.ordinal = o ∧ ∃ d, Represents t d ∧ d.number = o ∧ 1 ≤ d.year) := by
  by_cases h : 0 < o
  · have e := Lemmas.fromOrdinals_pos o h
    refine ⟨⟨fun _ => by omega, fun _ => ⟨_, e⟩⟩, ?_⟩
    intro t ht
    rw [e] at ht
    cases ht
    refine ⟨Lemmas.dateOf_number o, _, (represents_iff _ _).2 ⟨Lemmas.dateOf_valid o, rfl⟩,
      Lemmas.dateOf_number o, ?_⟩
    rw [← Lemmas.number_pos_iff _ (Lemmas.dateOf_valid o), Lemmas.dateOf_number]; exact h
  · have e := Lemmas.fromOrdinals_nonpos o h _ rfl
    refine ⟨⟨?_, by omega⟩, ?_⟩
    · rintro ⟨t, ht⟩; rw [e] at ht; cases ht
    · intro t ht; rw [e] at ht; cases ht

/-- C07: a date tensor packed into a tensor and unpacked is unchanged. -/
theorem C07_tensor_roundtrip (t : DateT) (d : YMD) (h : Represents t d) (hy : 1 ≤ d.year)
    (validate : Bool) : fromTensor t.toTensor validate = .ok t := by
  rw [represents_iff] at h
  obtain ⟨hv, rfl⟩ := h
  cases validate
  · exact Lemmas.fromYearMonthDay_valid_unchecked d hv
  · exact Lemmas.fromYearMonthDay_ok d.year d.month d.day (by omega) hv

/-- C07: numpy day counts: `n` days after 1970-01-01. -/
theorem C07_from_np_datetimes (n : Int) :
    ∃ t d, fromNpDatetimes n = .ok t ∧ Represents t d ∧
      d.number = (⟨1970, 1, 1⟩ : YMD).number + n := by
  refine ⟨_, _, Lemmas.fromOrdinals_unchecked _, (represents_iff _ _).2
    ⟨Lemmas.dateOf_valid _, rfl⟩, ?_⟩
  rw [Lemmas.dateOf_number]
  have : (⟨1970, 1, 1⟩ : YMD).number = 719163 := by decide
  rw [this]; unfold ordinalOf1_1_1970; omega

/-- C07: two accepted representations of the same date are identical, whatever constructor made
them. -/
theorem C07_constructors_agree (t t' : DateT) (d d' : YMD) (h : Represents t d)
    (h' : Represents t' d') :
    (d = d' ↔ t = t') ∧ (t.ordinal = t'.ordinal ↔ t = t') := by
  rw [represents_iff] at h h'
  obtain ⟨hv, rfl⟩ := h
  obtain ⟨hv', rfl⟩ := h'
  have hi : d = d' ↔ d.number = d'.number :=
    ⟨fun h => by rw [h], Lemmas.number_inj d d' hv hv'⟩
  have hr : Lemmas.repr d = Lemmas.repr d' ↔ d = d' := by
    constructor
    · intro h; exact hi.2 (congrArg DateT.ordinal h)
    · intro h; rw [h]
  exact ⟨hr.symm, by rw [hr, hi]; exact Iff.rfl⟩

example : fromYearMonthDay 2023 2 29 = .error "Invalid day-month pairing." := rfl
example : fromYearMonthDay 2024 2 29 = .ok ⟨738945, 2024, 2, 29⟩ := rfl
example : fromNpDatetimes 19781 = .ok ⟨738944, 2024, 2, 28⟩ := rfl

end Props
