import Verif.Model.DateUtils
import Verif.Spec.Gregorian

/-! Helper lemmas about the ordinal conversions. -/

namespace Lemmas
open Model Spec

/-- The year-based formula for the ordinal of 1 March of (March-based) year `y`. -/
def marchOrdinal (y : Int) : Int := 365 * y + y / 4 - y / 100 + y / 400 - 305

theorem isLeapYear_iff (y : Int) : isLeapYear y = true ↔ Leap y := by
  unfold isLeapYear Leap
  simp only [Bool.and_eq_true, Bool.or_eq_true, beq_iff_eq, bne_iff_ne]
  omega

theorem isLeapYear_eq (y : Int) : isLeapYear y = decide (Leap y) := by
  rw [Bool.eq_iff_iff, isLeapYear_iff]; simp

theorem yoe_form (doe : Int) (h0 : 0 ≤ doe) (h1 : doe < 146097) :
    ∃ c q y d : Int, 0 ≤ c ∧ c ≤ 3 ∧ 0 ≤ q ∧ q ≤ 24 ∧ 0 ≤ y ∧ y ≤ 3 ∧ 0 ≤ d ∧ d ≤ 365 ∧
      (d = 365 → y = 3 ∧ (q = 24 → c = 3)) ∧ doe = 36524*c + 1461*q+365*y+d := by
  by_cases hc : doe = 146096
  · exact ⟨3,24,3,365, by omega⟩
  · by_cases hs : (doe % 36524) % 1461 = 1460
    · exact ⟨doe / 36524, (doe % 36524)/1461, 3, 365, by omega⟩
    · exact ⟨doe / 36524, (doe % 36524)/1461, ((doe % 36524)%1461)/365,
        ((doe % 36524)%1461)%365, by omega⟩

theorem yoe_eq (c q y d : Int) (hc0 : 0 ≤ c) (hc : c ≤ 3) (hq0 : 0 ≤ q) (hq : q ≤ 24)
    (hy0 : 0 ≤ y) (hy : y ≤ 3) (hd0 : 0 ≤ d) (hd : d ≤ 365)
    (hl : d = 365 → y = 3 ∧ (q = 24 → c = 3)) (doe : Int)
    (hdoe : doe = 36524*c + 1461*q+365*y+d) :
    (doe - doe/1460 + doe/36524 - doe/146096)/365 = 100*c+4*q+y := by
  have h1 : doe / 146096 = if c = 3 ∧ q = 24 ∧ y = 3 ∧ d = 365 then 1 else 0 := by
    split <;> omega
  have h2 : doe/36524 = if c = 3 ∧ q = 24 ∧ y = 3 ∧ d = 365 then 4 else c := by
    split <;> omega
  have h3 : doe/1460 = 25*c+q+(24*c+q+365*y+d)/1460 := by omega
  rw [h1,h2,h3]
  split
  · omega
  · omega

/-- Splitting a day into a March-based year and the (zero-based) day in that year. -/
theorem ordinal_split (o : Int) :
    ∃ Y doy : Int, 0 ≤ doy ∧ doy ≤ 365 ∧ (doy = 365 → Leap (Y + 1)) ∧
      o = marchOrdinal Y + doy := by
  obtain ⟨c, q, y, d, h1, h2, h3, h4, h5, h6, h7, h8, h9, h10⟩ :=
    yoe_form ((o + 305) % 146097) (by omega) (by omega)
  refine ⟨400 * ((o + 305) / 146097) + 100*c+4*q+y, d, h7, h8, ?_, ?_⟩
  · intro h
    have := h9 h
    unfold Leap
    omega
  · unfold marchOrdinal
    have e1 : (400 * ((o + 305) / 146097) + 100*c+4*q+y)/4 =
      100 * ((o + 305) / 146097) + 25*c+q := by omega
    have e2 : (400 * ((o + 305) / 146097) + 100*c+4*q+y)/100 =
      4 * ((o + 305) / 146097) + c := by omega
    have e3 : (400 * ((o + 305) / 146097) + 100*c+4*q+y)/400 =
      ((o + 305) / 146097) := by omega
    rw [e1,e2,e3]
    omega

/-- Value of `ordinalToYearMonthDay` on a split day. -/
theorem ordinalToYearMonthDay_split (Y doy : Int) (h0 : 0 ≤ doy) (h1 : doy ≤ 365)
    (hl : doy = 365 → Leap (Y + 1)) :
    ordinalToYearMonthDay (marchOrdinal Y + doy) =
      let m := (5 * doy + 2) / 153
      (Y + (if m < 10 then 0 else 1), m + (if m < 10 then 3 else -9), doy - (153 * m + 2) / 5 + 1) := by
  obtain ⟨e, c, q, y, hYe, hc0, hc, hq0, hq, hy0, hy⟩ : ∃ e c q y : Int,
      Y = 400 * e + (100 * c + 4 * q + y) ∧ 0 ≤ c ∧ c ≤ 3 ∧ 0 ≤ q ∧ q ≤ 24 ∧ 0 ≤ y ∧ y ≤ 3 :=
    ⟨Y / 400, (Y % 400) / 100, (Y % 100) / 4, Y % 4, by omega⟩
  have hl' : doy = 365 → y = 3 ∧ (q = 24 → c = 3) := by
    intro h; have := hl h; unfold Leap at this; clear hl; omega
  clear hl
  have d4 : Y / 4 = 100 * e + 25 * c + q := by omega
  have d100 : Y / 100 = 4 * e + c := by omega
  have d400 : Y / 400 = e := by omega
  have y4 : (100 * c + 4 * q + y) / 4 = 25 * c + q := by omega
  have y100 : (100 * c + 4 * q + y) / 100 = c := by omega
  have hbound : 0 ≤ 36524 * c + 1461 * q + 365 * y + doy ∧
      36524 * c + 1461 * q + 365 * y + doy < 146097 := by omega
  have hsum : marchOrdinal Y + doy + 305 =
      146097 * e + (36524 * c + 1461 * q + 365 * y + doy) := by
    unfold marchOrdinal; rw [d4, d100, d400, hYe]; omega
  have hera : (marchOrdinal Y + doy + 305) / 146097 = e := by
    rw [hsum]; generalize 36524 * c + 1461 * q + 365 * y + doy = r at hbound; omega
  have hdoe : (marchOrdinal Y + doy + 305) % 146097 =
      36524 * c + 1461 * q + 365 * y + doy := by
    rw [hsum]; generalize 36524 * c + 1461 * q + 365 * y + doy = r at hbound; omega
  have hyoe := yoe_eq c q y doy hc0 hc hq0 hq hy0 hy h0 h1 hl' _ hdoe
  unfold ordinalToYearMonthDay
  simp only [ordinalOf1_3_0000, daysInEra, daysIn4Years, daysIn100Years, daysInYear, yearsInEra,
    dayOfYearToMonth, daysInYearBeforeMonth, Int.sub_neg, Int.reduceSub]
  rw [hyoe, hera, hdoe]
  rw [y4, y100]
  have hd : 36524 * c + 1461 * q + 365 * y + doy -
      (365 * (100 * c + 4 * q + y) + (25 * c + q) - c) = doy := by omega
  rw [hd]
  have hY : 100 * c + 4 * q + y + e * 400 = Y := by omega
  rw [hY]
  have hm : 0 ≤ (5 * doy + 2) / 153 ∧ (5 * doy + 2) / 153 ≤ 11 := by omega
  generalize (5 * doy + 2) / 153 = m at hm
  by_cases h : m < 10
  · simp only [h, if_true, Prod.mk.injEq, and_true]
    rw [if_neg (by omega)]
  · simp only [h, if_false, Prod.mk.injEq, and_true]
    rw [if_pos (by omega)]

/-- `yearMonthDayToOrdinal` in terms of `marchOrdinal`. -/
theorem yearMonthDayToOrdinal_eq (y m d : Int) :
    yearMonthDayToOrdinal y m d =
      marchOrdinal (y - if m ≤ 2 then 1 else 0)
        + (153 * (m + if m > 2 then -3 else 9) + 2) / 5 + d - 1 := by
  unfold yearMonthDayToOrdinal marchOrdinal
  simp only [ordinalOf1_3_0000, daysInEra, daysInYear, yearsInEra, daysInYearBeforeMonth]
  generalize (y - if m ≤ 2 then 1 else 0) = Y
  have e1 : Y / 4 = 100 * (Y / 400) + (Y % 400) / 4 := by omega
  have e2 : Y / 100 = 4 * (Y / 400) + (Y % 400) / 100 := by omega
  rw [e1, e2]
  omega

theorem month_cases {m : Int} (h1 : 1 ≤ m) (h2 : m ≤ 12) :
    m = 1 ∨ m = 2 ∨ m = 3 ∨ m = 4 ∨ m = 5 ∨ m = 6 ∨ m = 7 ∨ m = 8 ∨ m = 9 ∨ m = 10 ∨ m = 11 ∨
      m = 12 := by omega

theorem leap_or (y : Int) : Leap y ∨ ¬ Leap y := Decidable.em _

theorem ord_of_split (o : Int) :
    (⟨(ordinalToYearMonthDay o).1, (ordinalToYearMonthDay o).2.1,
      (ordinalToYearMonthDay o).2.2⟩ : YMD).Valid ∧
    yearMonthDayToOrdinal (ordinalToYearMonthDay o).1 (ordinalToYearMonthDay o).2.1
      (ordinalToYearMonthDay o).2.2 = o := by
  obtain ⟨Y, doy, h0, h1, hl, rfl⟩ := ordinal_split o
  rw [ordinalToYearMonthDay_split Y doy h0 h1 hl]
  have hm : 0 ≤ (5 * doy + 2) / 153 ∧ (5 * doy + 2) / 153 ≤ 11 := by omega
  have hm' : 153 * ((5 * doy + 2) / 153) ≤ 5 * doy + 2 ∧
      5 * doy + 2 < 153 * ((5 * doy + 2) / 153) + 153 := by omega
  simp only
  generalize (5 * doy + 2) / 153 = m at hm hm'
  constructor
  · have hcases := month_cases (m := m + 1) (by omega) (by omega)
    unfold YMD.Valid monthLength
    have h28 : m = 11 → doy ≤ 364 ∨ Leap (Y + 1) := by
      intro _; by_cases h : doy = 365
      · exact Or.inr (hl h)
      · left; omega
    rcases hcases with h | h | h | h | h | h | h | h | h | h | h | h
    all_goals
      obtain rfl : m = _ := by
        first
        | exact (by omega : m = 0) | exact (by omega : m = 1) | exact (by omega : m = 2)
        | exact (by omega : m = 3) | exact (by omega : m = 4) | exact (by omega : m = 5)
        | exact (by omega : m = 6) | exact (by omega : m = 7) | exact (by omega : m = 8)
        | exact (by omega : m = 9) | exact (by omega : m = 10) | exact (by omega : m = 11)
      simp
      first
      | omega
      | (by_cases hL : Leap (Y + 1) <;> simp [hL] at h28 ⊢ <;> omega)
  · rw [yearMonthDayToOrdinal_eq]
    by_cases h : m < 10
    · rw [if_pos h, if_pos h, if_neg (by omega), if_pos (by omega)]
      have : Y + 0 - 0 = Y := by omega
      rw [this]
      have : m + 3 + -3 = m := by omega
      rw [this]; omega
    · rw [if_neg h, if_neg h, if_pos (by omega), if_neg (by omega)]
      have : Y + 1 - 1 = Y := by omega
      rw [this]
      have : m + -9 + 9 = m := by omega
      rw [this]; omega

theorem ymd_roundtrip_aux (Y mm d : Int) (h : (5 * ((153 * mm + 2) / 5 + d - 1) + 2) / 153 = mm)
    (h0 : 0 ≤ (153 * mm + 2) / 5 + d - 1) (h1 : (153 * mm + 2) / 5 + d - 1 ≤ 365)
    (hl : (153 * mm + 2) / 5 + d - 1 = 365 → Leap (Y + 1)) :
    ordinalToYearMonthDay (marchOrdinal Y + (153 * mm + 2) / 5 + d - 1) =
      (Y + (if mm < 10 then 0 else 1), mm + (if mm < 10 then 3 else -9), d) := by
  have e : marchOrdinal Y + (153 * mm + 2) / 5 + d - 1 =
      marchOrdinal Y + ((153 * mm + 2) / 5 + d - 1) := by omega
  rw [e, ordinalToYearMonthDay_split Y _ h0 h1 hl, h]
  dsimp only
  congr 2
  omega

/-- Round trip starting from a valid date. -/
theorem ymd_roundtrip (y m d : Int) (h : (⟨y, m, d⟩ : YMD).Valid) :
    ordinalToYearMonthDay (yearMonthDayToOrdinal y m d) = (y, m, d) := by
  obtain ⟨h1, h2, h3, h4⟩ := h
  simp only at h1 h2 h3 h4
  rw [yearMonthDayToOrdinal_eq]
  unfold monthLength at h4
  rcases month_cases h1 h2 with rfl | rfl | rfl | rfl | rfl | rfl | rfl | rfl | rfl | rfl | rfl | rfl
  case inr.inl =>
    simp only [if_true, gt_iff_lt, Int.lt_irrefl, if_false, Int.le_refl] at h4 ⊢
    by_cases hL : Leap y
    · rw [if_pos hL] at h4
      rw [ymd_roundtrip_aux _ _ _ (by omega) (by omega) (by omega)
        (by intro; rw [Int.sub_add_cancel]; exact hL)]
      simp
    · rw [if_neg hL] at h4
      rw [ymd_roundtrip_aux _ _ _ (by omega) (by omega) (by omega) (by omega)]
      simp
  all_goals
    simp only [Int.reduceEq, or_true, or_false, if_true, if_false, gt_iff_lt,
      Int.reduceLT, Int.reduceLE] at h4 ⊢
    rw [ymd_roundtrip_aux _ _ _ (by omega) (by omega) (by omega) (by omega)]
    simp

theorem monthLength_pos (y m : Int) : 28 ≤ monthLength y m ∧ monthLength y m ≤ 31 := by
  unfold monthLength; split
  · split <;> omega
  · split <;> omega

theorem next_valid (d : YMD) (h : d.Valid) : d.next.Valid := by
  obtain ⟨h1, h2, h3, h4⟩ := h
  unfold YMD.next
  split
  · exact ⟨h1, h2, by simp only; omega, by simp only; omega⟩
  · split
    · refine ⟨by simp only; omega, by simp only; omega, by simp, ?_⟩
      have := monthLength_pos d.year (d.month + 1); simp only; omega
    · refine ⟨by simp, by simp, by simp, ?_⟩
      have := monthLength_pos (d.year + 1) 1; simp only; omega

/-- The ordinal of the next day is the next ordinal. -/
theorem ordinal_next (d : YMD) (h : d.Valid) :
    yearMonthDayToOrdinal d.next.year d.next.month d.next.day =
      yearMonthDayToOrdinal d.year d.month d.day + 1 := by
  obtain ⟨y, m, d⟩ := d
  obtain ⟨h1, h2, h3, h4⟩ := h
  simp only at h1 h2 h3 h4
  unfold YMD.next
  simp only
  split
  · simp only [yearMonthDayToOrdinal_eq]; omega
  · have hd : d = monthLength y m := by omega
    subst hd
    rcases month_cases h1 h2 with rfl | rfl | rfl | rfl | rfl | rfl | rfl | rfl | rfl | rfl | rfl | rfl
    case inr.inl =>
      simp only [yearMonthDayToOrdinal_eq, monthLength]
      by_cases hL : Leap y
      · simp [hL]; unfold Leap at hL; unfold marchOrdinal; omega
      · simp [hL]; unfold Leap at hL; unfold marchOrdinal; omega
    all_goals
      simp [yearMonthDayToOrdinal_eq, monthLength, Int.add_sub_cancel]
      try omega

end Lemmas
