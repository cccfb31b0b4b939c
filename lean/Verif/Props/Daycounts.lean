import Mathlib.Tactic.FieldSimp
import Mathlib.Tactic.Ring
import Mathlib.Tactic.NormNum
import Mathlib.Tactic.Push
import Mathlib.Data.Rat.Cast.CharZero
import Verif.Model.Daycounts
import Verif.Lemmas.BoundedRoll
import Verif.Props.LeapCount

/-!
# Property theorems C17: day count fractions
-/

namespace Props
open Model Spec

section
variable (K : Type) [Field K]

/-- C17: Actual/360 is the number of days over 360. -/
theorem C17_actual_360 (s e : DateT) (ds de : YMD) (hs : Represents s ds) (he : Represents e de) :
    actual360 K s e = ((de.number - ds.number : Int) : K) / 360 := by
  unfold actual360 DateT.daysUntil
  rw [hs.2.2.2.2, he.2.2.2.2]

/-- C17: Actual/365 fixed is the number of days over 365. -/
theorem C17_actual_365_fixed (s e : DateT) (ds de : YMD) (hs : Represents s ds) (he : Represents e de) :
    actual365Fixed K s e = ((de.number - ds.number : Int) : K) / 365 := by
  unfold actual365Fixed DateT.daysUntil
  rw [hs.2.2.2.2, he.2.2.2.2]

/-- C17: additivity over adjacent intervals. -/
theorem C17_actual_additive (a b c : DateT) :
    actual360 K a b + actual360 K b c = actual360 K a c ∧
    actual365Fixed K a b + actual365Fixed K b c = actual365Fixed K a c := by
  unfold actual360 actual365Fixed DateT.daysUntil
  constructor <;> push_cast <;> ring

/-- C17: exchanging the dates changes the sign. -/
theorem C17_actual_antisymmetric (a b : DateT) :
    actual360 K b a = - actual360 K a b ∧ actual365Fixed K b a = - actual365Fixed K a b := by
  unfold actual360 actual365Fixed DateT.daysUntil
  constructor <;> push_cast <;> ring

open Classical in
/-- C17: Actual/365 Actual, for `start ≤ end`: the number of days divided by 366 if one of the days after
the start date up to and including the end date is a February 29th, by 365 otherwise. -/
theorem C17_actual_365_actual (s e : DateT) (ds de : YMD) (hs : Represents s ds) (he : Represents e de)
    (hy : 1 ≤ ds.year) (hle : ds.number ≤ de.number) :
    actual365Actual K s e = .ok (((de.number - ds.number : Int) : K) /
      (if ∃ k : Nat, 1 ≤ k ∧ (k : Int) ≤ de.number - ds.number ∧
          (ds.nextN k).month = 2 ∧ (ds.nextN k).day = 29 then 366 else 365)) := by
  have hpos : 0 < ds.number := (Lemmas.number_pos_iff ds hs.1).2 hy
  have hye : 1 ≤ de.year := (Lemmas.number_pos_iff de he.1).1 (by omega)
  obtain ⟨s', hs1, hs2⟩ := C04_add_days s ds hs hy 1
  obtain ⟨e', he1, he2⟩ := C04_add_days e de he hye 1
  have ns := Lemmas.number_nextN 1 ds hs.1
  have ne := Lemmas.number_nextN 1 de he.1
  have hcount := C08_leap_days_between s' e' _ _ hs2 he2 (by omega)
  unfold actual365Actual
  have hs1' : s.add ⟨1, .DAY⟩ = .ok s' := hs1
  have he1' : e.add ⟨1, .DAY⟩ = .ok e' := he1
  rw [hs1', Lemmas.bind_ok, he1', Lemmas.bind_ok]
  have hiff : leapDaysBetween s' e' > 0 ↔ ∃ k : Nat, 1 ≤ k ∧ (k : Int) ≤ de.number - ds.number ∧
          (ds.nextN k).month = 2 ∧ (ds.nextN k).day = 29 := by
    rw [hcount]
    unfold YMD.countDays
    rw [gt_iff_lt, Int.natCast_pos, List.length_pos_iff_exists_mem]
    have hadd : ∀ k, (ds.nextN 1).nextN k = ds.nextN (k + 1) := by
      intro k
      induction k with
      | zero => rfl
      | succ k ih => show ((ds.nextN 1).nextN k).next = _; rw [ih]; rfl
    constructor
    · rintro ⟨k, hk⟩
      simp only [List.mem_filter, List.mem_range, Bool.and_eq_true, beq_iff_eq, hadd] at hk
      exact ⟨k + 1, by omega, by omega, hk.2.1, hk.2.2⟩
    · rintro ⟨k, h1, h2, h3, h4⟩
      refine ⟨k - 1, ?_⟩
      simp only [List.mem_filter, List.mem_range, Bool.and_eq_true, beq_iff_eq, hadd]
      rw [show k - 1 + 1 = k by omega]
      exact ⟨by omega, h3, h4⟩
  simp only [DateT.daysUntil]
  rw [hs.2.2.2.2, he.2.2.2.2]
  show Except.ok _ = _
  congr 2
  by_cases h : leapDaysBetween s' e' > 0
  · rw [if_pos h, if_pos (hiff.1 h)]; norm_num
  · rw [if_neg h, if_neg (fun hh => h (hiff.2 hh))]; norm_num

/-- C17: 30/360 ISDA.  If the end date is `n` months after the start date (`n` of any sign) on the same
day of the month, the fraction is `n/12`. -/
theorem C17_thirty_360_months [CharZero K] (s e : DateT) (ds de : YMD) (hs : Represents s ds)
    (he : Represents e de) (n : Int)
    (hm : 12 * de.year + de.month = 12 * ds.year + ds.month + n) (hd : de.day = ds.day) :
    thirty360Isda K s e = (n : K) / 12 := by
  obtain ⟨hsv, hs1, hs2, hs3, -⟩ := hs
  obtain ⟨hev, he1, he2, he3, -⟩ := he
  have h31 := Lemmas.monthLength_pos ds.year ds.month
  have h31' := hsv.2.2.2
  unfold thirty360Isda
  have hnum : ((if min s.day 30 = 30 ∧ e.day = 31 then 30 else e.day) - min s.day 30 +
      (e.month - s.month) * 30 + (e.year - s.year) * 360 : Int) = 30 * n := by
    rw [Int.min_def]
    split <;> split <;> omega
  simp only [hnum]
  push_cast
  field_simp
  ring

/-- C17: 30/360 ISDA in general: every month counts 30 days; a start on the 31st counts as the 30th, an
end on the 31st counts as the 30th if the start is on the 30th or 31st. -/
theorem C17_thirty_360 (s e : DateT) (ds de : YMD) (hs : Represents s ds) (he : Represents e de) :
    thirty360Isda K s e =
      ((360 * (de.year - ds.year) + 30 * (de.month - ds.month) +
        ((if de.day = 31 ∧ (ds.day = 30 ∨ ds.day = 31) then 30 else de.day) -
          (if ds.day = 31 then 30 else ds.day)) : Int) : K) / 360 := by
  obtain ⟨hsv, hs1, hs2, hs3, -⟩ := hs
  obtain ⟨hev, he1, he2, he3, -⟩ := he
  have h31 := Lemmas.monthLength_pos ds.year ds.month
  have h31' := hsv.2.2.2
  unfold thirty360Isda
  simp only
  rw [hs1, hs2, hs3, he1, he2, he3]
  congr 2
  rw [Int.min_def]
  have hm31 : monthLength ds.year ds.month ≤ 31 := by
    unfold monthLength; split
    · split <;> omega
    · split <;> omega
  have a1 : (if ds.day ≤ 30 then ds.day else 30) = if ds.day = 31 then 30 else ds.day := by
    split <;> split <;> omega
  rw [a1]
  have a2 : ((if ds.day = 31 then 30 else ds.day) = 30 ∧ de.day = 31) ↔
      (de.day = 31 ∧ (ds.day = 30 ∨ ds.day = 31)) := by
    split <;> omega
  simp only [a2]
  omega

theorem actualActual_eq (s e : DateT) (ds de : YMD) (hs : Represents s ds) (he : Represents e de) :
    actualActualIsda K s e = .ok (((Lemmas.inLeap de - Lemmas.inLeap ds : Int) : K) / 366 +
      ((de.number - ds.number - (Lemmas.inLeap de - Lemmas.inLeap ds) : Int) : K) / 365) := by
  rw [represents_iff] at hs he
  obtain ⟨hvs, rfl⟩ := hs
  obtain ⟨hve, rfl⟩ := he
  unfold actualActualIsda daysInLeapAndNonleapYearsBetween daysInLeapYearsBetween
  rw [Lemmas.inLeap_ok ds hvs, Lemmas.inLeap_ok de hve]
  rfl

/-- C17: Actual/Actual ISDA, for `start ≤ end`: the days of `[start, end)` in leap years over 366 plus the
other days over 365. -/
theorem C17_actual_actual_isda (s e : DateT) (ds de : YMD) (hs : Represents s ds) (he : Represents e de)
    (hle : ds.number ≤ de.number) :
    actualActualIsda K s e = .ok (
      (ds.countDays (fun x => decide (Leap x.year)) (de.number - ds.number).toNat : K) / 366 +
      (ds.countDays (fun x => !decide (Leap x.year)) (de.number - ds.number).toNat : K) / 365) := by
  unfold actualActualIsda
  rw [(C08_days_in_leap_years s e ds de hs he hle).2, Lemmas.bind_ok]
  simp only [Int.cast_natCast]
  rfl

/-- C17: Actual/Actual ISDA is additive and antisymmetric (for dates in any order). -/
theorem C17_actual_actual_isda_additive (a b c : DateT) (da db dc : YMD) (ha : Represents a da)
    (hb : Represents b db) (hc : Represents c dc) :
    ∃ x y, actualActualIsda K a b = .ok x ∧ actualActualIsda K b c = .ok y ∧
      actualActualIsda K a c = .ok (x + y) ∧ actualActualIsda K b a = .ok (-x) := by
  refine ⟨_, _, actualActual_eq K a b da db ha hb, actualActual_eq K b c db dc hb hc, ?_, ?_⟩
  · rw [actualActual_eq K a c da dc ha hc]
    congr 1; push_cast; ring
  · rw [actualActual_eq K b a db da hb ha]
    congr 1; push_cast; ring

/-- C17: `n` full calendar years are exactly `n` (Actual/Actual ISDA). -/
theorem C17_actual_actual_isda_full_years [CharZero K] (s e : DateT) (y : Int) (n : Nat)
    (hs : Represents s ⟨y, 1, 1⟩) (he : Represents e ⟨y + n, 1, 1⟩) :
    actualActualIsda K s e = .ok (n : K) := by
  rw [actualActual_eq K s e _ _ hs he]
  congr 1
  have key : ∀ n : Nat, ∃ k l : Int, k + l = n ∧
      Lemmas.inLeap ⟨y + n, 1, 1⟩ - Lemmas.inLeap ⟨y, 1, 1⟩ = 366 * k ∧
      (⟨y + n, 1, 1⟩ : YMD).number - (⟨y, 1, 1⟩ : YMD).number = 366 * k + 365 * l := by
    intro n
    induction n with
    | zero => exact ⟨0, 0, by simp, by simp, by simp⟩
    | succ n ih =>
      obtain ⟨k, l, h1, h2, h3⟩ := ih
      have hz : ∀ y, daysBeforeMonth y 1 = 0 := fun y => rfl
      by_cases hL : Leap (y + n)
      · refine ⟨k + 1, l, by push_cast; omega, ?_, ?_⟩
        · have : Lemmas.inLeap ⟨y + ((n + 1 : Nat) : Int), 1, 1⟩ = Lemmas.inLeap ⟨y + n, 1, 1⟩ + 366 := by
            unfold Lemmas.inLeap
            simp only [hz]
            rw [show y + ((n + 1 : Nat) : Int) - 1 = y + n by push_cast; omega]
            unfold Leap at hL
            split <;> split <;> omega
          omega
        · have : (⟨y + ((n + 1 : Nat) : Int), 1, 1⟩ : YMD).number = (⟨y + n, 1, 1⟩ : YMD).number + 366 := by
            unfold YMD.number daysBeforeYear
            simp only [hz]
            rw [show y + ((n + 1 : Nat) : Int) - 1 = y + n by push_cast; omega]
            unfold Leap at hL
            omega
          omega
      · refine ⟨k, l + 1, by push_cast; omega, ?_, ?_⟩
        · have : Lemmas.inLeap ⟨y + ((n + 1 : Nat) : Int), 1, 1⟩ = Lemmas.inLeap ⟨y + n, 1, 1⟩ := by
            unfold Lemmas.inLeap
            simp only [hz]
            rw [show y + ((n + 1 : Nat) : Int) - 1 = y + n by push_cast; omega]
            unfold Leap at hL
            split <;> split <;> omega
          omega
        · have : (⟨y + ((n + 1 : Nat) : Int), 1, 1⟩ : YMD).number = (⟨y + n, 1, 1⟩ : YMD).number + 365 := by
            unfold YMD.number daysBeforeYear
            simp only [hz]
            rw [show y + ((n + 1 : Nat) : Int) - 1 = y + n by push_cast; omega]
            unfold Leap at hL
            omega
          omega
  obtain ⟨k, l, h1, h2, h3⟩ := key n
  rw [h2, h3, show 366 * k + 365 * l - 366 * k = 365 * l by omega]
  have : (n : K) = ((k + l : Int) : K) := by rw [h1]; simp
  rw [this]
  push_cast
  field_simp

end

/-- C17 (deviation found in the code): Actual/365 Actual is not antisymmetric: with the dates exchanged a
leap day in between is not seen. -/
theorem C17_actual_365_actual_not_antisymmetric :
    actual365Actual ℚ ⟨738944, 2024, 2, 28⟩ ⟨738946, 2024, 3, 1⟩ = .ok (2 / 366) ∧
    actual365Actual ℚ ⟨738946, 2024, 3, 1⟩ ⟨738944, 2024, 2, 28⟩ = .ok (- 2 / 365) := by
  have h1 : (⟨738944, 2024, 2, 28⟩ : DateT).add ⟨1, .DAY⟩ = .ok ⟨738945, 2024, 2, 29⟩ := by rfl
  have h2 : (⟨738946, 2024, 3, 1⟩ : DateT).add ⟨1, .DAY⟩ = .ok ⟨738947, 2024, 3, 2⟩ := by rfl
  have h3 : leapDaysBetween ⟨738945, 2024, 2, 29⟩ ⟨738947, 2024, 3, 2⟩ = 1 := by rfl
  have h4 : leapDaysBetween ⟨738947, 2024, 3, 2⟩ ⟨738945, 2024, 2, 29⟩ = -1 := by rfl
  unfold actual365Actual
  rw [h1, h2]
  simp only [Lemmas.bind_ok, h3, h4]
  constructor
  · show Except.ok _ = _
    congr 1
  · show Except.ok _ = _
    congr 1

/-- C17 (deviation found in the code): the documentation of Actual/Actual ISDA says that the start date is
excluded and the end date included.  The code does it the other way round: the period from 2019-12-31 to
2020-01-01 counts as a day of 2019. -/
theorem C17_actual_actual_counts_start_date :
    actualActualIsda ℚ ⟨737424, 2019, 12, 31⟩ ⟨737425, 2020, 1, 1⟩ = .ok (1 / 365) := by
  have h : daysInLeapAndNonleapYearsBetween ⟨737424, 2019, 12, 31⟩ ⟨737425, 2020, 1, 1⟩ = .ok (0, 1) := by rfl
  unfold actualActualIsda
  rw [h, Lemmas.bind_ok]
  show Except.ok _ = _
  congr 1
  norm_num

/-! Examples. -/

example : thirty360Isda ℚ ⟨737455, 2020, 1, 31⟩ ⟨738185, 2022, 1, 30⟩ = 2 := by
  norm_num [thirty360Isda]

example : actual360 ℚ ⟨737425, 2020, 1, 1⟩ ⟨737791, 2021, 1, 1⟩ = 366 / 360 := by
  norm_num [actual360, DateT.daysUntil]

example : Represents ⟨737425, 2020, 1, 1⟩ ⟨2020, 1, 1⟩ ∧ Represents ⟨738521, 2023, 1, 1⟩ ⟨2020 + (3 : Nat), 1, 1⟩ ∧
    actualActualIsda ℚ ⟨737425, 2020, 1, 1⟩ ⟨738521, 2023, 1, 1⟩ = .ok ((3 : Nat) : ℚ) := by
  have h1 : Represents ⟨737425, 2020, 1, 1⟩ ⟨2020, 1, 1⟩ := ⟨by decide, rfl, rfl, rfl, by decide⟩
  have h2 : Represents ⟨738521, 2023, 1, 1⟩ ⟨2020 + (3 : Nat), 1, 1⟩ := ⟨by decide, rfl, rfl, rfl, by decide⟩
  exact ⟨h1, h2, C17_actual_actual_isda_full_years ℚ _ _ 2020 3 h1 h2⟩

end Props
