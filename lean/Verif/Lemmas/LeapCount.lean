import Verif.Lemmas.DateTensor

/-! Counting lemmas for leap days and days in leap years. -/

namespace Lemmas
open Model Spec

theorem countDays_succ (P : YMD → Bool) (d : YMD) (n : Nat) :
    d.countDays P (n + 1) = d.countDays P n + (if P (d.nextN n) then 1 else 0) := by
  unfold YMD.countDays
  rw [List.range_succ, List.filter_append, List.length_append]
  by_cases h : P (d.nextN n) <;> simp [h]

/-- Telescoping: a function with step `P` counts `P`-days. -/
theorem count_of_step (P : YMD → Bool) (f : YMD → Int)
    (hstep : ∀ d : YMD, d.Valid → f d.next = f d + (if P d then 1 else 0))
    (d : YMD) (hd : d.Valid) (n : Nat) :
    f (d.nextN n) - f d = d.countDays P n := by
  induction n with
  | zero => simp [YMD.nextN, YMD.countDays]
  | succ n ih =>
    rw [countDays_succ]
    show f (d.nextN n).next - f d = _
    rw [hstep _ (nextN_valid n d hd)]
    split <;> push_cast <;> omega

theorem leapDays_step (d : YMD) (h : d.Valid) :
    leapDaysSinceYear0 (repr d.next) = leapDaysSinceYear0 (repr d) +
      (if (d.month == 2 && d.day == 29) then 1 else 0) := by
  obtain ⟨y, m, d⟩ := d
  obtain ⟨h1, h2, h3, h4⟩ := h
  simp only at h1 h2 h3 h4
  have ml := monthLength_pos y m
  unfold leapDaysSinceYear0 YMD.next repr
  simp only [isLeapYear_eq]
  by_cases ha : d < monthLength y m
  · have hn : ¬ (m = 2 ∧ d = 29) := by
      rintro ⟨rfl, rfl⟩; unfold monthLength at ha; simp only [if_true] at ha
      split at ha <;> omega
    simp only [ha, if_true, Bool.and_eq_true, beq_iff_eq, hn, if_false]
    omega
  · have hd : d = monthLength y m := by omega
    simp only [ha, if_false]
    by_cases hb : m < 12
    · simp only [hb, if_true]
      by_cases hm : m = 2
      · subst hm
        by_cases hL : Leap y
        · have : d = 29 := by rw [hd]; simp [monthLength, hL]
          subst this; simp [hL]
        · have : d = 28 := by rw [hd]; simp [monthLength, hL]
          subst this; simp [hL]
      · by_cases hL : Leap y
        · have e : (m + 1 ≤ 2) ↔ (m ≤ 2) := by omega
          simp [hL, hm, e]
        · simp [hL, hm]
    · have : m = 12 := by omega
      subst this
      simp only [Int.lt_irrefl, if_false]
      by_cases hL : Leap y <;> by_cases hL' : Leap (y + 1) <;> simp [hL, hL'] <;>
        unfold Leap at * <;> omega

theorem inLeap_ok (d : YMD) (h : d.Valid) :
    daysInLeapYearsSince1Jan0001 (repr d) = .ok
      (((d.year - 1) / 4 - (d.year - 1) / 100 + (d.year - 1) / 400) * 366 +
       (if Leap d.year then daysBeforeMonth d.year d.month + d.day - 1 else 0)) := by
  unfold daysInLeapYearsSince1Jan0001
  rw [dayOfYear_eq _ h.1 h.2.1]
  simp only [bind, Except.bind, pure, Except.pure, repr, isLeapYear_eq]
  by_cases hL : Leap d.year <;> simp [hL]

/-- The value computed by `days_in_leap_years_since_1jan0001`. -/
def inLeap (d : YMD) : Int :=
  ((d.year - 1) / 4 - (d.year - 1) / 100 + (d.year - 1) / 400) * 366 +
       (if Leap d.year then daysBeforeMonth d.year d.month + d.day - 1 else 0)

theorem inLeap_step (d : YMD) (h : d.Valid) :
    inLeap d.next = inLeap d + (if decide (Leap d.year) then 1 else 0) := by
  have hn := number_next d h
  have hv := next_valid d h
  obtain ⟨y, m, d⟩ := d
  unfold inLeap
  unfold YMD.number daysBeforeYear at hn
  obtain ⟨h1, h2, h3, h4⟩ := h
  simp only at h1 h2 h3 h4
  by_cases ha : d < monthLength y m
  · by_cases hL : Leap y <;> simp [YMD.next, ha, hL] <;> omega
  · have hd : d = monthLength y m := by omega
    by_cases hb : m < 12
    · simp only [YMD.next, ha, hb, if_true, if_false] at hn ⊢
      by_cases hL : Leap y <;> simp [hL] <;> omega
    · have : m = 12 := by omega
      subst this
      have hd' : d = 31 := by rw [hd]; simp [monthLength]
      have e1 : daysBeforeMonth (y + 1) 1 = 0 := by simp [daysBeforeMonth]
      have e2 := daysBeforeMonth_eq y 12 (by omega) (by omega)
      simp only [YMD.next, ha, Int.lt_irrefl, if_false] at hn ⊢
      rw [e1] at hn ⊢
      subst hd'
      rw [e2] at hn ⊢
      by_cases hL : Leap y <;> by_cases hL' : Leap (y + 1) <;> simp [hL, hL'] at hn ⊢ <;> omega

end Lemmas
