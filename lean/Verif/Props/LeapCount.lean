import Verif.Lemmas.LeapCount
import Verif.Props.Dates

/-! # Property theorems C08: leap day counters -/

namespace Props
open Model Spec

/-- C08: `leap_days_between` is the number of February 29ths in `[start, end)`. -/
theorem C08_leap_days_between (s e : DateT) (ds de : YMD) (hs : Represents s ds)
    (he : Represents e de) (hle : ds.number ≤ de.number) :
    leapDaysBetween s e =
      ds.countDays (fun x => x.month == 2 && x.day == 29) (de.number - ds.number).toNat := by
  rw [represents_iff] at hs he
  obtain ⟨hvs, rfl⟩ := hs
  obtain ⟨hve, rfl⟩ := he
  have := Lemmas.count_of_step (fun x => x.month == 2 && x.day == 29)
    (fun d => leapDaysSinceYear0 (Lemmas.repr d)) Lemmas.leapDays_step ds hvs
    (de.number - ds.number).toNat
  rw [Lemmas.nextN_of_number ds de hvs hve hle] at this
  exact this

/-- C08: with the dates exchanged the count changes sign (documented: "negative or zero"). -/
theorem C08_leap_days_antisymmetric (s e : DateT) : leapDaysBetween e s = - leapDaysBetween s e := by
  unfold leapDaysBetween; omega

/-- C08: `days_in_leap_years_between` is the number of days of `[start, end)` in leap years, and
the non-leap count is the number of days of `[start, end)` in non-leap years. -/
theorem C08_days_in_leap_years (s e : DateT) (ds de : YMD) (hs : Represents s ds)
    (he : Represents e de) (hle : ds.number ≤ de.number) :
    daysInLeapYearsBetween s e =
      .ok (ds.countDays (fun x => decide (Leap x.year)) (de.number - ds.number).toNat) ∧
    daysInLeapAndNonleapYearsBetween s e =
      .ok (ds.countDays (fun x => decide (Leap x.year)) (de.number - ds.number).toNat,
           ds.countDays (fun x => !decide (Leap x.year)) (de.number - ds.number).toNat) := by
  rw [represents_iff] at hs he
  obtain ⟨hvs, rfl⟩ := hs
  obtain ⟨hve, rfl⟩ := he
  have h1 := Lemmas.count_of_step (fun x => decide (Leap x.year)) Lemmas.inLeap
    Lemmas.inLeap_step ds hvs (de.number - ds.number).toNat
  rw [Lemmas.nextN_of_number ds de hvs hve hle] at h1
  have h2 := Lemmas.count_of_step (fun x => !decide (Leap x.year))
    (fun d => d.number - Lemmas.inLeap d)
    (by
      intro d hd
      rw [Lemmas.number_next d hd, Lemmas.inLeap_step d hd]
      by_cases hL : Leap d.year <;> simp [hL] <;> omega) ds hvs (de.number - ds.number).toNat
  rw [Lemmas.nextN_of_number ds de hvs hve hle] at h2
  have e1 : daysInLeapYearsBetween (Lemmas.repr ds) (Lemmas.repr de) =
      .ok (Lemmas.inLeap de - Lemmas.inLeap ds) := by
    unfold daysInLeapYearsBetween
    rw [Lemmas.inLeap_ok ds hvs, Lemmas.inLeap_ok de hve]; rfl
  refine ⟨by rw [e1, h1], ?_⟩
  unfold daysInLeapAndNonleapYearsBetween
  rw [e1]
  simp only [bind, Except.bind, pure, Except.pure]
  rw [← h1, ← h2]
  congr 2
  simp only [Lemmas.repr]
  omega

/-- C08: the antisymmetric extension. -/
theorem C08_days_in_leap_years_antisymmetric (s e : DateT) (ds de : YMD) (hs : Represents s ds)
    (he : Represents e de) :
    ∃ n, daysInLeapYearsBetween s e = .ok n ∧ daysInLeapYearsBetween e s = .ok (-n) := by
  rw [represents_iff] at hs he
  obtain ⟨hvs, rfl⟩ := hs
  obtain ⟨hve, rfl⟩ := he
  unfold daysInLeapYearsBetween
  rw [Lemmas.inLeap_ok ds hvs, Lemmas.inLeap_ok de hve]
  refine ⟨_, rfl, ?_⟩
  simp only [bind, Except.bind, pure, Except.pure]
  congr 1
  omega

/-- The documentation's example: 2019-12-24 to 2024-02-10 has 406 days in leap years. -/
example : daysInLeapYearsBetween ⟨737417, 2019, 12, 24⟩ ⟨738926, 2024, 2, 10⟩ = .ok 406 ∧
    Represents ⟨737417, 2019, 12, 24⟩ ⟨2019, 12, 24⟩ ∧ Represents ⟨738926, 2024, 2, 10⟩ ⟨2024, 2, 10⟩ :=
  ⟨rfl, ⟨by decide, rfl, rfl, rfl, by decide⟩, ⟨by decide, rfl, rfl, rfl, by decide⟩⟩

end Props
