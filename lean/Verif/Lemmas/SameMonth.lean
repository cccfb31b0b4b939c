import Verif.Lemmas.BoundedCalendar

/-! Months of day numbers. -/

namespace Lemmas
open Model Spec

theorem sameMonth_iff (a b : Int) :
    SameMonth a b ↔ (dateOf a).year = (dateOf b).year ∧ (dateOf a).month = (dateOf b).month := by
  constructor
  · rintro ⟨d, e, hd, he, rfl, rfl, h1, h2⟩
    rw [dateOf_of_number d hd, dateOf_of_number e he]; exact ⟨h1, h2⟩
  · rintro ⟨h1, h2⟩
    exact ⟨dateOf a, dateOf b, dateOf_valid a, dateOf_valid b, dateOf_number a, dateOf_number b, h1, h2⟩

theorem sameMonth_symm {a b : Int} (h : SameMonth a b) : SameMonth b a := by
  rw [sameMonth_iff] at *; exact ⟨h.1.symm, h.2.symm⟩

theorem daysBeforeYear_step (y : Int) : daysBeforeYear (y + 1) ≥ daysBeforeYear y + 365 := by
  unfold daysBeforeYear; omega

theorem daysBeforeYear_lt {y z : Int} (h : y < z) : daysBeforeYear z ≥ daysBeforeYear y + 365 := by
  obtain ⟨n, hn⟩ : ∃ n : Nat, z = y + 1 + n := ⟨(z - y - 1).toNat, by omega⟩
  subst hn
  clear h
  induction n with
  | zero => simpa using daysBeforeYear_step y
  | succ n ih =>
    have := daysBeforeYear_step (y + 1 + n)
    rw [show y + 1 + ((n + 1 : Nat) : Int) = y + 1 + n + 1 by omega]
    omega

theorem year_of_close {a b : YMD} (ha : a.Valid) (hb : b.Valid) (hm : a.month = b.month)
    (h : b.number - a.number ≤ 330) (hab : a.number ≤ b.number) : a.year = b.year := by
  have hB := before_iff b a hb ha
  obtain ⟨y, m, d⟩ := a
  obtain ⟨z, m', e⟩ := b
  simp only at hm
  subst hm
  by_contra hne
  simp only at hne
  have hlt : y < z := by
    by_contra hge
    have := hB.1 (Or.inl (by simp only; omega))
    omega
  have h1 := daysBeforeYear_lt hlt
  obtain ⟨p1, p2, p3, p4⟩ := ha
  obtain ⟨q1, q2, q3, q4⟩ := hb
  have := (monthLength_pos y m).2
  have := (monthLength_pos z m).2
  simp only at p1 p2 p3 p4 q3 q4
  unfold YMD.number at h
  simp only at h
  rw [daysBeforeMonth_eq y m p1 p2, daysBeforeMonth_eq z m p1 p2] at h
  generalize (153 * (m - 3) + 2) / 5 = w at h
  split at h
  · omega
  · split at h <;> split at h <;> omega

theorem month_iff_sameMonth {a b : Int} (hab : a ≤ b) (h : b - a ≤ 330) :
    (dateOf a).month = (dateOf b).month ↔ SameMonth a b := by
  rw [sameMonth_iff]
  constructor
  · intro hm
    exact ⟨year_of_close (dateOf_valid a) (dateOf_valid b) hm
      (by rw [dateOf_number, dateOf_number]; omega) (by rw [dateOf_number, dateOf_number]; omega), hm⟩
  · exact fun h => h.2

/-- The first day of a month is in no earlier day's month. -/
theorem not_sameMonth_first {y m : Int} (h1 : 1 ≤ m) (h2 : m ≤ 12) {a : Int}
    (h : a < (⟨y, m, 1⟩ : YMD).number) : ¬ SameMonth a (⟨y, m, 1⟩ : YMD).number := by
  rintro ⟨d, e, hd, he, rfl, h4, h5, h6⟩
  have hv : (⟨y, m, 1⟩ : YMD).Valid := ⟨h1, h2, Int.le_refl 1, by have := (monthLength_pos y m).1; simp only; omega⟩
  have := number_inj e _ he hv h4
  subst this
  simp only at h5 h6
  have := (before_iff d _ hd hv).2 h
  unfold YMD.Before at this
  have := hd.2.2.1
  simp only at *
  omega

end Lemmas
