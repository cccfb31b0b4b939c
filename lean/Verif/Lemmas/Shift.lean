import Verif.Spec.Schedule
import Verif.Model.Schedules
import Verif.Lemmas.SameMonth

/-! Shifting dates by periods: growth and monotonicity. -/

namespace Lemmas
open Model Spec

/-- `d` plus `n` periods. -/
def shiftD (p : PeriodType) (n : Int) (d : YMD) : YMD :=
  match p with
  | .DAY => dateOf (d.number + n)
  | .WEEK => dateOf (d.number + n * 7)
  | .MONTH => ⟨d.year + (d.month - 1 + n) / 12, (d.month - 1 + n) % 12 + 1,
        min d.day (monthLength (d.year + (d.month - 1 + n) / 12) ((d.month - 1 + n) % 12 + 1))⟩
  | .YEAR => ⟨d.year + (d.month - 1 + 12 * n) / 12, (d.month - 1 + 12 * n) % 12 + 1,
        min d.day (monthLength (d.year + (d.month - 1 + 12 * n) / 12) ((d.month - 1 + 12 * n) % 12 + 1))⟩

theorem shiftD_valid (p : PeriodType) (n : Int) (d : YMD) (h : d.Valid) : (shiftD p n d).Valid := by
  cases p
  · exact dateOf_valid _
  · exact dateOf_valid _
  · exact add_month_valid d h n
  · exact add_month_valid d h (12 * n)

theorem add_eq_shiftD (p : PeriodType) (n : Int) (d : YMD) (h : d.Valid)
    (hp : p = .MONTH ∨ p = .YEAR ∨ 0 < (shiftD p n d).number) :
    (repr d).add ⟨n, p⟩ = .ok (repr (shiftD p n d)) := by
  cases p
  · simp only [shiftD, dateOf_number] at hp
    rw [add_day_eq, fromOrdinals_pos _ (by simpa using hp)]; rfl
  · simp only [shiftD, dateOf_number] at hp
    rw [add_week_eq, fromOrdinals_pos _ (by simpa using hp)]; rfl
  · exact add_month_eq d h n
  · rw [add_year_eq d h]; exact add_month_eq d h (12 * n)

theorem add_ok_shiftD (p : PeriodType) (n : Int) (d : YMD) (h : d.Valid) {t : DateT}
    (ht : (repr d).add ⟨n, p⟩ = .ok t) : t = repr (shiftD p n d) := by
  by_cases hp : p = .MONTH ∨ p = .YEAR ∨ 0 < (shiftD p n d).number
  · rw [add_eq_shiftD p n d h hp] at ht; cases ht; rfl
  · exfalso
    cases p
    · simp only [shiftD, dateOf_number] at hp
      rw [add_day_eq] at ht
      cases fromOrdinals_nonpos _ (by simpa using hp) _ ht
    · simp only [shiftD, dateOf_number] at hp
      rw [add_week_eq] at ht
      cases fromOrdinals_nonpos _ (by simpa using hp) _ ht
    · simp at hp
    · simp at hp

theorem shiftD_spec (p : PeriodType) (n : Int) (d : YMD) (h : d.Valid) :
    ShiftedBy p n d (shiftD p n d) := by
  refine ⟨shiftD_valid p n d h, ?_⟩
  cases p
  · exact dateOf_number _
  · simp only [shiftD, dateOf_number]; omega
  · refine ⟨?_, rfl⟩; simp only [shiftD]; omega
  · have := h.1; have := h.2.1
    exact ⟨by simp only [shiftD]; omega, by simp only [shiftD]; omega, rfl⟩

theorem shiftedBy_unique {p : PeriodType} {n : Int} {d e e' : YMD} (h : ShiftedBy p n d e)
    (h' : ShiftedBy p n d e') : e = e' := by
  obtain ⟨hv, h⟩ := h
  obtain ⟨hv', h'⟩ := h'
  cases p
  · exact number_inj _ _ hv hv' (by simp only at h h'; omega)
  · exact number_inj _ _ hv hv' (by simp only at h h'; omega)
  · obtain ⟨y, m, dd⟩ := e
    obtain ⟨y', m', dd'⟩ := e'
    have a1 := hv.1; have a2 := hv.2.1; have a3 := hv'.1; have a4 := hv'.2.1
    simp only at *
    have : y = y' := by omega
    subst this
    have : m = m' := by omega
    subst this
    rw [h.2, h'.2]
  · obtain ⟨y, m, dd⟩ := e
    obtain ⟨y', m', dd'⟩ := e'
    simp only at *
    obtain ⟨rfl, rfl, rfl⟩ := h
    obtain ⟨rfl, rfl, rfl⟩ := h'
    rfl

/-- First day of the month with index `i` (year `i / 12`, month `i % 12 + 1`). -/
def fom (i : Int) : Int := (⟨i / 12, i % 12 + 1, 1⟩ : YMD).number

theorem number_fom (d : YMD) (h : d.Valid) : d.number = fom (12 * d.year + d.month - 1) + d.day - 1 := by
  have h1 := h.1; have h2 := h.2.1
  have e1 : (12 * d.year + d.month - 1) / 12 = d.year := by omega
  have e2 : (12 * d.year + d.month - 1) % 12 + 1 = d.month := by omega
  unfold fom
  rw [e1, e2]
  simp only [YMD.number]; omega

theorem fom_succ (i : Int) : fom (i + 1) = fom i + monthLength (i / 12) (i % 12 + 1) := by
  have hv : (⟨i / 12, i % 12 + 1, monthLength (i / 12) (i % 12 + 1)⟩ : YMD).Valid := by
    refine ⟨by simp only; omega, by simp only; omega, ?_, by simp only; omega⟩
    have := (monthLength_pos (i / 12) (i % 12 + 1)).1
    simp only; omega
  have hn := number_next _ hv
  have e : (⟨i / 12, i % 12 + 1, monthLength (i / 12) (i % 12 + 1)⟩ : YMD).next =
      ⟨(i + 1) / 12, (i + 1) % 12 + 1, 1⟩ := by
    unfold YMD.next
    simp only
    rw [if_neg (by omega)]
    split
    · congr 1 <;> omega
    · congr 1 <;> omega
  rw [e] at hn
  unfold fom
  rw [hn]
  simp only [YMD.number]; omega

theorem fom_le (i : Int) (n : Nat) : fom i + 28 * n ≤ fom (i + n) := by
  induction n with
  | zero => simp
  | succ n ih =>
    have := fom_succ (i + n)
    have := (monthLength_pos ((i + n) / 12) ((i + n) % 12 + 1)).1
    rw [show i + ((n + 1 : Nat) : Int) = i + n + 1 by omega]
    omega

theorem fom_le' {i j : Int} (h : i ≤ j) : fom i + 28 * (j - i) ≤ fom j := by
  have := fom_le i (j - i).toNat
  rw [show i + ((j - i).toNat : Int) = j by omega] at this
  omega

theorem daysBeforeYear_succ (y : Int) : daysBeforeYear (y + 1) = daysBeforeYear y + yearLength y := by
  unfold daysBeforeYear yearLength
  by_cases h : Leap y
  · rw [if_pos h]; unfold Leap at h; omega
  · rw [if_neg h]; unfold Leap at h; omega

theorem fom_year (i : Int) : fom i + 365 ≤ fom (i + 12) ∧
    (i % 12 = 1 → fom (i + 12) = fom i + yearLength (i / 12)) := by
  have e1 : (i + 12) / 12 = i / 12 + 1 := by omega
  have e2 : (i + 12) % 12 = i % 12 := by omega
  unfold fom YMD.number
  rw [e1, e2, daysBeforeYear_succ]
  simp only
  rw [daysBeforeMonth_eq _ _ (by omega) (by omega), daysBeforeMonth_eq _ _ (by omega) (by omega)]
  unfold yearLength
  constructor
  · by_cases h1 : Leap (i / 12) <;> by_cases h2 : Leap (i / 12 + 1) <;> simp only [h1, h2, if_true, if_false] <;> split <;> omega
  · intro h; rw [h]; simp only [show (1 + 1 : Int) ≤ 2 by omega, if_true]; omega

theorem fom_years (i : Int) (n : Nat) : fom i + 365 * n ≤ fom (i + 12 * n) := by
  induction n with
  | zero => simp
  | succ n ih =>
    have := (fom_year (i + 12 * n)).1
    rw [show i + 12 * ((n + 1 : Nat) : Int) = i + 12 * n + 12 by omega]
    omega

theorem shiftD_month_number (n : Int) (d : YMD) (h : d.Valid) :
    (shiftD .MONTH n d).number = fom (12 * d.year + d.month - 1 + n) +
      min d.day (monthLength (shiftD .MONTH n d).year (shiftD .MONTH n d).month) - 1 := by
  rw [number_fom _ (shiftD_valid _ _ _ h)]
  have : 12 * (shiftD .MONTH n d).year + (shiftD .MONTH n d).month - 1 = 12 * d.year + d.month - 1 + n := by
    simp only [shiftD]; omega
  rw [this]; rfl

theorem shiftD_zero (p : PeriodType) (d : YMD) (h : d.Valid) : shiftD p 0 d = d := by
  refine shiftedBy_unique (shiftD_spec p 0 d h) ⟨h, ?_⟩
  have := h.2.2.2
  cases p
  · simp
  · simp
  · exact ⟨by omega, by omega⟩
  · exact ⟨by omega, rfl, by omega⟩

/-- Shifting forward by `n` periods moves by at least `n` times the minimal period length. -/
theorem shiftD_growth (p : PeriodType) (n : Int) (hn : 0 ≤ n) (d : YMD) (h : d.Valid) :
    d.number + minDaysInPeriod p * n ≤ (shiftD p n d).number := by
  by_cases h0 : n = 0
  · subst h0; rw [shiftD_zero p d h]; omega
  have h4 := h.2.2.2
  have h1 := h.1; have h2 := h.2.1
  have ey : (12 * d.year + d.month - 1) / 12 = d.year := by omega
  have em : (12 * d.year + d.month - 1) % 12 + 1 = d.month := by omega
  cases p
  · simp only [shiftD, dateOf_number, minDaysInPeriod]; omega
  · simp only [shiftD, dateOf_number, minDaysInPeriod]; omega
  · rw [shiftD_month_number n d h, number_fom d h]
    generalize (shiftD .MONTH n d).year = y
    generalize (shiftD .MONTH n d).month = m
    have hl := (monthLength_pos y m).1
    show _ + 28 * n ≤ _
    have hs := fom_succ (12 * d.year + d.month - 1)
    have := fom_le' (show 12 * d.year + d.month - 1 + 1 ≤ 12 * d.year + d.month - 1 + n by omega)
    have := fom_le' (show 12 * d.year + d.month - 1 ≤ 12 * d.year + d.month - 1 + n by omega)
    rw [ey, em] at hs
    rw [Int.min_def]
    split <;> omega
  · have e : shiftD .YEAR n d = shiftD .MONTH (12 * n) d := rfl
    have hm : (shiftD .MONTH (12 * n) d).month = d.month := by simp only [shiftD]; omega
    rw [e, shiftD_month_number (12 * n) d h, number_fom d h, hm]
    generalize (shiftD .MONTH (12 * n) d).year = y
    show _ + 365 * n ≤ _
    have hy := fom_years (12 * d.year + d.month - 1) n.toNat
    rw [show ((n.toNat : Nat) : Int) = n by omega] at hy
    have hy1 := (fom_year (12 * d.year + d.month - 1)).2
    have hy2 := fom_years (12 * d.year + d.month - 1 + 12) (n - 1).toNat
    rw [show (((n - 1).toNat : Nat) : Int) = n - 1 by omega,
      show 12 * d.year + d.month - 1 + 12 + 12 * (n - 1) = 12 * d.year + d.month - 1 + 12 * n by omega] at hy2
    rw [ey] at hy1
    rw [Int.min_def]
    split
    · omega
    · rename_i hlt
      have : d.month = 2 := by
        by_contra hne
        unfold monthLength at h4 hlt
        rw [if_neg hne] at h4 hlt
        omega
      have hLy : Leap d.year := by
        by_contra hL
        unfold monthLength at h4 hlt
        rw [if_pos this, if_neg hL] at h4
        rw [if_pos this] at hlt
        split at hlt <;> omega
      have e1 := hy1 (by omega)
      unfold yearLength at e1
      rw [if_pos hLy] at e1
      unfold monthLength at h4 hlt ⊢
      rw [if_pos this, if_pos hLy] at h4
      rw [if_pos this] at hlt ⊢
      split at hlt
      · omega
      · omega

theorem shiftD_mono (p : PeriodType) {m n : Int} (hmn : m < n) (d : YMD) (h : d.Valid) :
    (shiftD p m d).number < (shiftD p n d).number := by
  cases p
  · simp only [shiftD, dateOf_number]; omega
  · simp only [shiftD, dateOf_number]; omega
  · rw [← before_iff _ _ (shiftD_valid _ _ _ h) (shiftD_valid _ _ _ h)]
    unfold YMD.Before; simp only [shiftD]; omega
  · rw [← before_iff _ _ (shiftD_valid _ _ _ h) (shiftD_valid _ _ _ h)]
    unfold YMD.Before; simp only [shiftD]; omega

/-- Shifting backward likewise. -/
theorem shiftD_growth_back (p : PeriodType) (n : Int) (hn : 0 ≤ n) (d : YMD) (h : d.Valid) :
    (shiftD p (-n) d).number ≤ d.number - minDaysInPeriod p * n := by
  cases p
  · simp only [shiftD, dateOf_number, minDaysInPeriod]; omega
  · simp only [shiftD, dateOf_number, minDaysInPeriod]; omega
  · rw [shiftD_month_number (-n) d h, number_fom d h]
    generalize monthLength _ _ = l
    show _ ≤ _ - 28 * n
    have := fom_le' (show 12 * d.year + d.month - 1 + -n ≤ 12 * d.year + d.month - 1 by omega)
    have := Int.min_le_left d.day l
    omega
  · have e : shiftD .YEAR (-n) d = shiftD .MONTH (12 * (-n)) d := rfl
    rw [e, shiftD_month_number _ d h, number_fom d h]
    generalize monthLength _ _ = l
    show _ ≤ _ - 365 * n
    have := fom_years (12 * d.year + d.month - 1 + 12 * (-n)) n.toNat
    rw [show 12 * d.year + d.month - 1 + 12 * (-n) + 12 * ((n.toNat : Nat) : Int) = 12 * d.year + d.month - 1 by omega] at this
    have := Int.min_le_left d.day l
    omega

end Lemmas
