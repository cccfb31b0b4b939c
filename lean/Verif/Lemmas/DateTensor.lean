import Verif.Model.DateTensor
import Verif.Lemmas.DateUtils

/-! Helper lemmas about one element of a date tensor. -/

namespace Lemmas
open Model Spec

theorem daysBeforeMonth_eq (y m : Int) (h1 : 1 ≤ m) (h2 : m ≤ 12) :
    daysBeforeMonth y m =
      if m ≤ 2 then 31 * (m - 1)
      else (153 * (m - 3) + 2) / 5 + (if Leap y then 60 else 59) := by
  unfold daysBeforeMonth monthLength
  rcases month_cases h1 h2 with rfl | rfl | rfl | rfl | rfl | rfl | rfl | rfl | rfl | rfl | rfl | rfl
  all_goals
    by_cases hL : Leap y <;> simp [hL, List.range_succ]

theorem number_eq (d : YMD) (h : d.Valid) :
    yearMonthDayToOrdinal d.year d.month d.day = d.number := by
  obtain ⟨y, m, d⟩ := d
  obtain ⟨h1, h2, h3, h4⟩ := h
  simp only at h1 h2 h3 h4
  unfold YMD.number
  simp only
  rw [yearMonthDayToOrdinal_eq, daysBeforeMonth_eq y m h1 h2]
  unfold daysBeforeYear marchOrdinal
  by_cases hm : m ≤ 2
  · rw [if_pos hm, if_pos hm, if_neg (by omega)]
    have : m = 1 ∨ m = 2 := by omega
    rcases this with rfl | rfl <;> simp <;> omega
  · rw [if_neg hm, if_neg hm, if_pos (by omega)]
    rw [show m + -3 = m - 3 by omega]
    generalize (153 * (m - 3) + 2) / 5 = b
    by_cases hL : Leap y
    · rw [if_pos hL]; unfold Leap at hL; omega
    · rw [if_neg hL]; unfold Leap at hL; omega

theorem number_next (d : YMD) (h : d.Valid) : d.next.number = d.number + 1 := by
  rw [← number_eq d h, ← number_eq _ (next_valid d h), ordinal_next d h]

theorem nextN_valid (n : Nat) (d : YMD) (h : d.Valid) : (d.nextN n).Valid := by
  induction n with
  | zero => exact h
  | succ n ih => exact next_valid _ ih

theorem number_nextN (n : Nat) (d : YMD) (h : d.Valid) : (d.nextN n).number = d.number + n := by
  induction n with
  | zero => simp [YMD.nextN]
  | succ n ih =>
    show (d.nextN n).next.number = _
    rw [number_next _ (nextN_valid n d h), ih]; omega

/-- Number is injective on valid dates. -/
theorem number_inj (a b : YMD) (ha : a.Valid) (hb : b.Valid) (h : a.number = b.number) : a = b := by
  have e1 := ymd_roundtrip a.year a.month a.day ha
  have e2 := ymd_roundtrip b.year b.month b.day hb
  rw [number_eq a ha] at e1
  rw [number_eq b hb] at e2
  rw [h, e2] at e1
  obtain ⟨y, m, d⟩ := a
  obtain ⟨y', m', d'⟩ := b
  simp only [Prod.mk.injEq] at e1
  obtain ⟨rfl, rfl, rfl⟩ := e1
  rfl

/-- The date with a given number. -/
def dateOf (o : Int) : YMD :=
  ⟨(ordinalToYearMonthDay o).1, (ordinalToYearMonthDay o).2.1, (ordinalToYearMonthDay o).2.2⟩

theorem dateOf_valid (o : Int) : (dateOf o).Valid := (ord_of_split o).1

theorem dateOf_number (o : Int) : (dateOf o).number = o := by
  rw [← number_eq _ (dateOf_valid o)]; exact (ord_of_split o).2

theorem dateOf_of_number (d : YMD) (h : d.Valid) : dateOf d.number = d :=
  number_inj _ _ (dateOf_valid _) h (dateOf_number _)

theorem before_trans {a b c : YMD} (h1 : a.Before b) (h2 : b.Before c) : a.Before c := by
  unfold YMD.Before at *; omega

theorem before_next (d : YMD) (h : d.Valid) : d.Before d.next := by
  unfold YMD.next
  obtain ⟨h1, h2, h3, h4⟩ := h
  split
  · unfold YMD.Before; simp; omega
  · split <;> unfold YMD.Before <;> simp <;> omega

theorem before_nextN (n : Nat) (d : YMD) (h : d.Valid) : d.Before (d.nextN (n+1)) := by
  induction n with
  | zero => exact before_next d h
  | succ n ih => exact before_trans ih (before_next _ (nextN_valid _ _ h))

theorem nextN_of_number (a b : YMD) (ha : a.Valid) (hb : b.Valid) (h : a.number ≤ b.number) :
    a.nextN (b.number - a.number).toNat = b := by
  apply number_inj _ _ (nextN_valid _ _ ha) hb
  rw [number_nextN _ _ ha]; omega

theorem before_iff (a b : YMD) (ha : a.Valid) (hb : b.Valid) :
    a.Before b ↔ a.number < b.number := by
  have key : ∀ a b : YMD, a.Valid → b.Valid → a.number < b.number → a.Before b := by
    intro a b ha hb h
    have e := nextN_of_number a b ha hb (by omega)
    have := before_nextN ((b.number - a.number).toNat - 1) a ha
    rw [show (b.number - a.number).toNat - 1 + 1 = (b.number - a.number).toNat by omega, e] at this
    exact this
  constructor
  · intro hab
    rcases Int.lt_trichotomy a.number b.number with h | h | h
    · exact h
    · have := number_inj a b ha hb h
      subst this; unfold YMD.Before at hab; omega
    · have := key b a hb ha h
      unfold YMD.Before at *; omega
  · exact key a b ha hb

/-- Month table lookup. -/
theorem numDaysInMonth_eq (m y : Int) (h1 : 1 ≤ m) (h2 : m ≤ 12) :
    numDaysInMonth m y = .ok (monthLength y m) := by
  unfold numDaysInMonth monthLength
  rw [isLeapYear_eq]
  rcases month_cases h1 h2 with rfl | rfl | rfl | rfl | rfl | rfl | rfl | rfl | rfl | rfl | rfl | rfl
  all_goals
    by_cases hL : Leap y <;> simp [hL] <;> rfl

theorem dayOfYear_eq (t : DateT) (h1 : 1 ≤ t.month) (h2 : t.month ≤ 12) :
    t.dayOfYear = .ok (daysBeforeMonth t.year t.month + t.day) := by
  obtain ⟨o, y, m, d⟩ := t
  simp only at h1 h2
  unfold DateT.dayOfYear
  simp only
  rw [daysBeforeMonth_eq y m h1 h2, isLeapYear_eq]
  rcases month_cases h1 h2 with rfl | rfl | rfl | rfl | rfl | rfl | rfl | rfl | rfl | rfl | rfl | rfl
  all_goals
    by_cases hL : Leap y <;> simp [hL] <;> first | rfl | (show Except.ok (0 + d) = Except.ok d; simp)

/-- `t` is the (one and only) representation of the valid date `d`. -/
def repr (d : YMD) : DateT := ⟨d.number, d.year, d.month, d.day⟩

theorem fromYearMonthDay_unchecked (y m d : Int) :
    fromYearMonthDay y m d false = .ok ⟨yearMonthDayToOrdinal y m d, y, m, d⟩ := rfl

theorem fromYearMonthDay_valid_unchecked (d : YMD) (h : d.Valid) :
    fromYearMonthDay d.year d.month d.day false = .ok (repr d) := by
  rw [fromYearMonthDay_unchecked, number_eq d h]; rfl

theorem fromYearMonthDay_ok (y m d : Int) (hy : 0 < y) (h : (⟨y, m, d⟩ : YMD).Valid) :
    fromYearMonthDay y m d true = .ok (repr ⟨y, m, d⟩) := by
  have e := number_eq _ h
  obtain ⟨h1, h2, h3, h4⟩ := h
  simp only at h1 h2 h3 h4 e
  unfold fromYearMonthDay
  rw [numDaysInMonth_eq m y h1 h2]
  have h3' : 0 < d := by omega
  simp [hy, h1, h2, h3', h4, bind, Except.bind, pure, Except.pure, e, repr]

theorem fromYearMonthDay_error (y m d : Int) (h : ¬ (0 < y ∧ (⟨y, m, d⟩ : YMD).Valid)) :
    ∃ e, fromYearMonthDay y m d true = .error e := by
  unfold fromYearMonthDay
  by_cases hy : 0 < y
  · by_cases h1 : 1 ≤ m
    · by_cases h2 : m ≤ 12
      · by_cases h3 : 0 < d
        · rw [numDaysInMonth_eq m y h1 h2]
          have h4 : ¬ d ≤ monthLength y m := by
            intro h4; exact h ⟨hy, h1, h2, by simp only; omega, h4⟩
          simp [hy, h1, h2, h3, h4, bind, Except.bind, pure, Except.pure, throw, throwThe,
            MonadExceptOf.throw]
        · simp [hy, h1, h2, h3, bind, Except.bind, pure, Except.pure, throw, throwThe,
            MonadExceptOf.throw]
      · simp [hy, h1, h2, bind, Except.bind, pure, Except.pure, throw, throwThe,
            MonadExceptOf.throw]
    · simp [hy, h1, bind, Except.bind, pure, Except.pure, throw, throwThe,
            MonadExceptOf.throw]
  · simp [hy, bind, Except.bind, pure, Except.pure, throw, throwThe, MonadExceptOf.throw]

theorem fromOrdinals_unchecked (o : Int) : fromOrdinals o false = .ok (repr (dateOf o)) := by
  unfold repr; rw [dateOf_number]; rfl

theorem fromOrdinals_pos (o : Int) (h : 0 < o) : fromOrdinals o true = .ok (repr (dateOf o)) := by
  unfold repr; rw [dateOf_number]
  unfold fromOrdinals
  simp [h, bind, Except.bind, pure, Except.pure, dateOf]

theorem fromOrdinals_nonpos (o : Int) (h : ¬ 0 < o) (v : Except String DateT)
    (hv : fromOrdinals o true = v) : v = .error "Ordinals must be positive." := by
  subst hv; unfold fromOrdinals
  simp [h, bind, Except.bind, throw, throwThe, MonadExceptOf.throw]

theorem number_pos_iff (d : YMD) (h : d.Valid) : 0 < d.number ↔ 1 ≤ d.year := by
  have hv : (⟨1, 1, 1⟩ : YMD).Valid := by decide
  have e : (⟨1, 1, 1⟩ : YMD).number = 1 := by decide
  have := before_iff d ⟨1, 1, 1⟩ h hv
  rw [e] at this
  obtain ⟨h1, h2, h3, h4⟩ := h
  unfold YMD.Before at this
  simp only at this
  constructor
  · intro h; have := mt this.mp (by omega); omega
  · intro h; have := mt this.mpr (by omega); omega

/-- Year and month of a date shifted by `n` months. -/
theorem add_month_eq (d : YMD) (h : d.Valid) (n : Int) :
    (repr d).add ⟨n, .MONTH⟩ = .ok (repr
      ⟨d.year + (d.month - 1 + n) / 12, (d.month - 1 + n) % 12 + 1,
        min d.day (monthLength (d.year + (d.month - 1 + n) / 12) ((d.month - 1 + n) % 12 + 1))⟩) := by
  have hm1 : 1 ≤ (d.month - 1 + n) % 12 + 1 := by omega
  have hm2 : (d.month - 1 + n) % 12 + 1 ≤ 12 := by omega
  unfold DateT.add adjustDay
  simp only [repr]
  rw [numDaysInMonth_eq _ _ hm1 hm2]
  simp only [bind, Except.bind, pure, Except.pure]
  rw [fromYearMonthDay_unchecked]
  rw [number_eq ⟨_, _, _⟩]
  refine ⟨hm1, hm2, ?_, ?_⟩
  · have := monthLength_pos (d.year + (d.month - 1 + n) / 12) ((d.month - 1 + n) % 12 + 1)
    have := h.2.2.1
    simp only; omega
  · simp only; omega

theorem add_month_valid (d : YMD) (h : d.Valid) (n : Int) :
    (⟨d.year + (d.month - 1 + n) / 12, (d.month - 1 + n) % 12 + 1,
        min d.day (monthLength (d.year + (d.month - 1 + n) / 12) ((d.month - 1 + n) % 12 + 1))⟩
        : YMD).Valid := by
  refine ⟨by simp only; omega, by simp only; omega, ?_, by simp only; omega⟩
  have := monthLength_pos (d.year + (d.month - 1 + n) / 12) ((d.month - 1 + n) % 12 + 1)
  have := h.2.2.1
  simp only; omega

theorem add_year_eq (d : YMD) (h : d.Valid) (n : Int) :
    (repr d).add ⟨n, .YEAR⟩ = (repr d).add ⟨12 * n, .MONTH⟩ := by
  have h1 := h.1
  have h2 := h.2.1
  rw [add_month_eq d h]
  unfold DateT.add adjustDay
  simp only [repr]
  rw [numDaysInMonth_eq _ _ h1 h2]
  simp only [bind, Except.bind, pure, Except.pure]
  rw [fromYearMonthDay_unchecked]
  have e1 : (d.month - 1 + 12 * n) / 12 = n := by omega
  have e2 : (d.month - 1 + 12 * n) % 12 + 1 = d.month := by omega
  rw [e1, e2]
  rw [number_eq ⟨_, _, _⟩]
  refine ⟨h1, h2, ?_, ?_⟩
  · have := monthLength_pos (d.year + n) d.month
    have := h.2.2.1
    simp only; omega
  · exact Int.min_le_right _ _

theorem add_day_eq (d : YMD) (n : Int) :
    (repr d).add ⟨n, .DAY⟩ = fromOrdinals (d.number + n) := rfl

theorem add_week_eq (d : YMD) (n : Int) :
    (repr d).add ⟨n, .WEEK⟩ = fromOrdinals (d.number + n * 7) := rfl

end Lemmas
