import Verif.Model.CalendarFactory
import Verif.Props.UnboundedCalendar

/-! # C149 The factory of holiday calendars -/

namespace Spec
open Model

/-- Is the day a business day according to the calendar? -/
def dayIsBusiness : HolidayCal → DateT → Except String Bool
  | .bounded c, t => c.isBusinessDay t
  | .unbounded c, t => .ok (c.isBusinessDay t)

/-- A usable weekend mask: seven entries zero or one, and a working day. -/
def UsableMask (mask : List Nat) : Prop := mask.length = 7 ∧ (∀ m ∈ mask, m = 0 ∨ m = 1) ∧ 0 ∈ mask

end Spec

namespace Props
open Model Spec

/-- Valid dates from the year three on in increasing order. -/
def UsableDates (dates : List DateT) : Prop :=
  (dates.map DateT.ordinal).Pairwise (· < ·) ∧ ∀ t ∈ dates, ∃ d, Represents t d ∧ 3 ≤ d.year

theorem maskOrNone_of_usable {mask : List Nat} (h : UsableMask mask) : maskOrNone (.sequence mask) = .ok mask := by
  unfold maskOrNone
  rcases mask with _ | ⟨m, l⟩
  · have := h.1; simp at this
  · simp

/-- C149: with holidays in a list or an array the calendar is the bounded one, of the years of the holidays whatever
`start_year` and `end_year` are, and it is the same as the unbounded calendar on all days of these years. -/
theorem C149_holidays (mask : List Nat) (hm : UsableMask mask) (dates : List DateT) (hd : UsableDates dates)
    (hne : dates ≠ []) :
    ∃ c s e, (∀ sy ey, createHolidayCalendar (.sequence mask) (.array dates) sy ey = .ok (.bounded c) ∧
        createHolidayCalendar (.sequence mask) (.sequence dates) sy ey = .ok (.bounded c) ∧
        createHolidayCalendar (.sequence mask) (.dateTensor dates) sy ey = .ok (.bounded c)) ∧
      SameCalendar c (UnboundedCal.init (some mask) (some dates)) s e ∧
      (∃ t ∈ dates, t.year = s) ∧ (∃ t ∈ dates, t.year = e) ∧ (∀ t ∈ dates, s ≤ t.year ∧ t.year ≤ e) ∧
      ∀ t, InYears s e t.ordinal →
        dayIsBusiness (.bounded c) t = .ok (decide (IsBusinessDay mask (dates.map DateT.ordinal) t.ordinal)) := by
  obtain ⟨c, s, e, h1, h2, h3, h4, h5, h6, h7⟩ := (C09_bounded_init mask hm.1 hm.2.1).1 dates none none hne
    (hd.1.imp (fun h => (Int.ne_of_lt h))) (fun t ht => by
      obtain ⟨d, hd1, hd2⟩ := hd.2 t ht
      exact ⟨d, hd1, by omega⟩)
  have hyears : ∀ sy ey, BoundedCal.init (some mask) (some dates) sy ey = .ok c := by
    intro sy ey
    rw [← h1]
    obtain ⟨t0, ts, rfl⟩ := List.exists_cons_of_ne_nil hne
    rfl
  have hs3 : 3 ≤ s := by
    obtain ⟨t, ht, hts⟩ := h6
    obtain ⟨d, hd1, hd2⟩ := hd.2 t ht
    rw [← hts, hd1.2.1]
    exact hd2
  have hin : ∀ t ∈ dates, s ≤ t.year ∧ t.year ≤ e := by
    intro t ht
    obtain ⟨d, hd1, _⟩ := hd.2 t ht
    have := h5 t ht
    rw [hd1.2.2.2.2, inYears_iff s e d hd1.1, ← hd1.2.1] at this
    exact this
  have h731 : ∀ t ∈ dates, 8 ≤ t.ordinal := by
    intro t ht
    have h8 := (h5 t ht).1
    have : jan1 3 ≤ jan1 s := by
      by_cases he : s = 3
      · rw [he]; exact Int.le_refl _
      · have := @jan1_lt 3 (s - 1) (by omega)
        rw [show s - 1 + 1 = s by omega] at this
        exact Int.le_of_lt this
    have e3 : jan1 3 = 731 := by decide
    omega
  have hsame : SameCalendar c (UnboundedCal.init (some mask) (some dates)) s e := by
    refine ⟨h2, ?_, ?_, hs3⟩
    · rw [h3, h4]
      refine ⟨hm.1, hm.2.2, hd.1, ?_, Or.inl ⟨dates, rfl, rfl⟩⟩
      intro x hx
      obtain ⟨t, ht, rfl⟩ := List.mem_map.1 hx
      exact h731 t ht
    · rw [h4]
      intro x hx
      obtain ⟨t, ht, rfl⟩ := List.mem_map.1 hx
      exact h5 t ht
  refine ⟨c, s, e, ?_, hsame, h6, h7, hin, ?_⟩
  · intro sy ey
    have hl : (decide (dates.length > 0)) = true := by
      rcases dates with _ | _
      · exact absurd rfl hne
      · simp
    have hl2 : (!dates.isEmpty) = true := by
      rcases dates with _ | _
      · exact absurd rfl hne
      · rfl
    unfold createHolidayCalendar
    simp only [tensorIsNotEmpty, hl, hl2, Except.bind, Bool.true_or, maskOrNone_of_usable hm, HolidaysArg.dates, hyears, Except.map]
    exact ⟨trivial, trivial, trivial⟩
  · intro t ht
    have h9 := (C09_bounded_is_business_day h2 t).1 ht
    rw [h3, h4] at h9
    exact h9

/-- C149: without holidays. Both years give the bounded calendar of these years, otherwise the calendar is unbounded; they
agree on the days of these years. -/
theorem C149_weekends (mask : List Nat) (hm : UsableMask mask) :
    (∀ s e : Int, 3 ≤ s → s ≤ e → ∃ c, createHolidayCalendar (.sequence mask) .missing (some s) (some e) = .ok (.bounded c) ∧
      SameCalendar c (UnboundedCal.init (some mask) none) s e ∧
      ∀ t, InYears s e t.ordinal → dayIsBusiness (.bounded c) t = .ok (decide (IsBusinessDay mask [] t.ordinal))) ∧
    (∀ sy ey : Option Int, sy = none ∨ ey = none → ∃ u, createHolidayCalendar (.sequence mask) .missing sy ey = .ok (.unbounded u) ∧
      createHolidayCalendar (.tensor mask) .missing sy ey = .ok (.unbounded u) ∧
      ∀ t : DateT, 8 ≤ t.ordinal → dayIsBusiness (.unbounded u) t = .ok (decide (IsBusinessDay mask [] t.ordinal))) := by
  have hU : UCalendarFor (UnboundedCal.init (some mask) none) mask [] :=
    ⟨hm.1, hm.2.2, List.Pairwise.nil, by simp, Or.inr (Or.inl ⟨rfl, rfl⟩)⟩
  constructor
  · intro s e hs he
    obtain ⟨c, h1, h2, h3, h4⟩ := (C09_bounded_init mask hm.1 hm.2.1).2.1 s e (by omega) he
    refine ⟨c, ?_, ⟨h2, by rw [h3, h4]; exact hU, by rw [h4]; simp, hs⟩, ?_⟩
    · unfold createHolidayCalendar
      simp only [tensorIsNotEmpty, Except.bind, Option.isSome_some, Bool.and_self, Bool.or_true, maskOrNone_of_usable hm, HolidaysArg.dates, h1, Except.map]
    · intro t ht
      have h9 := (C09_bounded_is_business_day h2 t).1 ht
      rw [h3, h4] at h9
      exact h9
  · intro sy ey h
    refine ⟨UnboundedCal.init (some mask) none, ?_, ?_, ?_⟩
    · rcases h with rfl | rfl
      · rfl
      · rcases sy with _ | _ <;> rfl
    · rcases h with rfl | rfl
      · rfl
      · rcases sy with _ | _ <;> rfl
    · intro t ht
      exact congrArg Except.ok (C09_unbounded_is_business_day hU t ht)

/-- C149 (deviation): holidays as a tensor raise an error in any case. -/
theorem C149_tensor_deviates (mask : MaskArg) (dates : List DateT) (sy ey : Option Int) :
    ∃ msg, createHolidayCalendar mask (.tensor dates) sy ey = .error msg := ⟨_, rfl⟩

/-- C149 (deviation): the mask is documented to be a tensor, but a tensor raises an error whenever the calendar is bounded. -/
theorem C149_mask_tensor_deviates (mask : List Nat) (dates : List DateT) (hne : dates ≠ []) (sy ey : Option Int) (s e : Int) :
    (∃ msg, createHolidayCalendar (.tensor mask) (.array dates) sy ey = .error msg) ∧
    (∃ msg, createHolidayCalendar (.tensor mask) .missing (some s) (some e) = .error msg) := by
  obtain ⟨t0, ts, rfl⟩ := List.exists_cons_of_ne_nil hne
  exact ⟨⟨_, rfl⟩, ⟨_, rfl⟩⟩

/-- C149 (deviation): no holidays in a `DateTensor` raise an error unless both years are given, while an empty array gives an
unbounded calendar. -/
theorem C149_empty_deviates (mask : List Nat) :
    (∃ msg, createHolidayCalendar (.sequence mask) (.dateTensor []) none none = .error msg) ∧
    (∃ u, createHolidayCalendar (.sequence mask) (.array []) none none = .ok (.unbounded u)) := by
  refine ⟨⟨_, rfl⟩, ⟨_, rfl⟩⟩

/-- C149 (deviation): without a mask an empty array of holidays makes every day a holiday, but together with both years, or if
missing, every day of the years is a business day. -/
theorem C149_no_mask_deviates :
    (∃ c, createHolidayCalendar .missing (.array []) none none = .ok c ∧ ∀ t, dayIsBusiness c t = .ok false) ∧
    (∃ c, createHolidayCalendar .missing .missing none none = .ok c ∧ ∀ t, dayIsBusiness c t = .ok true) ∧
    ∀ s e : Int, 1 ≤ s → s ≤ e → ∃ c, createHolidayCalendar .missing (.array []) (some s) (some e) = .ok c ∧
      ∀ t, InYears s e t.ordinal → dayIsBusiness c t = .ok true := by
  refine ⟨⟨_, rfl, fun t => rfl⟩, ⟨_, rfl, fun t => rfl⟩, ?_⟩
  intro s e h1 h2
  have hi := init_of_years weekendMaskNone (some []) (some s) (some e) s e rfl h1 h2
  have hbits : ∀ m ∈ weekendMaskNone, m = 0 ∨ m = 1 := by decide
  have hfor : CalendarFor { mask := weekendMaskNone, holidays := [], offset := jan1 s, size := jan1 (e + 1) - jan1 s } s e :=
    ⟨rfl, hbits, List.nodup_nil, rfl, by simp only; omega, h1, h2⟩
  refine ⟨.bounded { mask := weekendMaskNone, holidays := [], offset := jan1 s, size := jan1 (e + 1) - jan1 s }, ?_, ?_⟩
  · unfold createHolidayCalendar
    simp only [tensorIsNotEmpty, Except.bind, Option.isSome_some, Bool.and_self, Bool.or_true, maskOrNone, HolidaysArg.dates]
    rw [hi]
    rfl
  · intro t ht
    have h9 := (C09_bounded_is_business_day hfor t).1 ht
    refine h9.trans ?_
    congr 1
    rw [decide_eq_true_eq]
    have hk : ∀ j < 7, weekendMaskNone[j]? = some 0 := by decide
    exact ⟨hk _ (Lemmas.weekday_lt t.ordinal), by simp⟩

/-- The calendar of 2020 and 2021 from its three holidays. -/
example : createHolidayCalendar (.sequence [0, 0, 0, 0, 0, 1, 1])
    (.array [⟨737425, 2020, 1, 1⟩, ⟨737784, 2020, 12, 25⟩, ⟨737791, 2021, 1, 1⟩]) (some 1990) none = .ok (.bounded cal2020) := rfl

end Props
