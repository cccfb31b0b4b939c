import Verif.Lemmas.BoundedRoll
import Verif.Props.Dates

/-!
# Property theorems C09, C10, C12, C13 for the table based (bounded) calendar
-/

namespace Props
open Model Spec

/-- 1 January of a year, as a day number. -/
def jan1 (y : Int) : Int := (⟨y, 1, 1⟩ : YMD).number

/-- `c` is the state of a calendar covering the years `s..e`, built from a weekend mask of seven
0/1 entries and distinct holidays. Theorem `C09_bounded_init` shows that the constructor
establishes it. -/
structure CalendarFor (c : BoundedCal) (s e : Int) : Prop where
  mask_length : c.mask.length = 7
  mask_bits : ∀ m ∈ c.mask, m = 0 ∨ m = 1
  holidays_nodup : c.holidays.Nodup
  first : c.offset = jan1 s
  last : c.offset + c.size = jan1 (e + 1)
  years : 1 ≤ s ∧ s ≤ e

/-- The days of the years `s..e`. -/
def InYears (s e o : Int) : Prop := jan1 s ≤ o ∧ o < jan1 (e + 1)

/-- Business days of the calendar: in the years `s..e`, not on a masked weekday, not a holiday. -/
def BusinessDay (c : BoundedCal) (s e o : Int) : Prop :=
  InYears s e o ∧ IsBusinessDay c.mask c.holidays o

theorem jan1_valid (y : Int) : (⟨y, 1, 1⟩ : YMD).Valid := by
  refine ⟨Int.le_refl 1, by simp only; omega, Int.le_refl 1, ?_⟩
  have := (Lemmas.monthLength_pos y 1).1; simp only; omega

theorem inYears_iff (s e : Int) (d : YMD) (h : d.Valid) :
    InYears s e d.number ↔ s ≤ d.year ∧ d.year ≤ e := by
  unfold InYears jan1
  have h1 := Lemmas.before_iff d ⟨s, 1, 1⟩ h (jan1_valid s)
  have h2 := Lemmas.before_iff d ⟨e + 1, 1, 1⟩ h (jan1_valid (e + 1))
  unfold YMD.Before at h1 h2
  simp only at h1 h2
  have := h.1; have := h.2.2.1
  constructor
  · rintro ⟨a, b⟩
    have a' := mt h1.1 (by omega)
    have b' := h2.2 b
    omega
  · rintro ⟨a, b⟩
    have a' := mt h1.2 (by omega)
    exact ⟨by omega, h2.1 (by omega)⟩

theorem jan1_lt {s e : Int} (h : s ≤ e) : jan1 s < jan1 (e + 1) := by
  have := (Lemmas.before_iff ⟨s, 1, 1⟩ ⟨e + 1, 1, 1⟩ (jan1_valid s) (jan1_valid (e + 1))).1
    (Or.inl (by simp only; omega))
  exact this

section
variable {c : BoundedCal} {s e : Int}

theorem CalendarFor.ok (h : CalendarFor c s e) : Lemmas.CalOK c :=
  ⟨h.mask_length, h.mask_bits, h.holidays_nodup, by
    have := jan1_lt h.years.2
    have := h.first; have := h.last; omega⟩

theorem CalendarFor.inb (h : CalendarFor c s e) (o : Int) : Lemmas.inb c o ↔ InYears s e o := by
  unfold Lemmas.inb InYears; rw [h.last, h.first]

theorem CalendarFor.bb (h : CalendarFor c s e) : Lemmas.calBB c = BusinessDay c s e := by
  funext o
  exact propext (and_congr (h.inb o) Iff.rfl)

theorem represents_dateOf (t : DateT) (r : Int) :
    t = Lemmas.repr (Lemmas.dateOf r) ↔ ∃ d, Represents t d ∧ d.number = r := by
  constructor
  · intro h
    exact ⟨Lemmas.dateOf r, (represents_iff _ _).2 ⟨Lemmas.dateOf_valid r, h⟩, Lemmas.dateOf_number r⟩
  · rintro ⟨d, hd, rfl⟩
    obtain ⟨hv, e⟩ := (represents_iff _ _).1 hd
    rw [Lemmas.dateOf_of_number d hv, e]

theorem roll_form (t' : DateT) (P : Int → Prop) :
    (∃ r, P r ∧ t' = Lemmas.repr (Lemmas.dateOf r)) ↔ ∃ d, Represents t' d ∧ P d.number := by
  constructor
  · rintro ⟨r, hp, h⟩
    obtain ⟨d, hd, e⟩ := (represents_dateOf t' r).1 h
    exact ⟨d, hd, by rwa [e]⟩
  · rintro ⟨d, hd, hp⟩
    exact ⟨d.number, hp, (represents_dateOf t' _).2 ⟨d, hd, rfl⟩⟩
end

/-! ## C09 -/

/-- C09: on a date of the calendar's years, `is_business_day` is true exactly when the weekday is
not masked and the date is not a holiday; outside the years the call fails. -/
theorem C09_bounded_is_business_day {c : BoundedCal} {s e : Int} (h : CalendarFor c s e) (t : DateT) :
    (InYears s e t.ordinal →
      c.isBusinessDay t = .ok (decide (IsBusinessDay c.mask c.holidays t.ordinal))) ∧
    (¬ InYears s e t.ordinal → ∃ msg, c.isBusinessDay t = .error msg) := by
  constructor
  · intro hi; exact Lemmas.isBusinessDay_in h.ok t ((h.inb _).2 hi)
  · intro hi; exact Lemmas.isBusinessDay_out t (fun hh => hi ((h.inb _).1 hh))

theorem foldl_min (l : List Int) (a : Int) :
    l.foldl min a ≤ a ∧ (∀ x ∈ l, l.foldl min a ≤ x) ∧ (l.foldl min a = a ∨ l.foldl min a ∈ l) := by
  induction l generalizing a with
  | nil => exact ⟨Int.le_refl a, by simp, Or.inl rfl⟩
  | cons b t ih =>
    obtain ⟨h1, h2, h3⟩ := ih (min a b)
    rw [List.foldl_cons]
    refine ⟨Int.le_trans h1 (Int.min_le_left _ _), ?_, ?_⟩
    · intro x hx
      rcases List.mem_cons.1 hx with rfl | hx
      · exact Int.le_trans h1 (Int.min_le_right _ _)
      · exact h2 x hx
    · rcases h3 with h3 | h3
      · rw [h3]
        rcases Int.le_total a b with hab | hab
        · left; omega
        · right; rw [List.mem_cons]; left; omega
      · right; exact List.mem_cons_of_mem _ h3

theorem foldl_max (l : List Int) (a : Int) :
    a ≤ l.foldl max a ∧ (∀ x ∈ l, x ≤ l.foldl max a) ∧ (l.foldl max a = a ∨ l.foldl max a ∈ l) := by
  induction l generalizing a with
  | nil => exact ⟨Int.le_refl a, by simp, Or.inl rfl⟩
  | cons b t ih =>
    obtain ⟨h1, h2, h3⟩ := ih (max a b)
    rw [List.foldl_cons]
    refine ⟨Int.le_trans (Int.le_max_left _ _) h1, ?_, ?_⟩
    · intro x hx
      rcases List.mem_cons.1 hx with rfl | hx
      · exact Int.le_trans (Int.le_max_right _ _) h1
      · exact h2 x hx
    · rcases h3 with h3 | h3
      · rw [h3]
        rcases Int.le_total a b with hab | hab
        · right; rw [List.mem_cons]; left; omega
        · left; omega
      · right; exact List.mem_cons_of_mem _ h3

theorem init_of_years (mask : List Nat) (hols : Option (List DateT)) (sy ey : Option Int) (s e : Int)
    (hr : resolveCalendarBoundaries hols sy ey = .ok (s, e)) (h1 : 1 ≤ s) (h2 : s ≤ e) :
    BoundedCal.init (some mask) hols sy ey =
      .ok { mask := mask, holidays := (hols.getD []).map DateT.ordinal, offset := jan1 s,
            size := jan1 (e + 1) - jan1 s } := by
  unfold BoundedCal.init
  simp only [hr, Lemmas.bind_ok]
  rw [Lemmas.fromYearMonthDay_ok s 1 1 (by omega) (jan1_valid s), Lemmas.bind_ok,
    Lemmas.fromYearMonthDay_ok (e + 1) 1 1 (by omega) (jan1_valid (e + 1)), Lemmas.bind_ok]
  rfl

/-- C09: the constructor.  With a non-empty list of distinct valid holidays (of years ≥ 1) the
calendar covers exactly the years from the earliest to the latest holiday, whatever `start_year`
and `end_year` are; without holidays it covers `start_year..end_year`, both being required. -/
theorem C09_bounded_init (mask : List Nat) (hm : mask.length = 7) (hb : ∀ m ∈ mask, m = 0 ∨ m = 1) :
    (∀ (hols : List DateT) (sy ey : Option Int), hols ≠ [] → (hols.map DateT.ordinal).Nodup →
      (∀ t ∈ hols, ∃ d, Represents t d ∧ 1 ≤ d.year) →
      ∃ c s e, BoundedCal.init (some mask) (some hols) sy ey = .ok c ∧ CalendarFor c s e ∧
        c.mask = mask ∧ c.holidays = hols.map DateT.ordinal ∧
        (∀ t ∈ hols, InYears s e t.ordinal) ∧
        (∃ t ∈ hols, t.year = s) ∧ (∃ t ∈ hols, t.year = e)) ∧
    (∀ s e : Int, 1 ≤ s → s ≤ e →
      ∃ c, BoundedCal.init (some mask) none (some s) (some e) = .ok c ∧ CalendarFor c s e ∧
        c.mask = mask ∧ c.holidays = []) ∧
    (∀ (sy ey : Option Int), sy = none ∨ ey = none →
      ∃ msg, BoundedCal.init (some mask) none sy ey = .error msg) := by
  refine ⟨?_, ?_, ?_⟩
  · intro hols sy ey hne hnd hv
    obtain ⟨t0, ts, rfl⟩ := List.exists_cons_of_ne_nil hne
    have hmin := foldl_min (ts.map DateT.year) t0.year
    have hmax := foldl_max (ts.map DateT.year) t0.year
    generalize hs : (ts.map DateT.year).foldl min t0.year = s at hmin
    generalize he : (ts.map DateT.year).foldl max t0.year = e at hmax
    have hr : resolveCalendarBoundaries (some (t0 :: ts)) sy ey = .ok (s, e) := by
      simp only [resolveCalendarBoundaries, List.map_cons, listMin, listMax, hs, he]
    have hs' : ∃ t ∈ t0 :: ts, t.year = s := by
      rcases hmin.2.2 with h | h
      · exact ⟨t0, by simp, h.symm⟩
      · obtain ⟨t, ht, hh⟩ := List.mem_map.1 h
        exact ⟨t, List.mem_cons_of_mem _ ht, hh⟩
    have he' : ∃ t ∈ t0 :: ts, t.year = e := by
      rcases hmax.2.2 with h | h
      · exact ⟨t0, by simp, h.symm⟩
      · obtain ⟨t, ht, hh⟩ := List.mem_map.1 h
        exact ⟨t, List.mem_cons_of_mem _ ht, hh⟩
    have h1 : 1 ≤ s := by
      obtain ⟨t, ht, hts⟩ := hs'
      obtain ⟨d, hd, hdy⟩ := hv t ht
      rw [← hts, hd.2.1]; exact hdy
    have h2 : s ≤ e := Int.le_trans hmin.1 hmax.1
    refine ⟨_, s, e, init_of_years mask _ sy ey s e hr h1 h2, ⟨hm, hb, hnd, rfl, ?_, h1, h2⟩, rfl, rfl,
      ?_, hs', he'⟩
    · simp only; omega
    · intro t ht
      obtain ⟨d, hd, _⟩ := hv t ht
      rw [hd.2.2.2.2, inYears_iff s e d hd.1, ← hd.2.1]
      rcases List.mem_cons.1 ht with rfl | ht'
      · exact ⟨hmin.1, hmax.1⟩
      · exact ⟨hmin.2.1 _ (List.mem_map_of_mem ht'), hmax.2.1 _ (List.mem_map_of_mem ht')⟩
  · intro s e h1 h2
    refine ⟨_, init_of_years mask none (some s) (some e) s e rfl h1 h2,
      ⟨hm, hb, List.nodup_nil, rfl, ?_, h1, h2⟩, rfl, rfl⟩
    simp only; omega
  · intro sy ey h
    rcases h with rfl | rfl
    · exact ⟨_, rfl⟩
    · cases sy <;> exact ⟨_, rfl⟩

/-- A concrete calendar: Saturday/Sunday weekends, 2020..2021, with 2020-01-01, 2020-12-25 and
2021-01-01 as holidays. -/
def cal2020 : BoundedCal :=
  { mask := [0, 0, 0, 0, 0, 1, 1], holidays := [737425, 737784, 737791], offset := 737425, size := 731 }

theorem cal2020_for : CalendarFor cal2020 2020 2021 := by
  refine ⟨rfl, ?_, ?_, ?_, ?_, ?_⟩ <;> decide

example : BoundedCal.init (some [0, 0, 0, 0, 0, 1, 1])
    (some [⟨737425, 2020, 1, 1⟩, ⟨737784, 2020, 12, 25⟩, ⟨737791, 2021, 1, 1⟩]) none none
    = .ok cal2020 := rfl

example : InYears 2020 2021 737784 ∧ ¬ IsBusinessDay cal2020.mask cal2020.holidays 737784 ∧
    IsBusinessDay cal2020.mask cal2020.holidays 737783 := by
  refine ⟨⟨by decide, by decide⟩, by decide, by decide⟩

/-! ## C10 -/

/-- C10: FOLLOWING returns the first business day on or after the date, and fails exactly when the
date is outside the calendar or there is no such day within the calendar. -/
theorem C10_bounded_following {c : BoundedCal} {s e : Int} (h : CalendarFor c s e) (t t' : DateT) :
    c.roll t .FOLLOWING = .ok t' ↔ InYears s e t.ordinal ∧
      ∃ d, Represents t' d ∧ FirstOnOrAfter (BusinessDay c s e) t.ordinal d.number := by
  rw [Lemmas.roll_following h.ok, h.inb, h.bb,
    roll_form t' (FirstOnOrAfter (BusinessDay c s e) t.ordinal)]

/-- C10: PRECEDING returns the last business day on or before the date. -/
theorem C10_bounded_preceding {c : BoundedCal} {s e : Int} (h : CalendarFor c s e) (t t' : DateT) :
    c.roll t .PRECEDING = .ok t' ↔ InYears s e t.ordinal ∧
      ∃ d, Represents t' d ∧ LastOnOrBefore (BusinessDay c s e) t.ordinal d.number := by
  rw [Lemmas.roll_preceding h.ok, h.inb, h.bb,
    roll_form t' (LastOnOrBefore (BusinessDay c s e) t.ordinal)]

/-- Every 300 consecutive days of the calendar contain a business day. -/
def NoLongGap (c : BoundedCal) (s e : Int) : Prop :=
  ∀ a, jan1 s ≤ a → a + 300 ≤ jan1 (e + 1) →
    ∃ x, a ≤ x ∧ x < a + 300 ∧ IsBusinessDay c.mask c.holidays x

theorem cal2020_noLongGap : NoLongGap cal2020 2020 2021 := by
  intro a _ _
  have hB : ∀ x, (x - 1) % 7 < 4 → x ∉ cal2020.holidays →
      IsBusinessDay cal2020.mask cal2020.holidays x := by
    intro x hx hh
    refine ⟨?_, hh⟩
    have : weekday x = 0 ∨ weekday x = 1 ∨ weekday x = 2 ∨ weekday x = 3 := by
      unfold weekday; omega
    rcases this with h | h | h | h <;> rw [h] <;> rfl
  have hh : ∀ x, x ∉ cal2020.holidays ↔ x ≠ 737425 ∧ x ≠ 737784 ∧ x ≠ 737791 := by
    intro x; simp [cal2020]
  have hm : ∃ m, a ≤ m ∧ m ≤ a + 6 ∧ (m - 1) % 7 = 0 := ⟨a + (-(a - 1)) % 7, by omega, by omega, by omega⟩
  obtain ⟨m, h1, h2, h3⟩ := hm
  have : ∃ k : Int, 0 ≤ k ∧ k ≤ 3 ∧ m + k ≠ 737425 ∧ m + k ≠ 737784 ∧ m + k ≠ 737791 := by
    by_contra hne
    have h0 : ¬ _ := fun h => hne ⟨0, h⟩
    have h1 : ¬ _ := fun h => hne ⟨1, h⟩
    omega
  obtain ⟨k, k1, k2, k3⟩ := this
  exact ⟨m + k, by omega, by omega, hB _ (by omega) ((hh _).2 k3)⟩

/-- C10: MODIFIED_FOLLOWING: first business day on or after the date unless that leaves the month,
in which case the last business day on or before.

Partial: the full statement has no hypotheses `hs` (see `C10_bounded_modified_year_one_fails`) and
`hg` (see `C10_bounded_long_gap_leaves_month`); it is false of the code without them. -/
theorem C10_bounded_modified_following_partial {c : BoundedCal} {s e : Int} (h : CalendarFor c s e)
    (hs : 2 ≤ s) (hg : NoLongGap c s e) (t t' : DateT) :
    c.roll t .MODIFIED_FOLLOWING = .ok t' ↔ InYears s e t.ordinal ∧
      ∃ d, Represents t' d ∧ ModifiedFollowing (BusinessDay c s e) t.ordinal d.number := by
  rw [Lemmas.roll_modFollowing h.ok ?_ ?_ h.last, h.inb, h.bb,
    roll_form t' (ModifiedFollowing (BusinessDay c s e) t.ordinal)]
  · rw [h.first]
    have := @jan1_lt 1 (s - 1) (by omega)
    rw [show s - 1 + 1 = s by omega] at this
    exact this
  · intro a h1 h2
    rw [h.first] at h1
    rw [h.last] at h2
    exact hg a h1 h2

/-- C10: MODIFIED_PRECEDING, mirrored (partial for the same reasons). -/
theorem C10_bounded_modified_preceding_partial {c : BoundedCal} {s e : Int} (h : CalendarFor c s e)
    (hs : 2 ≤ s) (hg : NoLongGap c s e) (t t' : DateT) :
    c.roll t .MODIFIED_PRECEDING = .ok t' ↔ InYears s e t.ordinal ∧
      ∃ d, Represents t' d ∧ ModifiedPreceding (BusinessDay c s e) t.ordinal d.number := by
  rw [Lemmas.roll_modPreceding h.ok ?_ ?_ h.first, h.inb, h.bb,
    roll_form t' (ModifiedPreceding (BusinessDay c s e) t.ordinal)]
  · rw [h.first]
    have := @jan1_lt 1 (s - 1) (by omega)
    rw [show s - 1 + 1 = s by omega] at this
    exact this
  · intro a h1 h2
    rw [h.first] at h1
    rw [h.last] at h2
    exact hg a h1 h2

/-- C10: NONE leaves the date alone; a business day is a fixed point of every convention
(for calendars that do not start in year 1). -/
theorem C10_bounded_fixed {c : BoundedCal} {s e : Int} (h : CalendarFor c s e) (hs : 2 ≤ s)
    (t : DateT) (d : YMD) (ht : Represents t d) :
    c.roll t .NONE = .ok t ∧
    (BusinessDay c s e d.number → ∀ conv, c.roll t conv = .ok t) := by
  refine ⟨rfl, fun hB conv => ?_⟩
  have e1 : t.ordinal = d.number := ht.2.2.2.2
  have hi : Lemmas.inb c t.ordinal := by rw [h.inb, e1]; exact hB.1
  have h1 : c.offset - 1 ≤ t.ordinal := by have := hi.1; omega
  have h2 : t.ordinal ≤ c.offset + c.size := by have := hi.2; omega
  have hE : Lemmas.calE c t.ordinal := by
    rw [Lemmas.calE_of_inb hi, h.bb, e1]; exact hB
  have hF : FirstOnOrAfter (Lemmas.calE c) t.ordinal t.ordinal :=
    ⟨Int.le_refl _, hE, fun x h1 h2 => by omega⟩
  have hL : LastOnOrBefore (Lemmas.calE c) t.ordinal t.ordinal :=
    ⟨Int.le_refl _, hE, fun x h1 h2 => by omega⟩
  have h0 : 1 < c.offset := by
    rw [h.first]
    have := @jan1_lt 1 (s - 1) (by omega)
    rw [show s - 1 + 1 = s by omega] at this
    exact this
  have htr : t = Lemmas.repr (Lemmas.dateOf t.ordinal) :=
    (represents_dateOf t _).2 ⟨d, ht, e1.symm⟩
  by_cases hc : conv = .NONE
  · subst hc; rfl
  rw [Lemmas.roll_ok_iff _ _ _ _ hc]
  refine ⟨h1, h2, t.ordinal, ?_, hi, htr⟩
  cases conv
  · exact absurd rfl hc
  · exact (Lemmas.following_iff h.ok h1 h2 _).2 hF
  · rw [Lemmas.modFollowing_entry h.ok h0 h1 h2 hF hL, if_pos rfl]
  · exact (Lemmas.preceding_iff h.ok h1 h2 _).2 hL
  · rw [Lemmas.modPreceding_entry h.ok h0 h1 h2 hF hL, if_pos rfl]

/-- C10 (deviation found in the code): for a calendar starting in year 1 the MODIFIED conventions
fail on every date, because building the tables converts the ordinal 0 with validation. -/
theorem C10_bounded_modified_year_one_fails {c : BoundedCal} {e : Int} (h : CalendarFor c 1 e)
    (t : DateT) :
    (∃ msg, c.roll t .MODIFIED_FOLLOWING = .error msg) ∧
    (∃ msg, c.roll t .MODIFIED_PRECEDING = .error msg) := by
  have h0 : c.offset = 1 := by rw [h.first]; rfl
  have hz := Lemmas.fromOrdinals_nonpos (c.offset - 1) (by omega) _ rfl
  constructor
  all_goals
    apply Lemmas.error_of_not_ok
    intro a ha
    rw [Lemmas.roll_ok_iff _ _ _ _ (by decide)] at ha
    obtain ⟨_, _, r, hr, _⟩ := ha
    unfold BoundedCal.rolledEntry at hr
    simp only at hr
    rw [hz, Lemmas.bind_error] at hr
    cases hr

/-- Christmas 2020 (a Friday) rolls to Monday 28 December or Thursday 24 December;
Saturday 31 October 2020 rolls back with MODIFIED_FOLLOWING. -/
example :
    (cal2020.roll ⟨737784, 2020, 12, 25⟩ .FOLLOWING).toOption = some ⟨737787, 2020, 12, 28⟩ ∧
    (cal2020.roll ⟨737784, 2020, 12, 25⟩ .PRECEDING).toOption = some ⟨737783, 2020, 12, 24⟩ ∧
    (cal2020.roll ⟨737729, 2020, 10, 31⟩ .MODIFIED_FOLLOWING).toOption = some ⟨737728, 2020, 10, 30⟩ ∧
    (cal2020.roll ⟨737425, 2020, 1, 1⟩ .PRECEDING).toOption = none ∧
    (cal2020.roll ⟨737425, 2020, 1, 1⟩ .MODIFIED_PRECEDING).toOption = some ⟨737426, 2020, 1, 2⟩ := by
  decide +kernel

/-- A calendar in which every day from 2020-02-01 to 2021-01-31 is a holiday. -/
def calLongGap : BoundedCal :=
  { mask := weekendMaskNone, holidays := (List.range 366).map (fun (k : Nat) => 737456 + (k : Int)),
    offset := 737425, size := 731 }

/-- C10 (deviation found in the code): without the `NoLongGap` hypothesis MODIFIED_FOLLOWING may
leave the month: only month *numbers* are compared, so 2020-02-10 rolls to 2021-02-01. -/
theorem C10_bounded_long_gap_leaves_month :
    (calLongGap.roll ⟨737465, 2020, 2, 10⟩ .MODIFIED_FOLLOWING).toOption =
      some ⟨737822, 2021, 2, 1⟩ ∧ ¬ SameMonth 737822 737465 := by
  refine ⟨by decide +kernel, ?_⟩
  rw [Lemmas.sameMonth_iff]
  decide +kernel

/-- C09/C13 (deviation found in the code): a holiday listed twice is counted as a business day,
because `scatter_nd` adds the two entries up; the table then holds `1 - 2 = -1`. -/
theorem C09_bounded_repeated_holiday_is_business_day :
    let c : BoundedCal := { cal2020 with holidays := [737586, 737586] }
    (c.isBusinessDay ⟨737586, 2020, 6, 10⟩).toOption = some true ∧
    ¬ IsBusinessDay c.mask c.holidays 737586 ∧
    (c.businessDaysBetween ⟨737584, 2020, 6, 8⟩ ⟨737588, 2020, 6, 12⟩).toOption = some 2 ∧
    countIn (IsBusinessDay c.mask c.holidays) 737584 737588 = 3 := by
  decide +kernel

/-! ## C12 -/

/-- The first step of `add_business_days`: the start date is used as is (convention NONE, and must
be a business day) or rolled. -/
def StartDay (c : BoundedCal) (t : DateT) (conv : BusinessDayConvention) (d : Int) : Prop :=
  IsBusinessDay c.mask c.holidays d ∧
    if conv = .NONE then t.ordinal = d else ∃ u, c.roll t conv = .ok u ∧ u.ordinal = d

theorem addBusinessDays_iff {c : BoundedCal} {s e : Int} (h : CalendarFor c s e) (t : DateT)
    (n : Int) (conv : BusinessDayConvention) (hconv : conv = .NONE ∨ ∀ u, c.roll t conv = .ok u →
      BusinessDay c s e u.ordinal) (t' : DateT) :
    c.addBusinessDays t n conv = .ok t' ↔
      ∃ d, InYears s e d ∧ StartDay c t conv d ∧
        ∃ f, Represents t' f ∧ InYears s e f.number ∧
          BusinessDaysAfter (IsBusinessDay c.mask c.holidays) d n f.number := by
  unfold BoundedCal.addBusinessDays
  rw [Lemmas.bind_ok_iff]
  have core : ∀ d, InYears s e d → IsBusinessDay c.mask c.holidays d →
      ((∃ r, Lemmas.inb c r ∧ Lemmas.calB c r ∧ (Lemmas.calR c r : Int) = Lemmas.calR c d + n ∧
          t' = Lemmas.repr (Lemmas.dateOf r)) ↔
        ∃ f, Represents t' f ∧ InYears s e f.number ∧
          BusinessDaysAfter (IsBusinessDay c.mask c.holidays) d n f.number) := by
    intro d hd hB
    constructor
    · rintro ⟨r, h1, h2, h3, h4⟩
      obtain ⟨f, hf, rfl⟩ := (represents_dateOf t' r).1 h4
      exact ⟨f, hf, (h.inb _).1 h1,
        (Lemmas.businessDaysAfter_iff h.ok ((h.inb _).2 hd) hB h1 h2).2 h3⟩
    · rintro ⟨f, hf, h1, h2⟩
      refine ⟨f.number, (h.inb _).2 h1, h2.1,
        (Lemmas.businessDaysAfter_iff h.ok ((h.inb _).2 hd) hB ((h.inb _).2 h1) h2.1).1 h2,
        (represents_dateOf t' _).2 ⟨f, hf, rfl⟩⟩
  by_cases hn : conv = .NONE
  · subst hn
    simp only [if_true, StartDay]
    constructor
    · rintro ⟨u, hu, hh⟩
      rw [Lemmas.bind_ok_iff] at hu
      obtain ⟨b, hb, hu⟩ := hu
      have hi : InYears s e t.ordinal := by
        by_contra hi
        obtain ⟨m, hm⟩ := (C09_bounded_is_business_day h t).2 hi
        rw [hm] at hb; cases hb
      rw [(C09_bounded_is_business_day h t).1 hi] at hb
      cases hb
      by_cases hB : IsBusinessDay c.mask c.holidays t.ordinal
      · rw [if_pos (by simpa using hB)] at hu
        cases hu
        rw [Lemmas.addBusinessDays_core h.ok ((h.inb _).2 hi)] at hh
        exact ⟨t.ordinal, hi, ⟨hB, rfl⟩, (core _ hi hB).1 hh⟩
      · rw [if_neg (by simpa using hB)] at hu; cases hu
    · rintro ⟨d, hi, ⟨hB, rfl⟩, hf⟩
      refine ⟨t, ?_, ?_⟩
      · rw [(C09_bounded_is_business_day h t).1 hi, Lemmas.bind_ok, if_pos (by simpa using hB)]
      · rw [Lemmas.addBusinessDays_core h.ok ((h.inb _).2 hi)]
        exact (core _ hi hB).2 hf
  · simp only [hn, if_false, StartDay]
    have hroll := hconv.resolve_left hn
    constructor
    · rintro ⟨u, hu, hh⟩
      obtain ⟨hi, hB⟩ := hroll u hu
      rw [Lemmas.addBusinessDays_core h.ok ((h.inb _).2 hi)] at hh
      exact ⟨u.ordinal, hi, ⟨hB, u, hu, rfl⟩, (core _ hi hB).1 hh⟩
    · rintro ⟨d, hi, ⟨hB, u, hu, rfl⟩, hf⟩
      refine ⟨u, hu, ?_⟩
      rw [Lemmas.addBusinessDays_core h.ok ((h.inb _).2 hi)]
      exact (core _ hi hB).2 hf

theorem ModifiedFollowing.mem {B : Int → Prop} {d r : Int} (h : ModifiedFollowing B d r) : B r := by
  rcases h with ⟨h, _⟩ | ⟨_, h⟩
  · exact h.2.1
  · exact h.2.1

theorem ModifiedPreceding.mem {B : Int → Prop} {d r : Int} (h : ModifiedPreceding B d r) : B r := by
  rcases h with ⟨h, _⟩ | ⟨_, h⟩
  · exact h.2.1
  · exact h.2.1

/-- C10/C12: with any convention other than NONE the rolled date is a business day of the calendar. -/
theorem C10_bounded_roll_is_business_day {c : BoundedCal} {s e : Int} (h : CalendarFor c s e)
    (t u : DateT) (conv : BusinessDayConvention)
    (hc : conv ≠ .NONE) (hu : c.roll t conv = .ok u) : BusinessDay c s e u.ordinal := by
  have hu' := hu
  rw [Lemmas.roll_ok_iff _ _ _ _ hc] at hu'
  obtain ⟨h1, h2, r, hr, hi, rfl⟩ := hu'
  have hord : (Lemmas.repr (Lemmas.dateOf r)).ordinal = r := Lemmas.dateOf_number r
  obtain ⟨f, hf⟩ := Lemmas.following_exists h.ok h2
  obtain ⟨p, hp⟩ := Lemmas.preceding_exists h.ok h1
  have fin : r = f ∨ r = p → BusinessDay c s e (Lemmas.repr (Lemmas.dateOf r)).ordinal := by
    rw [hord, ← h.bb, ← Lemmas.calE_of_inb hi]
    rintro (rfl | rfl)
    · exact hf.2.1
    · exact hp.2.1
  have hoff : ∀ (x : Except String Int) (k : DateT → Except String Int),
      (fromOrdinals (c.offset - 1) >>= k) = .ok r → 1 < c.offset := by
    intro _ k hk
    by_contra hle
    rw [Lemmas.fromOrdinals_nonpos (c.offset - 1) (by omega) _ rfl, Lemmas.bind_error] at hk
    cases hk
  cases conv
  · exact absurd rfl hc
  · have hr' : c.followingEntry (t.ordinal - c.offset + 1) = .ok r := hr
    rw [Lemmas.following_iff h.ok h1 h2] at hr'
    exact fin (Or.inl (Lemmas.first_unique hr' hf))
  · have h0 := hoff (.ok 0) _ hr
    rw [Lemmas.modFollowing_entry h.ok h0 h1 h2 hf hp] at hr
    apply fin
    cases hr
    split
    · exact Or.inl rfl
    · exact Or.inr rfl
  · have hr' : c.precedingEntry (t.ordinal - c.offset + 1) = .ok r := hr
    rw [Lemmas.preceding_iff h.ok h1 h2] at hr'
    exact fin (Or.inr (Lemmas.last_unique hr' hp))
  · have h0 := hoff (.ok 0) _ hr
    rw [Lemmas.modPreceding_entry h.ok h0 h1 h2 hf hp] at hr
    apply fin
    cases hr
    split
    · exact Or.inr rfl
    · exact Or.inl rfl

/-- C12: adding `n` business days lands on the business day that has exactly `n` business days
between it and the (rolled) start; it fails exactly when the start is not usable (NONE and not a
business day, or the roll fails) or that day lies outside the calendar. -/
theorem C12_bounded_add_business_days {c : BoundedCal} {s e : Int} (h : CalendarFor c s e)
    (t t' : DateT) (n : Int) (conv : BusinessDayConvention) :
    c.addBusinessDays t n conv = .ok t' ↔
      ∃ d, InYears s e d ∧ StartDay c t conv d ∧
        ∃ f, Represents t' f ∧ InYears s e f.number ∧
          BusinessDaysAfter (IsBusinessDay c.mask c.holidays) d n f.number := by
  apply addBusinessDays_iff h
  by_cases hn : conv = .NONE
  · exact Or.inl hn
  · exact Or.inr fun u hu => C10_bounded_roll_is_business_day h t u conv hn hu

/-- C12: subtracting is adding the opposite. -/
theorem C12_bounded_subtract_business_days {c : BoundedCal} {s e : Int} (h : CalendarFor c s e)
    (t t' : DateT) (n : Int) (conv : BusinessDayConvention) :
    c.subtractBusinessDays t n conv = .ok t' ↔
      ∃ d, InYears s e d ∧ StartDay c t conv d ∧
        ∃ f, Represents t' f ∧ InYears s e f.number ∧
          BusinessDaysAfter (IsBusinessDay c.mask c.holidays) d (-n) f.number :=
  C12_bounded_add_business_days h t t' (-n) conv

/-- C12: adding `n` and then subtracting `n` business days from a business day comes back. -/
theorem C12_bounded_add_subtract {c : BoundedCal} {s e : Int} (h : CalendarFor c s e)
    (t t' : DateT) (d : YMD) (ht : Represents t d)
    (hB : BusinessDay c s e d.number) (n : Int) (h' : c.addBusinessDays t n .NONE = .ok t') :
    c.subtractBusinessDays t' n .NONE = .ok t := by
  obtain ⟨x, hx, ⟨hxB, hxe⟩, f, hf, hfi, hfB, h1, h2⟩ :=
    (C12_bounded_add_business_days h t t' n .NONE).1 h'
  simp only [if_true] at hxe
  have e1 : t.ordinal = d.number := ht.2.2.2.2
  have e2 : t'.ordinal = f.number := hf.2.2.2.2
  rw [C12_bounded_subtract_business_days h]
  refine ⟨f.number, hfi, ⟨hfB, by rw [if_pos rfl]; exact e2⟩, d, ht, hB.1, hB.2, ?_, ?_⟩
  · intro hn
    obtain ⟨a, b⟩ := h2 (by omega)
    rw [← hxe, e1] at a b
    exact ⟨a, by omega⟩
  · intro hn
    obtain ⟨a, b⟩ := h1 (by omega)
    rw [← hxe, e1] at a b
    exact ⟨a, by omega⟩

/-- Three business days after Thursday 24 December 2020 is Wednesday 30 December. -/
example : (cal2020.addBusinessDays ⟨737783, 2020, 12, 24⟩ 3 .NONE).toOption = some ⟨737789, 2020, 12, 30⟩ ∧
    (cal2020.addBusinessDays ⟨737784, 2020, 12, 25⟩ 3 .NONE).toOption = none ∧
    (cal2020.addBusinessDays ⟨737784, 2020, 12, 25⟩ (-3) .FOLLOWING).toOption
      = some ⟨737781, 2020, 12, 22⟩ := by
  decide +kernel

/-! ## C13 -/

/-- C13: `business_days_between` counts the business days in `[a, b)` (0 if `b ≤ a`) for dates in
the calendar and fails for others. -/
theorem C13_bounded_between {c : BoundedCal} {s e : Int} (h : CalendarFor c s e) (a b : DateT) :
    (InYears s e a.ordinal ∧ InYears s e b.ordinal →
      c.businessDaysBetween a b =
        .ok (countIn (IsBusinessDay c.mask c.holidays) a.ordinal b.ordinal : Int)) ∧
    (¬ (InYears s e a.ordinal ∧ InYears s e b.ordinal) →
      ∃ msg, c.businessDaysBetween a b = .error msg) := by
  constructor
  · rintro ⟨ha, hb⟩
    exact Lemmas.businessDaysBetween_in h.ok a b ((h.inb _).2 ha) ((h.inb _).2 hb)
  · intro hn
    apply Lemmas.error_of_not_ok
    intro v hv
    unfold BoundedCal.businessDaysBetween at hv
    rw [Lemmas.bind_ok_iff] at hv
    obtain ⟨u, hu, hv⟩ := hv
    rw [Lemmas.bind_ok_iff] at hv
    obtain ⟨u', hu', _⟩ := hv
    exact hn ⟨(h.inb _).1 ((Lemmas.assertInBounds_ok_iff _ _ _).1 hu),
      (h.inb _).1 ((Lemmas.assertInBounds_ok_iff _ _ _).1 hu')⟩

/-- C13: the period version counts from the date to the date plus the period. -/
theorem C13_bounded_in_period {c : BoundedCal} {s e : Int} (h : CalendarFor c s e) (a b : DateT)
    (p : Period) (hp : a.add p = .ok b) (ha : InYears s e a.ordinal) (hb : InYears s e b.ordinal) :
    c.businessDaysInPeriod a p =
      .ok (countIn (IsBusinessDay c.mask c.holidays) a.ordinal b.ordinal : Int) := by
  unfold BoundedCal.businessDaysInPeriod
  rw [hp, Lemmas.bind_ok]
  exact (C13_bounded_between h a b).1 ⟨ha, hb⟩

example : (cal2020.businessDaysBetween ⟨737783, 2020, 12, 24⟩ ⟨737797, 2021, 1, 7⟩).toOption = some 8 ∧
    (cal2020.businessDaysInPeriod ⟨737783, 2020, 12, 24⟩ ⟨2, .WEEK⟩).toOption = some 8 := by
  decide +kernel

end Props
