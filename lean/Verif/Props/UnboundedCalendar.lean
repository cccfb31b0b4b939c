import Verif.Lemmas.UnboundedCalendar
import Verif.Props.BoundedCalendar

/-!
# Property theorems C09, C11, C12, C13, C14 for the arithmetic (unbounded) calendar

The implementation inserts a fake holiday in the first week of year 1, so the theorems are about
days from ordinal 8 (0001-01-08) on.
-/

namespace Props
open Model Spec

/-- `c` is the calendar built from the weekend mask `mask` (at least one working day) and the
holidays `hols` (strictly increasing, none in the first week of year 1).  The three cases are the
ways of calling the constructor that work; the fourth one, holidays without a mask, is
`C09_unbounded_no_mask_no_business_days`. -/
structure UCalendarFor (c : UnboundedCal) (mask : List Nat) (hols : List Int) : Prop where
  mask_length : mask.length = 7
  has_weekday : 0 ∈ mask
  sorted : hols.Pairwise (· < ·)
  after_first_week : ∀ h ∈ hols, 8 ≤ h
  built : (∃ dates : List DateT, dates.map DateT.ordinal = hols ∧
            c = UnboundedCal.init (some mask) (some dates)) ∨
          (hols = [] ∧ c = UnboundedCal.init (some mask) none) ∨
          (hols = [] ∧ mask = weekendMaskNone ∧ c = UnboundedCal.init none none)

theorem UCalendarFor.ok {c : UnboundedCal} {mask : List Nat} {hols : List Int}
    (h : UCalendarFor c mask hols) :
    ∃ (F G : Int → Int) (B : Int → Prop) (_ : DecidablePred B), Lemmas.UnbOK c mask hols F G B := by
  rcases h.built with ⟨dates, hd, rfl⟩ | ⟨rfl, rfl⟩ | ⟨rfl, rfl, rfl⟩
  · have := Lemmas.unb_full mask h.mask_length h.has_weekday hols h.sorted h.after_first_week
    rw [← hd] at this ⊢
    exact this
  · exact ⟨_, _, _, _, Lemmas.unb_week mask h.mask_length h.has_weekday⟩
  · exact ⟨_, _, _, _, Lemmas.unb_none⟩

/-- A concrete calendar: Saturday/Sunday weekends with 2020-01-01, 2020-12-25 and 2021-01-01 as
holidays. -/
def ucal2020 : UnboundedCal := UnboundedCal.init (some [0, 0, 0, 0, 0, 1, 1])
  (some [⟨737425, 2020, 1, 1⟩, ⟨737784, 2020, 12, 25⟩, ⟨737791, 2021, 1, 1⟩])

theorem ucal2020_for : UCalendarFor ucal2020 [0, 0, 0, 0, 0, 1, 1] [737425, 737784, 737791] :=
  ⟨rfl, by decide, by decide, by decide, Or.inl ⟨_, rfl, rfl⟩⟩

/-! ## C09 -/

/-- C09 (unbounded): business day = working weekday and not a holiday. -/
theorem C09_unbounded_is_business_day {c : UnboundedCal} {mask : List Nat} {hols : List Int}
    (h : UCalendarFor c mask hols) (t : DateT) (h8 : 8 ≤ t.ordinal) :
    c.isBusinessDay t = decide (IsBusinessDay mask hols t.ordinal) := by
  obtain ⟨F, G, B, _, U⟩ := h.ok
  exact Lemmas.unb_isBusinessDay U t h8

example : ucal2020.isBusinessDay ⟨737784, 2020, 12, 25⟩ = false ∧
    ucal2020.isBusinessDay ⟨737783, 2020, 12, 24⟩ = true ∧
    ucal2020.isBusinessDay ⟨737785, 2020, 12, 26⟩ = false := by decide +kernel

/-- C09 (deviation found in the code): with holidays but `weekend_mask=None` no day at all is
reported to be a business day. -/
theorem C09_unbounded_no_mask_no_business_days (hols : List DateT) (t : DateT) :
    (UnboundedCal.init none (some hols)).isBusinessDay t = false := rfl

/-- C09 (deviation found in the code): holidays that are not sorted are not found by the binary
search: Christmas 2020 is reported as a business day. -/
theorem C09_unbounded_unsorted_holidays_missed :
    (UnboundedCal.init (some [0, 0, 0, 0, 0, 1, 1])
      (some [⟨737791, 2021, 1, 1⟩, ⟨737784, 2020, 12, 25⟩, ⟨737425, 2020, 1, 1⟩])).isBusinessDay
        ⟨737784, 2020, 12, 25⟩ = true := by decide +kernel

/-- C09 (deviation found in the code): the fake holiday. With a Saturday/Sunday weekend and any
(here: one, unrelated) holiday, Monday 0001-01-01 is reported not to be a business day. -/
theorem C09_unbounded_fake_holiday :
    (UnboundedCal.init (some [0, 0, 0, 0, 0, 1, 1]) (some [⟨737791, 2021, 1, 1⟩])).isBusinessDay
      ⟨1, 1, 1, 1⟩ = false ∧ IsBusinessDay [0, 0, 0, 0, 0, 1, 1] [737791] 1 := by decide +kernel

/-! ## C11 -/

/-- C11: FOLLOWING returns the first business day on or after the date. It never fails. -/
theorem C11_following {c : UnboundedCal} {mask : List Nat} {hols : List Int}
    (h : UCalendarFor c mask hols) (t : DateT) (h8 : 8 ≤ t.ordinal) :
    ∃ t' d, c.roll t .FOLLOWING = .ok t' ∧ Represents t' d ∧
      FirstOnOrAfter (IsBusinessDay mask hols) t.ordinal d.number := by
  obtain ⟨F, G, B, _, U⟩ := h.ok
  obtain ⟨r, h1, h2⟩ := Lemmas.unb_following U t h8
  obtain ⟨d, hd, e⟩ := (represents_dateOf _ r).1 rfl
  exact ⟨_, d, h2, hd, by rwa [e]⟩

theorem repr_of_valid {t' : DateT} {f : YMD} (hf : f.Valid) :
    t' = Lemmas.repr (Lemmas.dateOf f.number) ↔ Represents t' f := by
  rw [Lemmas.dateOf_of_number f hf, represents_iff]
  exact ⟨fun h => ⟨hf, h⟩, fun h => h.2⟩

/-- C11: PRECEDING returns the last business day on or before the date. -/
theorem C11_preceding {c : UnboundedCal} {mask : List Nat} {hols : List Int}
    (h : UCalendarFor c mask hols) (t : DateT) (f : YMD) (hf : f.Valid) (h8 : 8 ≤ f.number)
    (hl : LastOnOrBefore (IsBusinessDay mask hols) t.ordinal f.number) :
    ∃ t', c.roll t .PRECEDING = .ok t' ∧ Represents t' f := by
  obtain ⟨F, G, B, _, U⟩ := h.ok
  exact ⟨_, Lemmas.unb_preceding U t h8 hl, (repr_of_valid hf).1 rfl⟩

/-- From ordinal 8 on, every 300 consecutive days contain a business day. -/
def NoLongGapU (mask : List Nat) (hols : List Int) : Prop :=
  ∀ a, 8 ≤ a → ∃ x, a ≤ x ∧ x < a + 300 ∧ IsBusinessDay mask hols x

/-- C11: MODIFIED_FOLLOWING.  Partial: needs `hg`, because the code compares month numbers only
(`C11_long_gap_leaves_month`). -/
theorem C11_modified_following_partial {c : UnboundedCal} {mask : List Nat} {hols : List Int}
    (h : UCalendarFor c mask hols) (hg : NoLongGapU mask hols) (t : DateT) (d f : YMD)
    (ht : Represents t d) (hd : 8 ≤ d.number) (hf : f.Valid) (h8 : 8 ≤ f.number)
    (hm : ModifiedFollowing (IsBusinessDay mask hols) d.number f.number) :
    ∃ t', c.roll t .MODIFIED_FOLLOWING = .ok t' ∧ Represents t' f := by
  obtain ⟨F, G, B, _, U⟩ := h.ok
  have e : t.ordinal = d.number := ht.2.2.2.2
  refine ⟨_, Lemmas.unb_modFollowing U t (by omega) ?_ (by rw [e]; exact hg _ hd) h8
    (by rw [e]; exact hm), (repr_of_valid hf).1 rfl⟩
  rw [e, Lemmas.dateOf_of_number d ht.1]; exact ht.2.2.1

/-- C11: MODIFIED_PRECEDING (partial as above; from ordinal 400, February of year 2, on). -/
theorem C11_modified_preceding_partial {c : UnboundedCal} {mask : List Nat} {hols : List Int}
    (h : UCalendarFor c mask hols) (hg : NoLongGapU mask hols) (t : DateT) (d f : YMD)
    (ht : Represents t d) (hd : 400 ≤ d.number) (hf : f.Valid)
    (hm : ModifiedPreceding (IsBusinessDay mask hols) d.number f.number) :
    ∃ t', c.roll t .MODIFIED_PRECEDING = .ok t' ∧ Represents t' f := by
  obtain ⟨F, G, B, _, U⟩ := h.ok
  have e : t.ordinal = d.number := ht.2.2.2.2
  refine ⟨_, Lemmas.unb_modPreceding U t (by omega) ?_ ?_
    (by rw [e]; exact hm), (repr_of_valid hf).1 rfl⟩
  · rw [e, Lemmas.dateOf_of_number d ht.1]; exact ht.2.2.1
  · obtain ⟨x, h1, h2, h3⟩ := hg (d.number - 299) (by omega)
    exact ⟨x, by omega, by omega, h3⟩

/-- C11: NONE is the identity, and business days are fixed points of every convention. -/
theorem C11_fixed {c : UnboundedCal} {mask : List Nat} {hols : List Int}
    (h : UCalendarFor c mask hols) (t : DateT) (d : YMD) (ht : Represents t d) (h8 : 8 ≤ d.number) :
    c.roll t .NONE = .ok t ∧
    (IsBusinessDay mask hols d.number → ∀ conv, c.roll t conv = .ok t) := by
  refine ⟨rfl, fun hB conv => ?_⟩
  obtain ⟨F, G, B, _, U⟩ := h.ok
  have e : t.ordinal = d.number := ht.2.2.2.2
  by_cases hc : conv = .NONE
  · subst hc; rfl
  have hb : B t.ordinal := (U.agree _ (by omega)).2 (by rw [e]; exact hB)
  have hG := U.space.G_F hb
  have hmon : UnboundedCal.getMonth (G (F t.ordinal)) = t.month := by
    rw [hG, Lemmas.getMonth_eq, e, Lemmas.dateOf_of_number d ht.1]; exact ht.2.2.1.symm
  have key := Lemmas.unb_roll_iff U t conv hc (F t.ordinal) ?_ (by omega)
  · rw [key, hG]
    congr 1
    exact ((represents_dateOf t _).2 ⟨d, ht, e.symm⟩).symm
  · cases conv
    · exact absurd rfl hc
    · simp [UnboundedCal.applyRoll, hb]
    · simp only [UnboundedCal.applyRoll, hb, decide_true, if_true]
      rw [U.from, Lemmas.bind_ok, if_neg (by rw [hmon]; simp)]; rfl
    · rfl
    · simp only [UnboundedCal.applyRoll, hb, decide_true, if_true]
      rw [U.from, Lemmas.bind_ok, if_neg (by rw [hmon]; simp)]; rfl

theorem mem2020 (x : Int) : x ∉ ([737425, 737784, 737791] : List Int) ↔
    x ≠ 737425 ∧ x ≠ 737784 ∧ x ≠ 737791 := by simp

theorem ucal2020_noLongGap : NoLongGapU [0, 0, 0, 0, 0, 1, 1] [737425, 737784, 737791] := by
  intro a _
  have hB : ∀ x, (x - 1) % 7 < 4 → x ∉ ([737425, 737784, 737791] : List Int) →
      IsBusinessDay [0, 0, 0, 0, 0, 1, 1] [737425, 737784, 737791] x := by
    intro x hx hh
    refine ⟨?_, hh⟩
    have : weekday x = 0 ∨ weekday x = 1 ∨ weekday x = 2 ∨ weekday x = 3 := by
      unfold weekday; omega
    rcases this with h | h | h | h <;> rw [h] <;> rfl
  have hm : ∃ m, a ≤ m ∧ m ≤ a + 6 ∧ (m - 1) % 7 = 0 := ⟨a + (-(a - 1)) % 7, by omega, by omega, by omega⟩
  obtain ⟨m, h1, h2, h3⟩ := hm
  have : ∃ k : Int, 0 ≤ k ∧ k ≤ 3 ∧ m + k ≠ 737425 ∧ m + k ≠ 737784 ∧ m + k ≠ 737791 := by
    by_contra hne
    have h0 : ¬ _ := fun h => hne ⟨0, h⟩
    have h1 : ¬ _ := fun h => hne ⟨1, h⟩
    omega
  obtain ⟨k, k1, k2, k3⟩ := this
  exact ⟨m + k, by omega, by omega, hB _ (by omega) ((mem2020 _).2 k3)⟩

example :
    (ucal2020.roll ⟨737784, 2020, 12, 25⟩ .FOLLOWING).toOption = some ⟨737787, 2020, 12, 28⟩ ∧
    (ucal2020.roll ⟨737784, 2020, 12, 25⟩ .PRECEDING).toOption = some ⟨737783, 2020, 12, 24⟩ ∧
    (ucal2020.roll ⟨737729, 2020, 10, 31⟩ .MODIFIED_FOLLOWING).toOption = some ⟨737728, 2020, 10, 30⟩ ∧
    (ucal2020.roll ⟨737425, 2020, 1, 1⟩ .PRECEDING).toOption = some ⟨737424, 2019, 12, 31⟩ ∧
    (ucal2020.roll ⟨737425, 2020, 1, 1⟩ .MODIFIED_PRECEDING).toOption = some ⟨737426, 2020, 1, 2⟩ := by
  decide +kernel

/-- C11 (deviation found in the code): if every day from 2020-02-01 to 2021-01-31 is a holiday,
MODIFIED_FOLLOWING takes 2020-02-10 to 2021-02-01. -/
theorem C11_long_gap_leaves_month :
    ((⟨some [false, false, false, false, false, false, false],
      some ((List.range 366).map (fun (k : Nat) => 737456 + (k : Int)))⟩ : UnboundedCal).roll
        ⟨737465, 2020, 2, 10⟩ .MODIFIED_FOLLOWING).toOption =
      some ⟨737822, 2021, 2, 1⟩ ∧ ¬ SameMonth 737822 737465 := by
  refine ⟨by decide +kernel, ?_⟩
  rw [Lemmas.sameMonth_iff]
  decide +kernel

/-! ## C12 -/

/-- The start of an addition: the date itself (convention NONE) or the rolled date; a business day. -/
def UStartDay (c : UnboundedCal) (mask : List Nat) (hols : List Int) (t : DateT)
    (conv : BusinessDayConvention) (d : Int) : Prop :=
  IsBusinessDay mask hols d ∧
    if conv = .NONE then t.ordinal = d else ∃ u, c.roll t conv = .ok u ∧ u.ordinal = d

/-- C12 (unbounded): adding `n` business days to the (rolled) start `d` gives the business day `f`
with exactly `n` business days in between. -/
theorem C12_unbounded_add_business_days {c : UnboundedCal} {mask : List Nat} {hols : List Int}
    (h : UCalendarFor c mask hols) (t : DateT) (n : Int) (conv : BusinessDayConvention) (d : Int)
    (hd : 8 ≤ d) (hs : UStartDay c mask hols t conv d) (f : YMD) (hf : f.Valid) (h8 : 8 ≤ f.number)
    (ha : BusinessDaysAfter (IsBusinessDay mask hols) d n f.number) :
    ∃ t', c.addBusinessDays t n conv = .ok t' ∧ Represents t' f := by
  obtain ⟨F, G, B, _, U⟩ := h.ok
  exact ⟨_, Lemmas.unb_add U t n conv hd h8 hs.1 hs.2 ha, (repr_of_valid hf).1 rfl⟩

/-- C12 (unbounded): for `n ≥ 0` the business day `f` of the previous theorem always exists (there
are infinitely many business days). -/
theorem C12_unbounded_target_exists {c : UnboundedCal} {mask : List Nat} {hols : List Int}
    (h : UCalendarFor c mask hols) (d : Int) (hd : 8 ≤ d) (hB : IsBusinessDay mask hols d) (n : Int)
    (hn : 0 ≤ n) :
    ∃ f : YMD, f.Valid ∧ 8 ≤ f.number ∧
      BusinessDaysAfter (IsBusinessDay mask hols) d n f.number := by
  obtain ⟨F, G, B, _, U⟩ := h.ok
  have ha := U.space.after (n := n) ((U.agree d hd).2 hB)
  obtain ⟨a, b, e⟩ := ha
  obtain ⟨p, q⟩ := b hn
  refine ⟨Lemmas.dateOf (G (F d + n)), Lemmas.dateOf_valid _, ?_, ?_⟩
  · rw [Lemmas.dateOf_number]; omega
  · rw [Lemmas.dateOf_number]
    refine ⟨(U.agree _ (by omega)).1 a, fun _ => ⟨p, ?_⟩, fun hn' => ?_⟩
    · rw [← Lemmas.countIn_congr (fun x h1 _ => U.agree x (by omega))]; exact q
    · obtain ⟨p', q'⟩ := e hn'
      refine ⟨p', ?_⟩
      rw [← Lemmas.countIn_congr (fun x h1 _ => U.agree x (by omega))]; exact q'

/-- C12 (unbounded): with convention NONE a start that is not a business day is rejected. -/
theorem C12_unbounded_rejects {c : UnboundedCal} {mask : List Nat} {hols : List Int}
    (h : UCalendarFor c mask hols) (t : DateT) (n : Int) (h8 : 8 ≤ t.ordinal)
    (hB : ¬ IsBusinessDay mask hols t.ordinal) :
    ∃ msg, c.addBusinessDays t n .NONE = .error msg := by
  obtain ⟨F, G, B, _, U⟩ := h.ok
  exact Lemmas.unb_add_none_error U t n h8 hB

/-- C12 (unbounded): subtracting `n` undoes adding `n` from a business day. -/
theorem C12_unbounded_add_subtract {c : UnboundedCal} {mask : List Nat} {hols : List Int}
    (h : UCalendarFor c mask hols) (t : DateT) (d : YMD) (ht : Represents t d) (h8 : 8 ≤ d.number)
    (hB : IsBusinessDay mask hols d.number) (n : Int) (hn : 0 ≤ n) :
    ∃ t', c.addBusinessDays t n .NONE = .ok t' ∧ c.subtractBusinessDays t' n .NONE = .ok t := by
  obtain ⟨f, hf, hf8, hf1, hf2, hf3⟩ := C12_unbounded_target_exists h d.number h8 hB n hn
  have e1 : t.ordinal = d.number := ht.2.2.2.2
  obtain ⟨t', ht', hr⟩ := C12_unbounded_add_business_days h t n .NONE d.number h8
    ⟨hB, by rw [if_pos rfl]; exact e1⟩ f hf hf8 ⟨hf1, hf2, hf3⟩
  refine ⟨t', ht', ?_⟩
  have e2 : t'.ordinal = f.number := hr.2.2.2.2
  obtain ⟨u, hu, hur⟩ := C12_unbounded_add_business_days h t' (-n) .NONE f.number hf8
    ⟨hf1, by rw [if_pos rfl]; exact e2⟩ d ht.1 h8
    ⟨hB, fun hn' => by obtain ⟨a, b⟩ := hf3 (by omega); exact ⟨a, by omega⟩,
      fun hn' => by obtain ⟨a, b⟩ := hf2 (by omega); exact ⟨a, by omega⟩⟩
  have : u = t := by
    rw [((represents_iff _ _).1 hur).2, ((represents_iff _ _).1 ht).2]
  rw [← this]; exact hu

example : (ucal2020.addBusinessDays ⟨737783, 2020, 12, 24⟩ 3 .NONE).toOption = some ⟨737789, 2020, 12, 30⟩ ∧
    (ucal2020.addBusinessDays ⟨737784, 2020, 12, 25⟩ 3 .NONE).toOption = none ∧
    (ucal2020.addBusinessDays ⟨737784, 2020, 12, 25⟩ (-3) .FOLLOWING).toOption
      = some ⟨737781, 2020, 12, 22⟩ := by
  decide +kernel

/-! ## C13 -/

/-- C13 (unbounded): `business_days_between` counts the business days in `[a, b)`, 0 if `b ≤ a`. -/
theorem C13_unbounded_between {c : UnboundedCal} {mask : List Nat} {hols : List Int}
    (h : UCalendarFor c mask hols) (a b : DateT) (h8 : 8 ≤ a.ordinal) :
    c.businessDaysBetween a b = (countIn (IsBusinessDay mask hols) a.ordinal b.ordinal : Int) := by
  obtain ⟨F, G, B, _, U⟩ := h.ok
  exact Lemmas.unb_between U a b h8

/-- C13 (unbounded): additivity over adjacent intervals. -/
theorem C13_unbounded_additive {c : UnboundedCal} {mask : List Nat} {hols : List Int}
    (h : UCalendarFor c mask hols) (a b d : DateT) (h8 : 8 ≤ a.ordinal) (h1 : a.ordinal ≤ b.ordinal)
    (h2 : b.ordinal ≤ d.ordinal) :
    c.businessDaysBetween a b + c.businessDaysBetween b d = c.businessDaysBetween a d := by
  obtain ⟨F, G, B, _, U⟩ := h.ok
  rw [Lemmas.unb_between U a b h8, Lemmas.unb_between U b d (by omega), Lemmas.unb_between U a d h8,
    Lemmas.countIn_congr (fun x h1 _ => (U.agree x (by omega)).symm),
    Lemmas.countIn_congr (a := b.ordinal) (fun x h1 _ => (U.agree x (by omega)).symm),
    Lemmas.countIn_congr (a := a.ordinal) (b := d.ordinal) (fun x h1 _ => (U.agree x (by omega)).symm),
    U.space.count h1, U.space.count h2, U.space.count (by omega)]
  omega

/-- C13 (unbounded): the period version counts from the date to the date plus the period. -/
theorem C13_unbounded_in_period {c : UnboundedCal} {mask : List Nat} {hols : List Int} (h : UCalendarFor c mask hols) (a b : DateT) (h8 : 8 ≤ a.ordinal) (p : Period)
    (hp : a.add p = .ok b) : c.businessDaysInPeriod a p = .ok (countIn (IsBusinessDay mask hols) a.ordinal b.ordinal : Int) := by
  unfold UnboundedCal.businessDaysInPeriod
  rw [hp, Lemmas.bind_ok, C13_unbounded_between h a b h8]
  rfl

example : ucal2020.businessDaysBetween ⟨737783, 2020, 12, 24⟩ ⟨737797, 2021, 1, 7⟩ = 8 := by
  decide +kernel

example : (ucal2020.businessDaysInPeriod ⟨737783, 2020, 12, 24⟩ ⟨2, .WEEK⟩).toOption = some 8 := by
  decide +kernel

/-! ## C14 -/

/-- The hypotheses of C14: a bounded calendar for the years `s..e` and an unbounded calendar with the
same mask and holidays, the holidays being sorted and within those years. -/
structure SameCalendar (b : BoundedCal) (u : UnboundedCal) (s e : Int) : Prop where
  bounded : CalendarFor b s e
  unbounded : UCalendarFor u b.mask b.holidays
  holidays_in : ∀ x ∈ b.holidays, InYears s e x
  start : 3 ≤ s

section
variable {b : BoundedCal} {u : UnboundedCal} {s e : Int}

theorem SameCalendar.pos (h : SameCalendar b u s e) {o : Int} (ho : InYears s e o) : 400 ≤ o := by
  have := @jan1_lt 3 (s - 1)
  by_cases hs : s = 3
  · subst hs
    have : jan1 3 = 731 := by decide
    have := ho.1
    omega
  · have := this (by have := h.start; omega)
    rw [show s - 1 + 1 = s by omega] at this
    have : jan1 3 = 731 := by decide
    have := ho.1
    omega

theorem bb_first {d r : Int} (hd : InYears s e d) (h : FirstOnOrAfter (BusinessDay b s e) d r) :
    FirstOnOrAfter (IsBusinessDay b.mask b.holidays) d r := by
  obtain ⟨h1, h2, h3⟩ := h
  refine ⟨h1, h2.2, fun x hx1 hx2 hx => h3 x hx1 hx2 ⟨⟨?_, ?_⟩, hx⟩⟩
  · have := hd.1; omega
  · have := h2.1.2; omega

theorem bb_last {d r : Int} (hd : InYears s e d) (h : LastOnOrBefore (BusinessDay b s e) d r) :
    LastOnOrBefore (IsBusinessDay b.mask b.holidays) d r := by
  obtain ⟨h1, h2, h3⟩ := h
  refine ⟨h1, h2.2, fun x hx1 hx2 hx => h3 x hx1 hx2 ⟨⟨?_, ?_⟩, hx⟩⟩
  · have := h2.1.1; omega
  · have := hd.2; omega

/-- Outside the years there are no holidays, so every week has a business day. -/
theorem outside_week (h : SameCalendar b u s e) (a : Int) (ha : ∀ k, 0 ≤ k → k < 7 → ¬ InYears s e (a + k)) :
    ∃ k, 0 ≤ k ∧ k < 7 ∧ IsBusinessDay b.mask b.holidays (a + k) := by
  obtain ⟨w, hw, e⟩ := List.getElem_of_mem h.unbounded.has_weekday
  have h7 := h.unbounded.mask_length
  refine ⟨((w : Int) - (a - 1)) % 7, by omega, by omega, ?_, fun hm => ?_⟩
  · have : weekday (a + ((w : Int) - (a - 1)) % 7) = w := by unfold weekday; omega
    rw [this, List.getElem?_eq_getElem hw, e]
  · exact ha _ (by omega) (by omega) (h.holidays_in _ hm)

theorem january (y k : Int) (h0 : 0 ≤ k) (h7 : k < 7) : (Lemmas.dateOf (jan1 y + k)).month = 1 := by
  have hv : (⟨y, 1, 1 + k⟩ : YMD).Valid := by
    refine ⟨Int.le_refl 1, by simp only; omega, by simp only; omega, ?_⟩
    show 1 + k ≤ 31
    omega
  have : jan1 y + k = (⟨y, 1, 1 + k⟩ : YMD).number := by
    unfold jan1 YMD.number; simp only; omega
  rw [this, Lemmas.dateOf_of_number _ hv]

theorem december (y k : Int) (h0 : 0 ≤ k) (h7 : k < 7) : (Lemmas.dateOf (jan1 (y + 1) - 1 - k)).month = 12 := by
  have hv : (⟨y, 12, 31 - k⟩ : YMD).Valid := by
    refine ⟨by simp only; omega, by simp only; omega, by simp only; omega, ?_⟩
    show 31 - k ≤ 31
    omega
  have : jan1 (y + 1) - 1 - k = (⟨y, 12, 31 - k⟩ : YMD).number := by
    have h31 : (⟨y, 12, 31⟩ : YMD).Valid := by
      refine ⟨by simp only; omega, by simp only; omega, by simp only; omega, ?_⟩
      show (31 : Int) ≤ 31
      omega
    have hn := Lemmas.number_next _ h31
    have hx : (⟨y, 12, 31⟩ : YMD).next = ⟨y + 1, 1, 1⟩ := rfl
    rw [hx] at hn
    unfold jan1
    rw [hn]
    unfold YMD.number
    simp only
    omega
  rw [this, Lemmas.dateOf_of_number _ hv]

theorem represents_unique {t t' : DateT} {d : YMD} (h : Represents t d) (h' : Represents t' d) :
    t = t' := by
  rw [((represents_iff _ _).1 h).2, ((represents_iff _ _).1 h').2]

/-- C14: `is_business_day` agrees on every date of the calendar years. -/
theorem C14_is_business_day (h : SameCalendar b u s e) (t : DateT) (ht : InYears s e t.ordinal) :
    b.isBusinessDay t = .ok (u.isBusinessDay t) := by
  rw [(C09_bounded_is_business_day h.bounded t).1 ht,
    C09_unbounded_is_business_day h.unbounded t (by have := h.pos ht; omega)]

/-- C14: whenever the bounded calendar can roll a date inside its bounds the unbounded one gives the
same date, for every convention. -/
theorem C14_roll (h : SameCalendar b u s e) (t t' : DateT) (d : YMD) (ht : Represents t d)
    (hd : InYears s e d.number) (conv : BusinessDayConvention)
    (hr : b.roll t conv = .ok t') : u.roll t conv = .ok t' := by
  have hdo : t.ordinal = d.number := ht.2.2.2.2
  have hpos := h.pos hd
  have hmon : t.month = (Lemmas.dateOf t.ordinal).month := by
    rw [hdo, Lemmas.dateOf_of_number d ht.1]; exact ht.2.2.1
  have hoff : 400 ≤ b.offset := by
    rw [h.bounded.first]; exact h.pos ⟨Int.le_refl _, jan1_lt h.bounded.years.2⟩
  obtain ⟨F, G, B, _, U⟩ := h.unbounded.ok
  have first : ∀ {r}, FirstOnOrAfter (Lemmas.calE b) t.ordinal r → Lemmas.inb b r →
      FirstOnOrAfter (IsBusinessDay b.mask b.holidays) t.ordinal r := by
    intro r h1 h2
    have hi : Lemmas.inb b t.ordinal := by rw [h.bounded.inb, hdo]; exact hd
    have := ((Lemmas.first_E_iff (by have := hi.1; omega) (by have := hi.2; omega)).1 ⟨h1, h2⟩).2
    rw [h.bounded.bb, hdo] at this
    rw [hdo]
    exact bb_first hd this
  have last : ∀ {r}, LastOnOrBefore (Lemmas.calE b) t.ordinal r → Lemmas.inb b r →
      LastOnOrBefore (IsBusinessDay b.mask b.holidays) t.ordinal r := by
    intro r h1 h2
    have hi : Lemmas.inb b t.ordinal := by rw [h.bounded.inb, hdo]; exact hd
    have := ((Lemmas.last_E_iff (by have := hi.1; omega) (by have := hi.2; omega)).1 ⟨h1, h2⟩).2
    rw [h.bounded.bb, hdo] at this
    rw [hdo]
    exact bb_last hd this
  cases conv
  · exact hr
  · obtain ⟨_, f, hf, hh⟩ := (C10_bounded_following h.bounded t t').1 hr
    obtain ⟨w, g, hw, hwg, hfirst⟩ := C11_following h.unbounded t (by omega)
    rw [hdo] at hh hfirst
    have := Lemmas.first_unique (bb_first hd hh) hfirst
    have := Lemmas.number_inj f g hf.1 hwg.1 this
    subst this
    rw [hw, represents_unique hwg hf]
  · rw [Lemmas.roll_ok_iff _ _ _ _ (by decide)] at hr
    obtain ⟨h1, h2, r, hr, hi, rfl⟩ := hr
    obtain ⟨f, hf⟩ := Lemmas.following_exists h.bounded.ok h2
    obtain ⟨p, hp⟩ := Lemmas.preceding_exists h.bounded.ok h1
    rw [Lemmas.modFollowing_entry h.bounded.ok (by omega) h1 h2 hf hp] at hr
    have hr' : (if (Lemmas.dateOf f).month = (Lemmas.dateOf t.ordinal).month then f else p) = r := by
      cases hr; rfl
    rw [← hmon] at hr'
    by_cases hm : (Lemmas.dateOf f).month = t.month
    · rw [if_pos hm] at hr'
      subst hr'
      exact Lemmas.unb_modFollowing_raw U t (by omega) (first hf hi) (by rw [if_pos hm])
    · rw [if_neg hm] at hr'
      subst hr'
      have hl := last hp hi
      have hl8 : 8 ≤ p := by have := hi.1; omega
      by_cases hfi : Lemmas.inb b f
      · exact Lemmas.unb_modFollowing_raw U t (by omega) (first hf hfi) (by rw [if_neg hm]; exact ⟨hl8, hl⟩)
      · have hfe : f = jan1 (e + 1) := by
          have h3 := hf.2.1.2.1; have h4 := hf.1; have h5 := h.bounded.last; have h6 := h.bounded.first
          have h7 := hd.1
          unfold Lemmas.inb at hfi
          omega
        obtain ⟨k, k0, k7, hk⟩ := outside_week h f (fun k h0 _ hin => by have := hin.2; omega)
        have hG := Lemmas.unb_first U (show 8 ≤ t.ordinal by omega)
        generalize G (if B t.ordinal then F t.ordinal else F t.ordinal + 1) = g at hG
        have hg1 : f ≤ g := by
          by_contra hlt
          refine hf.2.2 g hG.1 (by omega) ?_
          have := hG.1
          exact ⟨by omega, by have := hf.2.1.2.1; omega, Or.inr (Or.inr hG.2.1)⟩
        have hg2 : g ≤ f + k := by
          by_contra hlt
          exact hG.2.2 (f + k) (by have := hf.1; omega) (by omega) hk
        refine Lemmas.unb_modFollowing_raw U t (by omega) hG ?_
        rw [if_neg]
        · exact ⟨hl8, hl⟩
        · have e1 := january (e + 1) (g - f) (by omega) (by omega)
          have e2 := january (e + 1) 0 (by omega) (by omega)
          rw [← hfe, show f + (g - f) = g by omega] at e1
          rw [← hfe, Int.add_zero] at e2
          rw [e1, ← e2]; exact hm
  · obtain ⟨_, f, hf, hh⟩ := (C10_bounded_preceding h.bounded t t').1 hr
    rw [hdo] at hh
    obtain ⟨w, hw, hwf⟩ := C11_preceding h.unbounded t f hf.1 (by have := h.pos hh.2.1.1; omega)
      (by rw [hdo]; exact bb_last hd hh)
    rw [hw, represents_unique hwf hf]
  · rw [Lemmas.roll_ok_iff _ _ _ _ (by decide)] at hr
    obtain ⟨h1, h2, r, hr, hi, rfl⟩ := hr
    obtain ⟨f, hf⟩ := Lemmas.following_exists h.bounded.ok h2
    obtain ⟨p, hp⟩ := Lemmas.preceding_exists h.bounded.ok h1
    rw [Lemmas.modPreceding_entry h.bounded.ok (by omega) h1 h2 hf hp] at hr
    have hr' : (if (Lemmas.dateOf p).month = (Lemmas.dateOf t.ordinal).month then p else f) = r := by
      cases hr; rfl
    rw [← hmon] at hr'
    have hp8 : 8 ≤ p := by have := hp.2.1.1; omega
    by_cases hm : (Lemmas.dateOf p).month = t.month
    · rw [if_pos hm] at hr'
      subst hr'
      exact Lemmas.unb_modPreceding_raw U t (by omega) hp8 (last hp hi) (by rw [if_pos hm])
    · rw [if_neg hm] at hr'
      subst hr'
      have hl := first hf hi
      by_cases hpi : Lemmas.inb b p
      · exact Lemmas.unb_modPreceding_raw U t (by omega) hp8 (last hp hpi) (by rw [if_neg hm]; exact hl)
      · have hpe : p = jan1 s - 1 := by
          have h3 := hp.2.1.1; have h4 := hp.1; have h5 := h.bounded.last; have h6 := h.bounded.first
          have h7 := hd.2
          unfold Lemmas.inb at hpi
          omega
        obtain ⟨k, k0, k7, hk⟩ := outside_week h (p - 6) (fun k h0 _ hin => by have := hin.1; omega)
        have h6 := h.bounded.first
        obtain ⟨g, hG, _⟩ := Lemmas.exists_last (B := IsBusinessDay b.mask b.holidays) t.ordinal
          (t.ordinal - (p - 6 + k) + 1).toNat
          ⟨p - 6 + k, by have := hp.1; omega, by have := hp.1; omega, hk⟩
        have hg1 : g ≤ p := by
          by_contra hlt
          refine hp.2.2 g (by omega) hG.1 ?_
          have := hG.1
          exact ⟨by omega, by omega, Or.inr (Or.inr hG.2.1)⟩
        have hg2 : p - 6 + k ≤ g := by
          by_contra hlt
          exact hG.2.2 (p - 6 + k) (by omega) (by have := hp.1; omega) hk
        refine Lemmas.unb_modPreceding_raw U t (by omega) (by omega) hG ?_
        rw [if_neg]
        · exact hl
        · have e1 := december (s - 1) (p - g) (by omega) (by omega)
          have e2 := december (s - 1) 0 (by omega) (by omega)
          rw [show s - 1 + 1 = s by omega, ← hpe] at e1 e2
          rw [show p - (p - g) = g by omega] at e1
          rw [Int.sub_zero] at e2
          rw [e1, ← e2]; exact hm

/-- C14: adding business days, likewise. -/
theorem C14_add_business_days (h : SameCalendar b u s e)
    (t t' : DateT) (d : YMD) (ht : Represents t d) (hd : InYears s e d.number) (n : Int)
    (conv : BusinessDayConvention) (hr : b.addBusinessDays t n conv = .ok t') :
    u.addBusinessDays t n conv = .ok t' := by
  obtain ⟨x, hx, ⟨hxB, hst⟩, f, hf, hfi, ha⟩ := (C12_bounded_add_business_days h.bounded t t' n conv).1 hr
  have hst' : UStartDay u b.mask b.holidays t conv x := by
    refine ⟨hxB, ?_⟩
    by_cases hc : conv = .NONE
    · rw [if_pos hc] at *; exact hst
    · rw [if_neg hc] at *
      obtain ⟨w, hw, e⟩ := hst
      exact ⟨w, C14_roll h t w d ht hd conv hw, e⟩
  obtain ⟨w, hw, hwf⟩ := C12_unbounded_add_business_days h.unbounded t n conv x
    (by have := h.pos hx; omega) hst' f hf.1 (by have := h.pos hfi; omega) ha
  rw [hw, represents_unique hwf hf]

/-- C14: counting agrees. -/
theorem C14_business_days_between (h : SameCalendar b u s e) (x y : DateT)
    (hx : InYears s e x.ordinal) (hy : InYears s e y.ordinal) :
    b.businessDaysBetween x y = .ok (u.businessDaysBetween x y) := by
  rw [(C13_bounded_between h.bounded x y).1 ⟨hx, hy⟩,
    C13_unbounded_between h.unbounded x y (by have := h.pos hx; omega)]

end

example : SameCalendar cal2020 ucal2020 2020 2021 := ⟨cal2020_for, ucal2020_for, by unfold InYears; decide, by decide⟩

end Props
