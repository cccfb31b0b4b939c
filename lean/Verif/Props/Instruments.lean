import Mathlib.Algebra.Order.Field.Basic
import Mathlib.Algebra.Order.Ring.Int
import Mathlib.Data.Rat.Cast.Order
import Mathlib.Tactic.Ring
import Mathlib.Tactic.FieldSimp
import Mathlib.Tactic.NormNum
import Mathlib.Tactic.Linarith
import Verif.Lemmas.Instruments

/-!
# Property theorems C65: streams of fixed coupons
-/

namespace Props
open Model Model.Instruments Spec Lemmas

/-- The convention of the specification. -/
def basisOf : DayCount → Basis
  | .actual360 => .actual360
  | .actual365 => .actual365
  | .thirty360Isda => .thirty360

/-- The curves of the market, as functions of calendar dates. -/
def Quotes {K : Type} (m : Market K) (R D : YMD → K) : Prop :=
  ∀ t d, Represents t d → m.reference t = R d ∧ m.discount t = D d

section
variable {K : Type} [Field K]

theorem daycount_eq (c : DayCount) (d e : YMD) (hd : d.Valid) (he : e.Valid) :
    daycountFraction K c (Lemmas.repr d) (Lemmas.repr e) = yearFraction (basisOf c) d e := by
  have h1 : Represents (Lemmas.repr d) d := (represents_iff _ _).2 ⟨hd, rfl⟩
  have h2 : Represents (Lemmas.repr e) e := (represents_iff _ _).2 ⟨he, rfl⟩
  cases c
  · rfl
  · rfl
  · exact C17_thirty_360 K _ _ _ _ h1 h2

theorem yearFraction_self (b : Basis) (d : YMD) (hd : d.Valid) : yearFraction (K := K) b d d = 0 := by
  have h31 := monthLength_pos d.year d.month
  have h31' := hd.2.2.2
  cases b
  · simp [yearFraction]
  · simp [yearFraction]
  · unfold yearFraction
    have : (360 * (d.year - d.year) + 30 * (d.month - d.month) +
        ((if d.day = 31 ∧ (d.day = 30 ∨ d.day = 31) then 30 else d.day) -
          (if d.day = 31 then 30 else d.day)) : Int) = 0 := by
      by_cases h : d.day = 31
      · simp [h]
      · simp [h]
    simp only [this]; simp

theorem num_eq {α : Type} (rows : List α) (hne : rows ≠ []) (n : Nat) (f : α → Nat → DateT) (g : α → List Bool) :
    numCashflows (rows.map (fun r => ((List.range (n + 1)).map (f r), g r))) = n := by
  cases rows with
  | nil => exact absurd rfl hne
  | cons r rows => simp [numCashflows]

/-- The stream of a batch with explicit dates. -/
theorem fixed_setup (p : PeriodType) (convention : DayCount) (hasFirst hasPenultimate : Bool) (rows : List (FixedRow K))
    (hne : rows ≠ []) (n : Nat) (y : StreamRow → Nat → YMD) (g : List Bool) (hval : ∀ r ∈ rows, ∀ i, i ≤ n → (y r.dates i).Valid)
    (hs : generateSchedule p hasFirst hasPenultimate (rows.map FixedRow.dates) =
      .ok ((rows.map FixedRow.dates).map (fun r => ((List.range (n + 1)).map (fun i => Lemmas.repr (y r i)), g)))) :
    FixedStream.setup p convention hasFirst hasPenultimate rows = .ok {
      batch := rows.length
      num := n
      paymentDates := rows.flatMap (fun r => (List.range n).map (fun i => Lemmas.repr (y r.dates (i + 1))))
      notional := rows.flatMap (fun r => (List.range n).map (fun _ => r.notional))
      daycounts := rows.flatMap (fun r => (List.range n).map (fun i =>
        yearFraction (basisOf convention) (y r.dates i) (y r.dates (i + 1))))
      couponRate := rows.flatMap (fun r => (List.range n).map (fun _ => r.rate))
      fixedRate := rows.map FixedRow.rate
      contractIndex := repeatEach (List.range rows.length) n } := by
  unfold FixedStream.setup
  rw [hs, bind_ok, List.map_map]
  have hnum := num_eq rows hne n (fun r i => Lemmas.repr (y r.dates i)) (fun _ => g)
  have hnum' : numCashflows (rows.map ((fun r => ((List.range (n + 1)).map (fun i => Lemmas.repr (y r i)), g)) ∘ FixedRow.dates)) = n :=
    hnum
  rw [hnum']
  dsimp only
  rw [repeatEach_map, repeatEach_map]
  simp only [pure, Except.pure, List.flatMap_map, Function.comp_apply]
  congr 2
  · apply List.flatMap_congr
    intro r _
    rw [← List.drop_one, drop_mapRange]
  · apply List.flatMap_congr
    intro r hr
    rw [← List.drop_one, drop_mapRange, dropLast_mapRange, zipWith_mapRange]
    apply List.map_congr_left
    intro i hi
    have := List.mem_range.1 hi
    exact daycount_eq _ _ _ (hval r hr i (by omega)) (hval r hr (i + 1) (by omega))

theorem ge_iff (d v : YMD) (hd : d.Valid) (hv : v.Valid) : (Lemmas.repr d).ge (Lemmas.repr v) = true ↔ ¬ d.Before v := by
  rw [before_iff d v hd hv]
  simp [DateT.ge, Lemmas.repr]

/-- C65: the price of every stream of a batch is the present value of its own fixed coupons: one coupon for every period of
the stream's schedule (also if other streams of the batch have more coupons), with payment not before the valuation date. -/
theorem C65_fixed (p : PeriodType) (convention : DayCount) (kind : StubKind) (hasFirst hasPenultimate : Bool)
    (hflags : kind.flags hasFirst hasPenultimate) (rows : List (FixedRow K))
    (hrows : ∀ r ∈ rows, ∃ d e f, StreamOK kind r.dates d e f)
    (hne : ∃ r ∈ rows, (kind.inner r.dates).start.ordinal < (kind.inner r.dates).stop.ordinal)
    (s : FixedStream K) (hs : FixedStream.setup p convention hasFirst hasPenultimate rows = .ok s) :
    ∃ (k : FixedRow K → Nat) (c : FixedRow K → Nat → YMD),
      (∀ r ∈ rows, ∀ d e f, StreamOK kind r.dates d e f →
        CouponDates p r.dates.quantity (kind.stub f) d e (k r) (c r)) ∧
      ∀ (v : DateT) (vd : YMD) (m : Market K) (R D : YMD → K), Represents v vd → Quotes m R D →
        s.price v m = rows.map (fun r => couponValue D vd (k r) (c r)
          (fun j => r.notional * r.rate * yearFraction (basisOf convention) (c r j) (c r (j + 1)))) := by
  have hne0 : rows ≠ [] := by obtain ⟨r, hr, _⟩ := hne; exact List.ne_nil_of_mem hr
  have hsched : ∃ schedule, generateSchedule p hasFirst hasPenultimate (rows.map FixedRow.dates) = .ok schedule := by
    unfold FixedStream.setup at hs
    rw [bind_ok_iff] at hs
    exact ⟨_, hs.choose_spec.1⟩
  obtain ⟨schedule, hsch⟩ := hsched
  obtain ⟨n, o, k, y, rfl, hy⟩ := stream_dates p kind hasFirst hasPenultimate hflags (rows.map FixedRow.dates)
    (by intro q hq; obtain ⟨r, hr, rfl⟩ := List.mem_map.1 hq; exact hrows r hr)
    (by obtain ⟨r, hr, h⟩ := hne; exact ⟨_, List.mem_map.2 ⟨r, hr, rfl⟩, h⟩) hsch
  have hy' : ∀ r ∈ rows, _ := fun r hr => hy _ (List.mem_map.2 ⟨r, hr, rfl⟩)
  rw [fixed_setup p convention hasFirst hasPenultimate rows hne0 n y _ (fun r hr i hi => ((hy' r hr).2.1 i hi).1) hsch] at hs
  simp only [Except.ok.injEq] at hs
  refine ⟨fun r => k r.dates, fun r i => y r.dates (o r.dates + i), fun r hr d e f h => (hy' r hr).2.2.2.2.2 d e f h, ?_⟩
  intro v vd m R D hv hm
  obtain ⟨hvv, rfl⟩ := (represents_iff _ _).1 hv
  subst hs
  unfold FixedStream.price
  simp only [List.map_flatMap, List.map_map]
  rw [zipWith_flatMap _ _ _ _ (by simp), zipWith_flatMap _ _ _ _ (by simp), zipWith_flatMap _ _ _ _ (by simp),
    zipWith_flatMap _ _ _ _ (by simp), rowSums_flatMap _ _ _ (by simp)]
  apply List.map_congr_left
  intro r hr
  obtain ⟨h1, h2, h3, h4, _⟩ := hy' r hr
  simp only [zipWith_mapRange, Function.comp_apply]
  rw [sum_mapRange', couponValue, sum_window' _ n (o r.dates) (k r.dates) h1]
  · apply Finset.sum_congr rfl
    intro j hj
    have hj' := Finset.mem_range.1 hj
    have hvj := (h2 (o r.dates + j + 1) (by omega)).1
    have hD : m.discount (Lemmas.repr (y r.dates (o r.dates + j + 1))) = D (y r.dates (o r.dates + j + 1)) :=
      (hm _ _ ((represents_iff _ _).2 ⟨hvj, rfl⟩)).2
    rw [hD, show o r.dates + (j + 1) = o r.dates + j + 1 by omega]
    have hge := ge_iff _ _ hvj hvv
    by_cases hb : (y r.dates (o r.dates + j + 1)).Before vd
    · rw [if_neg (fun hh => hge.1 hh hb), if_pos hb]; simp
    · rw [if_pos (hge.2 hb), if_neg hb]
      ring
  · intro i hi
    rw [h3 i hi, yearFraction_self _ _ (h2 (i + 1) (by omega)).1]
    simp
  · intro i hi hn
    rw [h4 i hi hn, yearFraction_self _ _ (h2 (i + 1) (by omega)).1]
    simp

theorem forward_unique {u : PeriodType} {q : Int} {d e : YMD} {k k' : Nat} {c c' : Nat → YMD}
    (h : ForwardCoupons u q d e k c) (h' : ForwardCoupons u q d e k' c') : k = k' ∧ ∀ i, i ≤ k → c i = c' i := by
  have hk : k = k' := by
    rcases Nat.lt_trichotomy k k' with hlt | heq | hgt
    · exact absurd (h'.1 k hlt).2 (h.2.2 _ (h'.1 k hlt).1)
    · exact heq
    · exact absurd (h.1 k' hgt).2 (h'.2.2 _ (h.1 k' hgt).1)
  subst hk
  refine ⟨rfl, fun i hi => ?_⟩
  rcases Nat.lt_or_ge i k with hlt | hge
  · exact shiftedBy_unique (h.1 i hlt).1 (h'.1 i hlt).1
  · rw [show i = k by omega, h.2.1, h'.2.1]

theorem backward_unique {u : PeriodType} {q : Int} {d e : YMD} {k k' : Nat} {c c' : Nat → YMD}
    (h : BackwardCoupons u q d e k c) (h' : BackwardCoupons u q d e k' c') : k = k' ∧ ∀ i, i ≤ k → c i = c' i := by
  have hk : k = k' := by
    rcases Nat.lt_trichotomy k k' with hlt | heq | hgt
    · exact absurd (h'.1 k hlt).2 (h.2.2 _ (h'.1 k hlt).1)
    · exact heq
    · exact absurd (h.1 k' hgt).2 (h'.2.2 _ (h.1 k' hgt).1)
  subst hk
  refine ⟨rfl, fun i hi => ?_⟩
  rcases Nat.eq_zero_or_pos i with h0 | hpos
  · rw [h0, h.2.1, h'.2.1]
  · have := shiftedBy_unique (h.1 (k - i) (by omega)).1 (h'.1 (k - i) (by omega)).1
    rwa [show k - (k - i) = i by omega] at this

/-- C65: the coupon dates of a stream are determined by its start, end, period and irregular coupon. -/
theorem C65_dates_unique {u : PeriodType} {q : Int} {stub : Stub} {d e : YMD} {k k' : Nat} {c c' : Nat → YMD}
    (h : CouponDates u q stub d e k c) (h' : CouponDates u q stub d e k' c') : k = k' ∧ ∀ i, i ≤ k → c i = c' i := by
  cases stub with
  | none => exact forward_unique h h'
  | first f =>
    obtain ⟨h0, n, rfl, h⟩ := h
    obtain ⟨h0', n', rfl, h'⟩ := h'
    obtain ⟨rfl, hc⟩ := forward_unique h h'
    refine ⟨rfl, fun i hi => ?_⟩
    cases i with
    | zero => rw [h0, h0']
    | succ i => exact hc i (by omega)
  | last f =>
    obtain ⟨h0, n, rfl, h⟩ := h
    obtain ⟨h0', n', rfl, h'⟩ := h'
    obtain ⟨rfl, hc⟩ := backward_unique h h'
    refine ⟨rfl, fun i hi => ?_⟩
    rcases Nat.lt_or_ge i (n + 1) with hlt | hge
    · exact hc i (by omega)
    · rw [show i = n + 1 by omega, h0, h0']

theorem schedule_total (p : PeriodType) (rows : List ScheduleRow) (hrows : ∀ r ∈ rows, ∃ d e, ValidRow r d e) :
    ∃ res, genPeriodicSchedule p rows none false false = .ok res := by
  by_cases h : ∃ r ∈ rows, r.start.ordinal < r.stop.ordinal
  · obtain ⟨f, _, h, _⟩ := C15_forward p rows hrows h
    exact ⟨_, h⟩
  · refine ⟨_, C15_degenerate_schedule_is_empty p rows hrows fun r hr => ?_⟩
    obtain ⟨d, e, hv⟩ := hrows r hr
    have h1 : ¬ r.start.ordinal < r.stop.ordinal := fun hh => h ⟨r, hr, hh⟩
    have h2 := hv.order
    rw [before_iff _ _ hv.stop.1 hv.start.1] at h2
    have e1 : r.start.ordinal = d.number := hv.start.2.2.2.2
    have e2 : r.stop.ordinal = e.number := hv.stop.2.2.2.2
    omega

/-- C65: the stream can be set up, unless the last coupon is irregular, the period is in days or weeks, and the batch has
several streams (then the schedules are computed backwards and may leave year 1, see `C15_backward`). -/
theorem C65_total (p : PeriodType) (convention : DayCount) (kind : StubKind) (hasFirst hasPenultimate : Bool)
    (hflags : kind.flags hasFirst hasPenultimate) (rows : List (FixedRow K))
    (hrows : ∀ r ∈ rows, ∃ d e f, StreamOK kind r.dates d e f)
    (hlast : kind = .last → p = .MONTH ∨ p = .YEAR ∨ rows.length = 1) :
    ∃ s, FixedStream.setup p convention hasFirst hasPenultimate rows = .ok s := by
  have : ∃ schedule, generateSchedule p hasFirst hasPenultimate (rows.map FixedRow.dates) = .ok schedule := by
    have hr : ∀ r ∈ (rows.map FixedRow.dates).map kind.inner, ∃ d e, ValidRow r d e := by
      intro r hr
      obtain ⟨_, hr1, rfl⟩ := List.mem_map.1 hr
      obtain ⟨r, hr2, rfl⟩ := List.mem_map.1 hr1
      obtain ⟨d, e, f, h1, h2, h3, h4, h5⟩ := hrows r hr2
      cases kind with
      | none => exact ⟨d, e, h1, h2, h3, h5, h4⟩
      | first => exact ⟨f, e, h5.1, h2, h5.2.1, h5.2.2, h4⟩
      | last => exact ⟨d, f, h1, h5.1, h3, h5.2.1, h4⟩
    unfold generateSchedule
    cases kind with
    | none =>
      obtain ⟨rfl, rfl⟩ := hflags
      rw [if_pos (by rfl)]
      obtain ⟨res, h⟩ := schedule_total p _ hr
      have h' : genPeriodicSchedule p ((rows.map FixedRow.dates).map (fun r => ⟨r.start, r.stop, r.quantity⟩)) none false false =
        .ok res := h
      rw [h', bind_ok]
      exact ⟨_, rfl⟩
    | first =>
      obtain rfl := hflags
      rw [if_neg (by simp), if_pos rfl]
      obtain ⟨res, h⟩ := schedule_total p _ hr
      have h' : genPeriodicSchedule p ((rows.map FixedRow.dates).map (fun r => ⟨r.first, r.stop, r.quantity⟩)) none false false =
        .ok res := h
      rw [h', bind_ok]
      exact ⟨_, rfl⟩
    | last =>
      obtain ⟨rfl, rfl⟩ := hflags
      rw [if_neg (by simp), if_neg (by simp)]
      obtain ⟨res, h⟩ := C15_backward_total p _ hr (by simpa using hlast rfl)
      have h' : genPeriodicSchedule p ((rows.map FixedRow.dates).map (fun r => ⟨r.start, r.penultimate, r.quantity⟩)) none true
        false = .ok res := h
      rw [h', bind_ok]
      exact ⟨_, rfl⟩
  obtain ⟨schedule, h⟩ := this
  unfold FixedStream.setup
  rw [h, bind_ok]
  exact ⟨_, rfl⟩

/-- Deviation: if the only coupon of every stream is the irregular first one (first coupon date = end date), there are no
coupons at all, and the price is zero. -/
theorem C65_single_coupon_deviation (p : PeriodType) (convention : DayCount) (hasPenultimate : Bool)
    (rows : List (FixedRow K)) (hrows : ∀ r ∈ rows, ∃ d e, StreamOK .first r.dates d e e) :
    (∀ r ∈ rows, ∀ d e, StreamOK .first r.dates d e e →
      CouponDates p r.dates.quantity (.first e) d e 1 (fun i => if i = 0 then d else e)) ∧
    ∃ s, FixedStream.setup p convention true hasPenultimate rows = .ok s ∧
      ∀ v m, s.price v m = rows.map (fun _ => 0) := by
  refine ⟨fun r _ d e h => ⟨rfl, 0, rfl, fun i hi => absurd hi (by omega), rfl, fun f hf hb => ?_⟩, ?_⟩
  · rw [show r.dates.quantity * ((0 : Nat) : Int) = 0 by simp] at hf
    have := shiftedBy_unique hf (shiftD_spec p 0 e h.stop.1)
    rw [shiftD_zero _ _ h.stop.1] at this
    subst this
    rw [before_iff _ _ h.stop.1 h.stop.1] at hb
    omega
  · have h1 := C15_degenerate_schedule_is_empty p
      ((rows.map FixedRow.dates).map (fun r => (⟨r.first, r.stop, r.quantity⟩ : ScheduleRow)))
      (by
        intro q hq
        obtain ⟨_, hq1, rfl⟩ := List.mem_map.1 hq
        obtain ⟨r, hr, rfl⟩ := List.mem_map.1 hq1
        obtain ⟨d, e, h⟩ := hrows r hr
        exact ⟨e, e, h.inner.1, h.stop, h.inner.2.1, h.inner.2.2, h.quantity⟩)
      (by
        intro q hq
        obtain ⟨_, hq1, rfl⟩ := List.mem_map.1 hq
        obtain ⟨r, hr, rfl⟩ := List.mem_map.1 hq1
        obtain ⟨d, e, h⟩ := hrows r hr
        have e1 : r.dates.first.ordinal = e.number := h.inner.1.2.2.2.2
        have e2 : r.dates.stop.ordinal = e.number := h.stop.2.2.2.2
        simp only [e1, e2])
    have h2 : generateSchedule p true hasPenultimate (rows.map FixedRow.dates) =
        .ok ((rows.map FixedRow.dates).map (fun r => ([r.start], [false]))) := by
      unfold generateSchedule
      rw [if_neg (by simp), if_pos rfl, h1, bind_ok]
      simp only [pure, Except.pure, List.map_map]
      congr 1
      clear h1 hrows
      induction rows with
      | nil => rfl
      | cons r rows ih => simp only [List.map_cons, List.zipWith_cons_cons, ih]; rfl
    have hnum : numCashflows ((rows.map FixedRow.dates).map (fun r => ([r.start], [false]))) = 0 := by
      cases rows <;> rfl
    unfold FixedStream.setup
    rw [h2, bind_ok, hnum]
    refine ⟨_, rfl, fun v m => ?_⟩
    unfold FixedStream.price rowSums
    apply List.ext_getElem?
    intro i
    simp only [Nat.mul_zero, List.drop_zero, List.take_zero, List.sum_nil, List.getElem?_map]
    by_cases hi : i < rows.length
    · rw [List.getElem?_range hi, List.getElem?_eq_getElem hi]; rfl
    · rw [List.getElem?_eq_none (by simpa using hi), List.getElem?_eq_none (by omega)]; rfl

/-- Deviation: with a first coupon date, the penultimate coupon date has no effect. -/
theorem C65_penultimate_ignored_deviation (p : PeriodType) (convention : DayCount) (rows : List (FixedRow K))
    (f : FixedRow K → DateT) :
    FixedStream.setup p convention true true (rows.map (fun r => { r with dates := { r.dates with penultimate := f r } })) =
      FixedStream.setup p convention true false rows := by
  have : generateSchedule p true true ((rows.map (fun r => { r with dates := { r.dates with penultimate := f r } })).map
      FixedRow.dates) = generateSchedule p true false (rows.map FixedRow.dates) := by
    unfold generateSchedule
    rw [if_neg (by simp), if_pos rfl, if_neg (by simp), if_pos rfl]
    simp only [List.map_map]
    congr 1
    funext dates
    rw [List.zipWith_map_left, List.zipWith_map_left]
    rfl
  unfold FixedStream.setup
  rw [this]
  simp [Function.comp_def]

/-! ## Floating coupons -/

/-- The stream of a batch with explicit dates. -/
theorem float_setup (p refType : PeriodType) (convention : DayCount) (hasFirst hasPenultimate : Bool)
    (rows : List (FloatRow K)) (hne : rows ≠ []) (n : Nat) (y : StreamRow → Nat → YMD) (g : Nat → Bool)
    (hval : ∀ r ∈ rows, ∀ i, i ≤ n → (y r.dates i).Valid ∧ 0 < (y r.dates i).number)
    (hq : ∀ r ∈ rows, 0 ≤ r.refQuantity)
    (hs : generateSchedule p hasFirst hasPenultimate (rows.map FloatRow.dates) =
      .ok ((rows.map FloatRow.dates).map
        (fun r => ((List.range (n + 1)).map (fun i => Lemmas.repr (y r i)), (List.range n).map g)))) :
    FloatStream.setup p refType convention hasFirst hasPenultimate rows = .ok {
      batch := rows.length
      num := n
      couponStartDates := rows.flatMap (fun r => (List.range n).map (fun i => Lemmas.repr (y r.dates i)))
      couponEndDates := rows.flatMap (fun r => (List.range n).map (fun i => Lemmas.repr (y r.dates (i + 1))))
      paymentDates := rows.flatMap (fun r => (List.range n).map (fun i => Lemmas.repr (y r.dates (i + 1))))
      accrualStartDates := rows.flatMap (fun r => (List.range n).map (fun i => Lemmas.repr (y r.dates i)))
      accrualEndDates := rows.flatMap (fun r => (List.range n).map (fun i => Lemmas.repr
        (if g i = true then shiftD refType r.refQuantity (y r.dates i) else y r.dates (i + 1))))
      notional := rows.flatMap (fun r => (List.range n).map (fun _ => r.notional))
      daycounts := rows.flatMap (fun r => (List.range n).map (fun i =>
        yearFraction (basisOf convention) (y r.dates i) (y r.dates (i + 1))))
      basis := rows.flatMap (fun r => (List.range n).map (fun _ => r.basis))
      multiplier := rows.flatMap (fun r => (List.range n).map (fun _ => r.multiplier)) } := by
  unfold FloatStream.setup
  rw [hs, bind_ok, List.map_map]
  have hnum := num_eq rows hne n (fun r i => Lemmas.repr (y r.dates i)) (fun _ => (List.range n).map g)
  have hnum' : numCashflows (rows.map ((fun r => ((List.range (n + 1)).map (fun i => Lemmas.repr (y r i)),
      (List.range n).map g)) ∘ FloatRow.dates)) = n := hnum
  rw [zip_map_self, mapM_ok _ (fun q => (List.range n).map (fun i => Lemmas.repr
        (if g i = true then shiftD refType q.1.refQuantity (y q.1.dates i) else y q.1.dates (i + 1)))), bind_ok]
  · rw [hnum']
    dsimp only
    rw [repeatEach_map, repeatEach_map, repeatEach_map, List.map_map, ← List.flatMap_def]
    simp only [pure, Except.pure, List.flatMap_map, Function.comp_apply]
    have e1 : rows.flatMap (fun r => ((List.range (n + 1)).map (fun i => Lemmas.repr (y r.dates i))).dropLast) =
        rows.flatMap (fun r => (List.range n).map (fun i => Lemmas.repr (y r.dates i))) := by
      apply List.flatMap_congr
      intro r _
      rw [dropLast_mapRange]
    have e2 : rows.flatMap (fun r => ((List.range (n + 1)).map (fun i => Lemmas.repr (y r.dates i))).tail) =
        rows.flatMap (fun r => (List.range n).map (fun i => Lemmas.repr (y r.dates (i + 1)))) := by
      apply List.flatMap_congr
      intro r _
      rw [← List.drop_one, drop_mapRange]
    rw [e1, e2]
    congr 2
    apply List.flatMap_congr
    intro r hr
    rw [← List.drop_one, drop_mapRange, dropLast_mapRange, zipWith_mapRange]
    apply List.map_congr_left
    intro i hi
    have := List.mem_range.1 hi
    exact daycount_eq _ _ _ (hval r hr i (by omega)).1 (hval r hr (i + 1) (by omega)).1
  · intro q hq'
    obtain ⟨r, hr, rfl⟩ := List.mem_map.1 hq'
    simp only [Function.comp_apply]
    rw [dropLast_mapRange, mapM_ok _ (fun t => Lemmas.repr (shiftD refType r.refQuantity (dateOf t.ordinal))), bind_ok]
    · rw [List.map_map, ← List.drop_one, drop_mapRange, List.zip_eq_zipWith, zipWith_mapRange, zipWith_mapRange]
      simp only [pure, Except.pure]
      congr 1
      apply List.map_congr_left
      intro i hi
      have hi' := List.mem_range.1 hi
      have hv := (hval r hr i (by omega)).1
      simp only [Function.comp_apply]
      rw [show dateOf (Lemmas.repr (y r.dates i)).ordinal = y r.dates i from dateOf_of_number _ hv]
      by_cases h : g i = true
      · rw [if_pos h, if_pos h]
      · rw [if_neg h, if_neg h]
    · intro t ht
      obtain ⟨i, hi, rfl⟩ := List.mem_map.1 ht
      have hi' := List.mem_range.1 hi
      obtain ⟨hv, hv0⟩ := hval r hr i (by omega)
      rw [show dateOf (Lemmas.repr (y r.dates i)).ordinal = y r.dates i from dateOf_of_number _ hv]
      apply add_eq_shiftD _ _ _ hv
      right; right
      have := shiftD_growth refType r.refQuantity (hq r hr) _ hv
      have h0 : 0 ≤ minDaysInPeriod refType * r.refQuantity :=
        Int.mul_nonneg (by cases refType <;> decide) (hq r hr)
      omega

theorem replicate_flatMap {α β : Type} (rows : List α) (n : Nat) (x : β) :
    List.replicate (rows.length * n) x = rows.flatMap (fun _ => (List.range n).map (fun _ => x)) := by
  induction rows with
  | nil => simp
  | cons r rows ih =>
    rw [List.flatMap_cons, ← ih, List.length_cons, Nat.succ_mul, Nat.add_comm, ← List.replicate_append_replicate]
    simp [List.map_const']

end

section
variable {K : Type} [Field K] [LinearOrder K]

/-- The fixing of the current period. -/
def fixing (m : Market K) : K := m.liborRate.getD 0

theorem libor_broadcast (batch num : Nat) (m : Market K) (h : fixing m = 0 ∨ batch = 1 ∨ num = 1) :
    broadcast (batch * num) (liborFixings batch num m) = .ok (List.replicate (batch * num) (fixing m)) := by
  unfold liborFixings fixing at *
  cases hm : m.liborRate with
  | none => simp [broadcast]
  | some rate =>
    rw [hm] at h
    simp only [Option.getD_some] at h ⊢
    by_cases h0 : rate = 0
    · simp [broadcast, h0]
    · rw [if_neg h0]
      rcases h with h | h | h
      · exact absurd h h0
      · subst h; simp [broadcast]
      · subst h
        unfold broadcast
        by_cases hb : batch = 1
        · subst hb; simp
        · rw [if_neg (by simp; omega)]; simp

end

section
variable {K : Type} [Field K] [LinearOrder K]

open Classical in
/-- What the code computes for one coupon: a fixed amount for a current coupon, the forward rate of the reference period for a
future one, and zero for a past one. -/
noncomputable def codeRate (R : YMD → K) (L : K) (v : YMD) (τ : K) (start stop accrualEnd : YMD) : K :=
  if stop.Before v then 0 else if start.Before v then L else if 0 < τ then (R start / R accrualEnd - 1) / τ else 0

theorem lt_iff (d v : YMD) (hd : d.Valid) (hv : v.Valid) : (Lemmas.repr d).lt (Lemmas.repr v) = true ↔ d.Before v := by
  rw [before_iff d v hd hv]
  exact decide_eq_true_iff

/-- The price of a stream of floating coupons, as computed. -/
theorem float_price (p refType : PeriodType) (convention : DayCount) (kind : StubKind) (hasFirst hasPenultimate : Bool)
    (hflags : kind.flags hasFirst hasPenultimate) (rows : List (FloatRow K))
    (hrows : ∀ r ∈ rows, ∃ d e f, StreamOK kind r.dates d e f) (hq : ∀ r ∈ rows, 0 < r.refQuantity)
    (hne : ∃ r ∈ rows, (kind.inner r.dates).start.ordinal < (kind.inner r.dates).stop.ordinal)
    (s : FloatStream K) (hs : FloatStream.setup p refType convention hasFirst hasPenultimate rows = .ok s) :
    ∃ (k : FloatRow K → Nat) (c a : FloatRow K → Nat → YMD),
      (∀ r ∈ rows, (∀ j, j ≤ k r → (c r j).Valid) ∧ ∀ d e f, StreamOK kind r.dates d e f →
        CouponDates p r.dates.quantity (kind.stub f) d e (k r) (c r) ∧
        ∀ j, j < k r → ((kind.stub f).irregular (k r) j → a r j = c r (j + 1)) ∧
          (¬ (kind.stub f).irregular (k r) j → ShiftedBy refType r.refQuantity (c r j) (a r j))) ∧
      ∀ (v : DateT) (vd : YMD) (m : Market K) (R D : YMD → K), Represents v vd → Quotes m R D →
        (fixing m = 0 ∨ rows.length = 1 ∨ s.num = 1) →
        s.price v m = .ok (rows.map (fun r => ∑ j ∈ Finset.range (k r),
          r.notional * (yearFraction (basisOf convention) (c r j) (c r (j + 1)) *
            (r.multiplier * (codeRate R (fixing m) vd (yearFraction (basisOf convention) (c r j) (c r (j + 1)))
              (c r j) (c r (j + 1)) (a r j) + r.basis)) * D (c r (j + 1))))) := by
  have hne0 : rows ≠ [] := by obtain ⟨r, hr, _⟩ := hne; exact List.ne_nil_of_mem hr
  have hsched : ∃ schedule, generateSchedule p hasFirst hasPenultimate (rows.map FloatRow.dates) = .ok schedule := by
    unfold FloatStream.setup at hs
    rw [bind_ok_iff] at hs
    exact ⟨_, hs.choose_spec.1⟩
  obtain ⟨schedule, hsch⟩ := hsched
  obtain ⟨n, o, k, y, rfl, hy⟩ := stream_dates p kind hasFirst hasPenultimate hflags (rows.map FloatRow.dates)
    (by intro q hq; obtain ⟨r, hr, rfl⟩ := List.mem_map.1 hq; exact hrows r hr)
    (by obtain ⟨r, hr, h⟩ := hne; exact ⟨_, List.mem_map.2 ⟨r, hr, rfl⟩, h⟩) hsch
  have hy' : ∀ r ∈ rows, _ := fun r hr => hy _ (List.mem_map.2 ⟨r, hr, rfl⟩)
  rw [float_setup p refType convention hasFirst hasPenultimate rows hne0 n y (kind.regular n)
    (fun r hr i hi => (hy' r hr).2.1 i hi) (fun r hr => le_of_lt (hq r hr)) hsch] at hs
  simp only [Except.ok.injEq] at hs
  have hacc : ∀ r ∈ rows, ∀ i, i < n → (if kind.regular n i = true then shiftD refType r.refQuantity (y r.dates i)
      else y r.dates (i + 1)).Valid := by
    intro r hr i hi
    by_cases h : kind.regular n i = true
    · rw [if_pos h]; exact shiftD_valid _ _ _ ((hy' r hr).2.1 i (by omega)).1
    · rw [if_neg h]; exact ((hy' r hr).2.1 (i + 1) (by omega)).1
  refine ⟨fun r => k r.dates, fun r i => y r.dates (o r.dates + i), fun r j =>
    if kind.regular n (o r.dates + j) = true then shiftD refType r.refQuantity (y r.dates (o r.dates + j))
      else y r.dates (o r.dates + j + 1), fun r hr => ⟨?_, fun d e f h => ⟨(hy' r hr).2.2.2.2.2 d e f h, ?_⟩⟩, ?_⟩
  · intro j hj
    have h1 := (hy' r hr).1
    beta_reduce at hj ⊢
    exact ((hy' r hr).2.1 _ (by omega)).1
  · intro j hj
    obtain ⟨h1, h2, h3, h4, h5, _⟩ := hy' r hr
    have hv := (h2 (o r.dates + j) (by beta_reduce at hj; omega)).1
    beta_reduce at hj ⊢
    have hirr : (kind.stub f).irregular (k r.dates) j ↔ ¬ kind.regular n (o r.dates + j) = true := by
      cases kind with
      | none => simp [StubKind.stub, Stub.irregular, StubKind.regular]
      | first =>
        simp only at h5
        simp [StubKind.stub, Stub.irregular, StubKind.regular, h5]
      | last =>
        simp only at h5
        simp only [StubKind.stub, Stub.irregular, StubKind.regular, bne_iff_ne, ne_eq, not_not]
        omega
    refine ⟨fun hi => ?_, fun hi => ?_⟩
    · rw [if_neg (hirr.1 hi)]; rfl
    · rw [if_pos (not_not.1 (fun h => hi (hirr.2 h)))]
      exact shiftD_spec _ _ _ hv
  intro v vd m R D hv hm hfix
  obtain ⟨hvv, rfl⟩ := (represents_iff _ _).1 hv
  subst hs
  unfold FloatStream.price
  dsimp only at hfix ⊢
  rw [libor_broadcast _ _ _ hfix, bind_ok, replicate_flatMap]
  simp only [List.map_flatMap, List.map_map, List.zip_eq_zipWith]
  repeat rw [zipWith_flatMap _ _ _ _ (by simp)]
  rw [rowSums_flatMap _ _ _ (by simp)]
  simp only [pure, Except.pure]
  congr 1
  apply List.map_congr_left
  intro r hr
  obtain ⟨h1, h2, h3, h4, _⟩ := hy' r hr
  simp only [zipWith_mapRange, Function.comp_apply]
  rw [sum_mapRange', sum_window' _ n (o r.dates) (k r.dates) h1]
  · apply Finset.sum_congr rfl
    intro j hj
    have hj' := Finset.mem_range.1 hj
    have hv0 := (h2 (o r.dates + j) (by omega)).1
    have hvj := (h2 (o r.dates + j + 1) (by omega)).1
    rw [show o r.dates + (j + 1) = o r.dates + j + 1 by omega]
    have hD : m.discount (Lemmas.repr (y r.dates (o r.dates + j + 1))) = D (y r.dates (o r.dates + j + 1)) :=
      (hm _ _ ((represents_iff _ _).2 ⟨hvj, rfl⟩)).2
    have hR0 : m.reference (Lemmas.repr (y r.dates (o r.dates + j))) = R (y r.dates (o r.dates + j)) :=
      (hm _ _ ((represents_iff _ _).2 ⟨hv0, rfl⟩)).1
    have hR1 := (hm _ _ ((represents_iff _ _).2 ⟨hacc r hr (o r.dates + j) (by omega), rfl⟩)).1
    have hlt := lt_iff _ _ hvj hvv
    have hlt0 := lt_iff _ _ hv0 hvv
    unfold couponForward codeRate curveForward forwardRate
    dsimp only
    rw [hD, hR0, hR1]
    by_cases hb : (y r.dates (o r.dates + j + 1)).Before vd
    · rw [if_pos (hlt.2 hb), if_pos hb]
    · rw [if_neg (mt hlt.1 hb), if_neg hb]
      by_cases hb0 : (y r.dates (o r.dates + j)).Before vd
      · rw [if_pos (hlt0.2 hb0), if_pos hb0]
      · rw [if_neg (mt hlt0.1 hb0), if_neg hb0]
  · intro i hi
    rw [h3 i hi, yearFraction_self _ _ (h2 (i + 1) (by omega)).1]
    simp
  · intro i hi hn
    rw [h4 i hi hn, yearFraction_self _ _ (h2 (i + 1) (by omega)).1]
    simp

end

/-! ## Examples -/

/-- A date. -/
def exDate (y m d : Int) : DateT := Lemmas.repr ⟨y, m, d⟩

/-- A curve without fixing: the discount factor `n` days after 2020-01-01 is `1 / (1 + n/10000)`. -/
def exMarket (fixing : Option ℚ) : Market ℚ :=
  ⟨fun t => 1 / (1 + (t.ordinal - 737425) / 10000), fun t => 1 / (1 + (t.ordinal - 737425) / 10000), fixing⟩

/-- Two streams, with 2 and 5 coupons, of which 1 and 2 are in the past. -/
def exFixed : List (FixedRow ℚ) :=
  [⟨⟨exDate 2020 1 1, exDate 2021 1 1, 6, exDate 2020 1 1, exDate 2020 1 1⟩, 100, 1 / 50⟩,
   ⟨⟨exDate 2020 1 31, exDate 2021 2 15, 3, exDate 2020 1 1, exDate 2020 1 1⟩, 200, 1 / 50⟩]

example : ((FixedStream.setup .MONTH .actual365 false false exFixed).map
    (fun s => s.price (exDate 2020 8 1) (exMarket none))).toOption =
    some [100 * (1 / 50) * (184 / 365) * (1 / (1 + 366 / 10000)),
      200 * (1 / 50) * (92 / 365) * (1 / (1 + 304 / 10000)) + 200 * (1 / 50) * (92 / 365) * (1 / (1 + 396 / 10000))
        + 200 * (1 / 50) * (15 / 365) * (1 / (1 + 411 / 10000))] := by
  decide +kernel

example : ∀ r ∈ exFixed, ∃ d e f, StreamOK .none r.dates d e f := by
  intro r hr
  simp only [exFixed, List.mem_cons, List.not_mem_nil, or_false] at hr
  rcases hr with rfl | rfl
  · exact ⟨⟨2020, 1, 1⟩, ⟨2021, 1, 1⟩, ⟨2020, 1, 1⟩, (represents_iff _ _).2 ⟨by decide, rfl⟩,
      (represents_iff _ _).2 ⟨by decide, rfl⟩, by decide, by decide, by
        show ¬ YMD.Before _ _
        rw [before_iff _ _ (by decide) (by decide)]; decide⟩
  · exact ⟨⟨2020, 1, 31⟩, ⟨2021, 2, 15⟩, ⟨2020, 1, 1⟩, (represents_iff _ _).2 ⟨by decide, rfl⟩,
      (represents_iff _ _).2 ⟨by decide, rfl⟩, by decide, by decide, by
        show ¬ YMD.Before _ _
        rw [before_iff _ _ (by decide) (by decide)]; decide⟩

example : ((FixedStream.setup .MONTH .actual365 true false
      [(⟨⟨exDate 2020 1 1, exDate 2021 1 1, 6, exDate 2021 1 1, exDate 2020 1 1⟩, 100, 1 / 50⟩ : FixedRow ℚ)]).map
    (fun s => s.price (exDate 2020 1 1) (exMarket none))).toOption = some [0] := by
  decide +kernel

/-- Two different penultimate dates, the same stream. -/
example : ((FixedStream.setup .MONTH .actual365 true true
      [(⟨⟨exDate 2020 1 1, exDate 2021 3 1, 6, exDate 2020 3 1, exDate 2020 9 1⟩, 100, 1 / 50⟩ : FixedRow ℚ)]).map
    (fun s => s.paymentDates)).toOption =
    ((FixedStream.setup .MONTH .actual365 true true
      [(⟨⟨exDate 2020 1 1, exDate 2021 3 1, 6, exDate 2020 3 1, exDate 2021 2 1⟩, 100, 1 / 50⟩ : FixedRow ℚ)]).map
    (fun s => s.paymentDates)).toOption := by
  decide +kernel

end Props
