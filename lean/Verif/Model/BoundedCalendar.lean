import Verif.Model.DateTensor

/-!
# Model of `tf_quant_finance/datetime/bounded_holiday_calendar.py`

Element-wise model of the table based calendar.  The table cache (L411-426) is not modelled: tables
are recomputed (they are functions of the constructor arguments only).  Name scopes, graph mode and
broadcasting are not modelled.
-/

namespace Model

/-- `constants.py` L55-74 `BusinessDayConvention`. -/
inductive BusinessDayConvention
  | NONE | FOLLOWING | MODIFIED_FOLLOWING | PRECEDING | MODIFIED_PRECEDING
deriving DecidableEq, Repr

/-- The resolved state of a `BoundedHolidayCalendar` after `__init__` (L68-79):
`weekend_mask` (seven integers, Monday first), holiday ordinals, `_ordinal_offset`,
`_calendar_size`. -/
structure BoundedCal where
  mask : List Nat
  holidays : List Int
  offset : Int
  size : Int
deriving DecidableEq, Repr

/-- `constants.py` L83 `WeekendMask.NONE`. -/
def weekendMaskNone : List Nat := [0, 0, 0, 0, 0, 0, 0]

/-- `tf.math.reduce_min`/`reduce_max` of a non-empty list. -/
def listMin : List Int → Int
  | [] => 0
  | a :: t => t.foldl min a
/-- See `listMin`. -/
def listMax : List Int → Int
  | [] => 0
  | a :: t => t.foldl max a

/-- `bounded_holiday_calendar.py` L400-408 `_resolve_calendar_boundaries`
(statically known shapes). -/
def resolveCalendarBoundaries (holidays : Option (List DateT)) (startYear endYear : Option Int) :
    Except String (Int × Int) :=
  match holidays with
  | some (h :: t) => .ok (listMin ((h :: t).map DateT.year), listMax ((h :: t).map DateT.year))
  | _ =>
    match startYear, endYear with
    | some s, some e => .ok (s, e)
    | _, _ => .error "Please specify either holidays or both start_year and end_year arguments"

/-- `bounded_holiday_calendar.py` L40-87 `__init__`. -/
def BoundedCal.init (weekendMask : Option (List Nat)) (holidays : Option (List DateT))
    (startYear endYear : Option Int) : Except String BoundedCal := do
  let mask := weekendMask.getD weekendMaskNone
  let (s, e) ← resolveCalendarBoundaries holidays startYear endYear
  let first ← fromYearMonthDay s 1 1
  let last ← fromYearMonthDay (e + 1) 1 1
  return { mask := mask, holidays := (holidays.getD []).map DateT.ordinal,
           offset := first.ordinal, size := last.ordinal - first.ordinal }

namespace BoundedCal
variable (c : BoundedCal)

/-- L333-342: the holiday flag of one ordinal: weekend mask entry (bitwise) or'ed with the
`scatter_nd` of ones, which *adds up* repeated holidays. The mask has seven entries (documented);
the default 0 is never used for such a mask. -/
def isHoliday (o : Int) : Nat :=
  (c.mask.getD ((o - 1) % 7).toNat 0) ||| (c.holidays.count o)

/-- L325-356 `_compute_is_bus_day_table`. -/
def isBusDayTable : List Int :=
  [1] ++ (List.range c.size.toNat).map (fun (k : Nat) => 1 - (c.isHoliday (c.offset + k) : Int)) ++ [1]

/-- L358-367 `_compute_cumul_bus_days_table`. -/
def cumulBusDaysTable : List Int := cumsumExclusive c.isBusDayTable

/-- `tf.where(t)[:, 0]`: indices of the non-zero entries, in order. -/
def whereNonzero (t : List Int) : List Int :=
  ((List.range t.length).filter (fun k => t.getD k 0 != 0)).map Int.ofNat

/-- L369-379 `_compute_bus_day_ordinals_table`. -/
def busDayOrdinalsTable : List Int :=
  (whereNonzero c.isBusDayTable).map (fun i => i + c.offset - 1)

/-- L381-388 `_gather`. -/
def gatherTable (table : List Int) (i : Int) : Except String Int :=
  if ¬ (0 ≤ i) then .error "Went out of calendar boundaries!"
  else if ¬ (i < c.size + 2) then .error "Went out of calendar boundaries!"
  else gather table i

/-- L390-397 `_assert_ordinals_in_bounds`. -/
def assertInBounds (o : Int) : Except String Unit :=
  if ¬ (c.offset ≤ o) then .error "Went out of calendar boundaries!"
  else if ¬ (o < c.offset + c.size) then .error "Went out of calendar boundaries!"
  else .ok ()

/-- L89-97 `is_business_day`. -/
def isBusinessDay (t : DateT) : Except String Bool := do
  let v ← c.gatherTable c.isBusDayTable (t.ordinal - c.offset + 1)
  c.assertInBounds t.ordinal
  return v != 0

/-- L298-299: entry `i` of the FOLLOWING table. -/
def followingEntry (i : Int) : Except String Int := do
  let k ← gather c.cumulBusDaysTable i
  gather c.busDayOrdinalsTable k

/-- L301-303: entry `i` of the PRECEDING table. -/
def precedingEntry (i : Int) : Except String Int := do
  let k ← gather c.cumulBusDaysTable i
  let b ← gather c.isBusDayTable i
  gather c.busDayOrdinalsTable (k - (1 - b))

/-- L293-323 `_compute_rolled_dates_table_without_cache`, entry `i`.  The tables are computed
entry by entry here; computing the MODIFIED tables converts every ordinal of the table, starting
with `_ordinal_offset - 1`, with validation (L309-313), hence fails as a whole when that ordinal
is not positive. -/
def rolledEntry (conv : BusinessDayConvention) (i : Int) : Except String Int :=
  match conv with
  | .NONE => .error "Unrecognized convention"
  | .FOLLOWING => c.followingEntry i
  | .PRECEDING => c.precedingEntry i
  | .MODIFIED_FOLLOWING => do
    let _ ← fromOrdinals (c.offset - 1)
    let f ← c.followingEntry i
    let p ← c.precedingEntry i
    let df ← fromOrdinals f
    let _dp ← fromOrdinals p
    let orig ← fromOrdinals (c.offset - 1 + i)
    return if df.month = orig.month then f else p
  | .MODIFIED_PRECEDING => do
    let _ ← fromOrdinals (c.offset - 1)
    let f ← c.followingEntry i
    let p ← c.precedingEntry i
    let _df ← fromOrdinals f
    let dp ← fromOrdinals p
    let orig ← fromOrdinals (c.offset - 1 + i)
    return if dp.month = orig.month then p else f

/-- L99-117 `roll_to_business_day` (`_gather`'s bounds assertion, then the table entry). -/
def roll (t : DateT) (conv : BusinessDayConvention) : Except String DateT :=
  match conv with
  | .NONE => .ok t
  | conv => do
    let i := t.ordinal - c.offset + 1
    if ¬ (0 ≤ i) then throw "Went out of calendar boundaries!"
    if ¬ (i < c.size + 2) then throw "Went out of calendar boundaries!"
    let r ← c.rolledEntry conv i
    c.assertInBounds r
    fromOrdinals r (validate := false)

/-- L119-137 `add_period_and_roll`. -/
def addPeriodAndRoll (t : DateT) (p : Period) (conv : BusinessDayConvention) :
    Except String DateT := do
  let t' ← t.add p
  c.roll t' conv

/-- L139-184 `add_business_days`. -/
def addBusinessDays (t : DateT) (numDays : Int) (conv : BusinessDayConvention) :
    Except String DateT := do
  let t ← (if conv = .NONE then do
      let b ← c.isBusinessDay t
      if b then .ok t
      else .error "Some dates in date_tensor are not business days."
    else c.roll t conv)
  let cum ← c.gatherTable c.cumulBusDaysTable (t.ordinal - c.offset + 1)
  let target := cum + numDays
  let o ← c.gatherTable c.busDayOrdinalsTable target
  c.assertInBounds o
  fromOrdinals o (validate := false)

/-- L209-235 `subtract_business_days`. -/
def subtractBusinessDays (t : DateT) (numDays : Int) (conv : BusinessDayConvention) :
    Except String DateT := c.addBusinessDays t (-numDays) conv

/-- L254-280 `business_days_between`. -/
def businessDaysBetween (a b : DateT) : Except String Int := do
  c.assertInBounds a.ordinal
  c.assertInBounds b.ordinal
  let k1 ← c.gatherTable c.cumulBusDaysTable (a.ordinal - c.offset + 1)
  let k2 ← c.gatherTable c.cumulBusDaysTable (b.ordinal - c.offset + 1)
  return max (k2 - k1) 0

/-- L237-252 `business_days_in_period`. -/
def businessDaysInPeriod (t : DateT) (p : Period) : Except String Int := do
  let t' ← t.add p
  c.businessDaysBetween t t'

end BoundedCal

end Model
