import Verif.Model.DateUtils

/-!
# Model of `tf_quant_finance/datetime/date_tensor.py`

One element of a `DateTensor` (all operations modelled here are element-wise).  TF assertion
failures and out-of-range gathers are the error values of `Except`.
-/

namespace Model

/-- `tf.gather` on a list with TF's (CPU) error on an index out of range. -/
def gather (table : List Int) (i : Int) : Except String Int :=
  if i < 0 then .error "index out of range"
  else match table[i.toNat]? with
    | some v => .ok v
    | none => .error "index out of range"

/-- `tf.math.cumsum(..., exclusive=True)`. -/
def cumsumExclusive (l : List Int) : List Int := go 0 l
where go (acc : Int) : List Int → List Int
  | [] => []
  | a :: t => acc :: go (acc + a) t

/-- `date_tensor.py` L25-38 `_DAYS_IN_MONTHS_NON_LEAP`. -/
def daysInMonthsNonLeap : List Int := [31, 28, 31, 30, 31, 30, 31, 31, 30, 31, 30, 31]
/-- `date_tensor.py` L41-54 `_DAYS_IN_MONTHS_LEAP`. -/
def daysInMonthsLeap : List Int := [31, 29, 31, 30, 31, 30, 31, 31, 30, 31, 30, 31]
/-- `date_tensor.py` L58 `_DAYS_IN_MONTHS_COMBINED`. -/
def daysInMonthsCombined : List Int := [0] ++ daysInMonthsNonLeap ++ daysInMonthsLeap

/-- `date_tensor.py` L61 `_ORDINAL_OF_1_1_1970`. -/
def ordinalOf1_1_1970 : Int := 719163

/-- One element of a `DateTensor`, `date_tensor.py` L64-109: the redundant quadruple. -/
structure DateT where
  ordinal : Int
  year : Int
  month : Int
  day : Int
deriving DecidableEq, Repr

/-- `constants.py` L47-52 `PeriodType`. -/
inductive PeriodType | DAY | WEEK | MONTH | YEAR
deriving DecidableEq, Repr

/-- One element of a `PeriodTensor` (`periods/period_tensors.py`). -/
structure Period where
  quantity : Int
  type : PeriodType
deriving DecidableEq, Repr

/-- `date_tensor.py` L413-418 `_num_days_in_month`. -/
def numDaysInMonth (month year : Int) : Except String Int :=
  gather daysInMonthsCombined (month + 12 * (if isLeapYear year then 1 else 0))

/-- `date_tensor.py` L566-625 `from_year_month_day`.  The order of the assertions among each other
is irrelevant in the model (any failing assertion is an error). -/
def fromYearMonthDay (year month day : Int) (validate : Bool := true) : Except String DateT := do
  if validate then
    if ¬ (0 < year) then throw "Year must be positive."
    if ¬ (1 ≤ month) then throw "Month must be >= 1"
    if ¬ (month ≤ 12) then throw "Month must be <= 12"
    if ¬ (0 < day) then throw "Day must be positive."
    let maxDays ← numDaysInMonth month year
    if ¬ (day ≤ maxDays) then throw "Invalid day-month pairing."
  return ⟨yearMonthDayToOrdinal year month day, year, month, day⟩

/-- `date_tensor.py` L628-662 `from_ordinals`. -/
def fromOrdinals (ordinal : Int) (validate : Bool := true) : Except String DateT := do
  if validate then
    if ¬ (0 < ordinal) then throw "Ordinals must be positive."
  let ymd := ordinalToYearMonthDay ordinal
  return ⟨ordinal, ymd.1, ymd.2.1, ymd.2.2⟩

/-- `date_tensor.py` L180-201 `to_tensor`: the last axis as a list. -/
def DateT.toTensor (t : DateT) : List Int := [t.year, t.month, t.day]

/-- `date_tensor.py` L665-691 `from_tensor` (last axis shorter than 3 is an indexing error). -/
def fromTensor (l : List Int) (validate : Bool := true) : Except String DateT :=
  match l with
  | y :: m :: d :: _ => fromYearMonthDay y m d validate
  | _ => .error "slice index out of bounds"

/-- `date_tensor.py` L507-534 `from_np_datetimes` (argument: days since 1970-01-01, numpy's
`datetime64[D]` integer value). -/
def fromNpDatetimes (days : Int) : Except String DateT :=
  fromOrdinals (days + ordinalOf1_1_1970) (validate := false)

/-- `date_tensor.py` L125-140 `day_of_week`. -/
def DateT.dayOfWeek (t : DateT) : Int := (t.ordinal - 1) % 7

/-- `date_tensor.py` L203-230 `day_of_year`. -/
def DateT.dayOfYear (t : DateT) : Except String Int := do
  let nonLeap ← gather (cumsumExclusive daysInMonthsNonLeap) (t.month - 1)
  let leap ← gather (cumsumExclusive daysInMonthsLeap) (t.month - 1)
  let daysBeforeMonth := if isLeapYear t.year then leap else nonLeap
  return daysBeforeMonth + t.day

/-- `date_tensor.py` L232-253 `days_until`. -/
def DateT.daysUntil (t target : DateT) : Int := target.ordinal - t.ordinal

/-- `date_tensor.py` L276-279 `is_end_of_month`. -/
def DateT.isEndOfMonth (t : DateT) : Except String Bool := do
  let n ← numDaysInMonth t.month t.year
  return t.day == n

/-- `date_tensor.py` L281-284 `to_end_of_month`. -/
def DateT.toEndOfMonth (t : DateT) : Except String DateT := do
  let n ← numDaysInMonth t.month t.year
  fromYearMonthDay t.year t.month n (validate := false)

/-- `date_tensor.py` L328-329 `adjust_day`. -/
def adjustDay (year month day : Int) : Except String Int := do
  let n ← numDaysInMonth month year
  return min day n

/-- `date_tensor.py` L294-345 `__add__`. -/
def DateT.add (t : DateT) (p : Period) : Except String DateT :=
  match p.type with
  | .DAY => fromOrdinals (t.ordinal + p.quantity)
  | .WEEK => fromOrdinals (t.ordinal + p.quantity * 7)
  | .MONTH => do
    let m := t.month - 1 + p.quantity
    let y := t.year + m / 12
    let m := m % 12 + 1
    let d ← adjustDay y m t.day
    fromYearMonthDay y m d (validate := false)
  | .YEAR => do
    let y := t.year + p.quantity
    let m := t.month
    let d ← adjustDay y m t.day
    fromYearMonthDay y m d (validate := false)

/-- `date_tensor.py` L347-361 `__sub__`. -/
def DateT.sub (t : DateT) (p : Period) : Except String DateT := t.add ⟨-p.quantity, p.type⟩

/-- `date_tensor.py` L255-274 `period_length_in_days`. -/
def DateT.periodLengthInDays (t : DateT) (p : Period) : Except String Int := do
  let t' ← t.add p
  return t'.ordinal - t.ordinal

/-- `date_tensor.py` L363-366 `__eq__`. -/
def DateT.eq (a b : DateT) : Bool := a.ordinal == b.ordinal
/-- `date_tensor.py` L368-370 `__ne__`. -/
def DateT.ne (a b : DateT) : Bool := a.ordinal != b.ordinal
/-- `date_tensor.py` L380-383 `__lt__`. -/
def DateT.lt (a b : DateT) : Bool := decide (a.ordinal < b.ordinal)
/-- `date_tensor.py` L385-387 `__le__`. -/
def DateT.le (a b : DateT) : Bool := decide (a.ordinal ≤ b.ordinal)
/-- `date_tensor.py` L372-374 `__gt__`. -/
def DateT.gt (a b : DateT) : Bool := decide (a.ordinal > b.ordinal)
/-- `date_tensor.py` L376-378 `__ge__`. -/
def DateT.ge (a b : DateT) : Bool := decide (a.ordinal ≥ b.ordinal)

/-- `date_utils.py` L148-155 `days_in_leap_years_since_1jan0001`. -/
def daysInLeapYearsSince1Jan0001 (t : DateT) : Except String Int := do
  let prevYear := t.year - 1
  let leapYearsBefore := prevYear / 4 - prevYear / 100 + prevYear / 400
  let nLeapDays := leapYearsBefore * 366
  let doy ← t.dayOfYear
  let daysInCurYear := doy - 1
  return nLeapDays + (if isLeapYear t.year then daysInCurYear else 0)

/-- `date_utils.py` L130-158 `days_in_leap_years_between`. -/
def daysInLeapYearsBetween (s e : DateT) : Except String Int := do
  let a ← daysInLeapYearsSince1Jan0001 e
  let b ← daysInLeapYearsSince1Jan0001 s
  return a - b

/-- `date_utils.py` L161-184 `days_in_leap_and_nonleap_years_between`. -/
def daysInLeapAndNonleapYearsBetween (s e : DateT) : Except String (Int × Int) := do
  let daysBetween := e.ordinal - s.ordinal
  let inLeap ← daysInLeapYearsBetween s e
  return (inLeap, daysBetween - inLeap)

/-- `date_utils.py` L206-211 `leap_days_since_year_0`. -/
def leapDaysSinceYear0 (t : DateT) : Int :=
  let leapYearsSince0 := t.year / 4 - t.year / 100 + t.year / 400
  leapYearsSince0 - (if isLeapYear t.year && decide (t.month ≤ 2) then 1 else 0)

/-- `date_utils.py` L187-212 `leap_days_between`. -/
def leapDaysBetween (s e : DateT) : Int := leapDaysSinceYear0 e - leapDaysSinceYear0 s

end Model
