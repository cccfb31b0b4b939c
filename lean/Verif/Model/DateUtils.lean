/-!
# Model of `tf_quant_finance/datetime/date_utils.py`

Tensors of int32 are modelled element-wise by `Int` (no overflow).  TF's `//` and `%` on
integers are floor division and modulo; all divisors here are positive constants, for which
Lean's `Int` division and modulo are the same functions.
-/

namespace Model

/-- `date_utils.py` L18 `_DAYS_IN_ERA`. -/
def daysInEra : Int := 146097
/-- `date_utils.py` L19 `_YEARS_IN_ERA`. -/
def yearsInEra : Int := 400
/-- `date_utils.py` L20 `_DAYS_IN_YEAR` (non-leap). -/
def daysInYear : Int := 365
/-- `date_utils.py` L21 `_DAYS_IN_4_YEARS`. -/
def daysIn4Years : Int := 1461
/-- `date_utils.py` L22 `_DAYS_IN_100_YEARS`. -/
def daysIn100Years : Int := 36524
/-- `date_utils.py` L23 `_ORDINAL_OF_1_3_0000` (1 March of year 0). -/
def ordinalOf1_3_0000 : Int := -305

/-- `date_utils.py` L26-32 `_day_of_year_to_month` (years starting on 1 March, months from 0). -/
def dayOfYearToMonth (dayOfYear : Int) : Int := (5 * dayOfYear + 2) / 153

/-- `date_utils.py` L35-38 `_days_in_year_before_month`. -/
def daysInYearBeforeMonth (month : Int) : Int := (153 * month + 2) / 5

/-- `date_utils.py` L41-75 `ordinal_to_year_month_day`; returns `(year, month, day)`. -/
def ordinalToYearMonthDay (ordinal : Int) : Int × Int × Int :=
  let o := ordinal - ordinalOf1_3_0000
  let era := o / daysInEra
  let dayOfEra := o % daysInEra
  let yearOfEra :=
    (dayOfEra - dayOfEra / (daysIn4Years - 1) + dayOfEra / daysIn100Years
      - dayOfEra / (daysInEra - 1)) / daysInYear
  let year := yearOfEra + era * yearsInEra
  let dayOfYear := dayOfEra - (daysInYear * yearOfEra + yearOfEra / 4 - yearOfEra / 100)
  let months := dayOfYearToMonth dayOfYear
  let days := dayOfYear - daysInYearBeforeMonth months + 1
  let months := months + (if months < 10 then 3 else -9)
  let year := year + (if months ≤ 2 then 1 else 0)
  (year, months, days)

/-- `date_utils.py` L78-111 `year_month_day_to_ordinal`. -/
def yearMonthDayToOrdinal (year month day : Int) : Int :=
  let year := year - (if month ≤ 2 then 1 else 0)
  let month := month + (if month > 2 then -3 else 9)
  let era := year / yearsInEra
  let yearOfEra := year % yearsInEra
  let dayOfYear := daysInYearBeforeMonth month + day - 1
  let dayOfEra := yearOfEra * daysInYear + yearOfEra / 4 - yearOfEra / 100 + dayOfYear
  era * daysInEra + dayOfEra + ordinalOf1_3_0000

/-- `date_utils.py` L114-127 `is_leap_year`. -/
def isLeapYear (y : Int) : Bool :=
  (y % 4 == 0) && ((y % 100 != 0) || (y % 400 == 0))

end Model
