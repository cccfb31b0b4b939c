import Mathlib.Algebra.Field.Defs
import Verif.Model.DateTensor

/-!
# Model of `tf_quant_finance/datetime/daycounts.py`

The float dtype is a field `K`; integers are cast exactly and division is exact.
-/

namespace Model
variable (K : Type) [Field K]

/-- `daycounts.py` L55-92 `actual_360`. -/
def actual360 (s e : DateT) : K := ((s.daysUntil e : Int) : K) / 360

/-- `daycounts.py` L95-132 `actual_365_fixed`. -/
def actual365Fixed (s e : DateT) : K := ((s.daysUntil e : Int) : K) / 365

/-- `daycounts.py` L135-180 `actual_365_actual`. -/
def actual365Actual (s e : DateT) : Except String K := do
  let s' ← s.add ⟨1, .DAY⟩
  let e' ← e.add ⟨1, .DAY⟩
  let denominator : Int := if leapDaysBetween s' e' > 0 then 366 else 365
  return ((s.daysUntil e : Int) : K) / (denominator : K)

/-- `daycounts.py` L183-251 `thirty_360_isda`. -/
def thirty360Isda (s e : DateT) : K :=
  let d1 := min s.day 30
  let d2 := if d1 = 30 ∧ e.day = 31 then 30 else e.day
  ((d2 - d1 + (e.month - s.month) * 30 + (e.year - s.year) * 360 : Int) : K) / 360

/-- `daycounts.py` L254-300 `actual_actual_isda`. -/
def actualActualIsda (s e : DateT) : Except String K := do
  let (leap, nonleap) ← daysInLeapAndNonleapYearsBetween s e
  return (leap : K) / 366 + (nonleap : K) / 365

end Model
