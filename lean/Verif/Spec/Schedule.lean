import Verif.Spec.Gregorian
import Verif.Model.DateTensor

/-!
# Specification: shifting a date by a number of calendar units
-/

namespace Spec

/-- `e` is the date `d` shifted by `n` units (days, weeks, months, years; `n` may be negative).  For
months and years the day is clamped to the length of the target month. -/
def ShiftedBy (u : Model.PeriodType) (n : Int) (d e : YMD) : Prop :=
  e.Valid ∧
  match u with
  | .DAY => e.number = d.number + n
  | .WEEK => e.number = d.number + 7 * n
  | .MONTH => 12 * e.year + e.month = 12 * d.year + d.month + n ∧
      e.day = min d.day (monthLength e.year e.month)
  | .YEAR => e.year = d.year + n ∧ e.month = d.month ∧
      e.day = min d.day (monthLength e.year e.month)

end Spec
