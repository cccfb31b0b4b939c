import Verif.Model.BoundedCalendar
import Verif.Model.UnboundedCalendar

/-!
# Model of `tf_quant_finance/datetime/schedules.py`

A batch is a list of rows (the broadcasting of the inputs to a common batch shape and the extra
last axis are not modelled); every row of the result is a list of dates.
-/

namespace Model

/-- `schedules.py` L22-27 `_MIN_DAYS_IN_PERIOD`. -/
def minDaysInPeriod : PeriodType → Int
  | .DAY => 1
  | .WEEK => 7
  | .MONTH => 28
  | .YEAR => 365

/-- One row of the batch: start date, end date, quantity of the tenor. -/
structure ScheduleRow where
  start : DateT
  stop : DateT
  quantity : Int
deriving DecidableEq, Repr

/-- `tf.math.ceil(a / b)` cast to int32, for positive `b` (the quotient is computed exactly
here, in float64 in the code). -/
def ceilDiv (a b : Int) : Int := -((-a) / b)

/-- The methods of `HolidayCalendar` used by schedules (either implementation). -/
structure CalendarOps where
  roll : DateT → BusinessDayConvention → Except String DateT
  addBusinessDays : DateT → Int → BusinessDayConvention → Except String DateT
  businessDaysBetween : DateT → DateT → Except String Int

def BoundedCal.ops (c : BoundedCal) : CalendarOps := ⟨c.roll, c.addBusinessDays, c.businessDaysBetween⟩

def UnboundedCal.ops (c : UnboundedCal) : CalendarOps :=
  ⟨c.roll, c.addBusinessDays, fun a b => .ok (c.businessDaysBetween a b)⟩

/-- L363-368: `schedule_len_upper_bound` (`reduce_max` over the batch). -/
def scheduleLenUpperBound (p : PeriodType) (rows : List ScheduleRow) : Int :=
  ((rows.map (fun r =>
    ceilDiv (r.stop.ordinal - r.start.ordinal + 1) (r.quantity * minDaysInPeriod p))).max?).getD 0

/-- L392-401: one row of the forward schedule before trimming. -/
def forwardRow (p : PeriodType) (bound : Int) (r : ScheduleRow) : Except String (List DateT) := do
  let s ← (List.range bound.toNat).mapM (fun (n : Nat) => r.start.add ⟨r.quantity * (n : Int), p⟩)
  return (s ++ [r.stop]).map (fun t => if t.ordinal ≤ r.stop.ordinal then t else r.stop)

/-- L373-382: one row of the backward schedule before trimming.
`tf.range(bound - 1, -1, -1)` is the reversed range. -/
def backwardRow (p : PeriodType) (bound : Int) (r : ScheduleRow) : Except String (List DateT) := do
  let s ← (List.range bound.toNat).reverse.mapM
    (fun (n : Nat) => r.stop.sub ⟨r.quantity * (n : Int), p⟩)
  return (r.start :: s).map (fun t => if t.ordinal ≥ r.start.ordinal then t else r.start)

/-- `tf.where(...)[..., -1]` for one row: the positions whose ordinal differs from `o`. -/
def positionsNe (o : Int) (s : List DateT) : List Nat :=
  (List.range s.length).filter (fun j => decide (((s.map DateT.ordinal).getD j o) ≠ o))

/-- L404-406: trimming of a forward schedule.  With no position at all `reduce_max` gives the lowest
int64, the slice end is hugely negative and the slice empty. -/
def trimForward (rows : List ScheduleRow) (s : List (List DateT)) : List (List DateT) :=
  match ((rows.zip s).flatMap (fun q => positionsNe q.1.stop.ordinal q.2)).max? with
  | some m => s.map (fun l => l.take (m + 2))
  | none => s.map (fun _ => [])

/-- L385-389: trimming of a backward schedule.  With no position at all `reduce_min` gives the highest
int64 and the slice is empty.  (A least position 0 would give the slice `[-1:]`; position 0 always
holds the start date, so this case does not arise.) -/
def trimBackward (rows : List ScheduleRow) (s : List (List DateT)) : List (List DateT) :=
  match ((rows.zip s).flatMap (fun q => positionsNe q.1.start.ordinal q.2)).min? with
  | some m => s.map (fun l => l.drop (if m = 0 then l.length - 1 else m - 1))
  | none => s.map (fun _ => [])

/-- L408-413 for one row. -/
def endOfMonthRow (backward : Bool) (r : ScheduleRow) (s : List DateT) : Except String (List DateT) := do
  let cond ← (if backward then r.stop else r.start).isEndOfMonth
  let moved ← s.mapM DateT.toEndOfMonth
  return if cond then moved else s

/-- L331-420 `_gen_periodic_schedule` together with the check of the constructor L151-156. -/
def genPeriodicSchedule (p : PeriodType) (rows : List ScheduleRow)
    (calendar : Option (CalendarOps × BusinessDayConvention)) (backward endOfMonth : Bool) :
    Except String (List (List DateT)) := do
  if endOfMonth && (p == .DAY || p == .WEEK) then
    throw "end_of_month may only be used with tenors of PeriodType.MONTH or PeriodType.YEAR"
  if ¬ (rows.all (fun r => decide (r.start.ordinal ≤ r.stop.ordinal))) then
    throw "End date must be >= to start date."
  if ¬ (rows.all (fun r => decide (0 < r.quantity))) then
    throw "Tenor quantity must be positive."
  let bound := scheduleLenUpperBound p rows
  let schedules ← (if backward then do
      let s ← rows.mapM (backwardRow p bound)
      return trimBackward rows s
    else do
      let s ← rows.mapM (forwardRow p bound)
      return trimForward rows s)
  let schedules ← (if endOfMonth then
      (rows.zip schedules).mapM (fun q => endOfMonthRow backward q.1 q.2)
    else pure schedules)
  match calendar with
  | none => return schedules
  | some (cal, conv) => schedules.mapM (fun s => s.mapM (fun t => cal.roll t conv))

/-- L423-466 `_gen_business_days`, for a batch of (start, end) pairs. -/
def genBusinessDays (cal : CalendarOps) (rows : List (DateT × DateT)) (backward : Bool) :
    Except String (List (List DateT)) := do
  let rows ← rows.mapM (fun r => do
    let a ← cal.roll r.1 .FOLLOWING
    let b ← cal.roll r.2 .PRECEDING
    return (a, b))
  if ¬ (rows.all (fun r => decide (r.1.ordinal ≤ r.2.ordinal))) then
    throw "End date must be >= Start date."
  let lens ← rows.mapM (fun r => cal.businessDaysBetween r.1 r.2)
  let maxLen : Nat := (lens.max?.getD 0).natAbs + 1
  if backward then
    -- `tf.range(-max_len + 1, 1)`
    rows.mapM (fun r => do
      let s ← (List.range maxLen).mapM (fun (k : Nat) =>
        cal.addBusinessDays r.2 (-(maxLen : Int) + 1 + (k : Int)) .NONE)
      return s.map (fun t => if t.ordinal ≥ r.1.ordinal then t else r.1))
  else
    rows.mapM (fun r => do
      let s ← (List.range maxLen).mapM (fun (k : Nat) => cal.addBusinessDays r.1 (k : Int) .NONE)
      return s.map (fun t => if t.ordinal ≤ r.2.ordinal then t else r.2))

end Model
