import Mathlib.Analysis.SpecialFunctions.Pow.Real
import Mathlib.Data.List.Sort
import Mathlib.Data.List.Dedup
import Verif.Model.BoundedCalendar
import Verif.Model.ConstantForward
import Verif.Model.CubicSpline
import Verif.Model.Daycounts
import Verif.Model.Pad

/-!
# Model of `experimental/pricing_platform/framework/market_data` and of the curve selection of `rate_instruments/cashflow_streams.py`

Real numbers, or a field `K` where that is enough.  One row of a batch at a time; `none` as a real result stands for NaN (a division by zero inside an
interpolation).  A Python exception is `Except.error`.
-/

namespace Model.Platform

/-- The enumeration of `instrument_protos/daycount_conventions.proto`. -/
inductive Daycount
  | DAY_COUNT_CONVENTION_UNKNOWN | ACTUAL_ACTUAL_ISDA | ACTUAL_360 | ACTUAL_365 | CONVENTION_30_360
deriving DecidableEq, Repr

/-- The enumeration of `instrument_protos/business_days.proto`. -/
inductive BusinessRule
  | BUSINESS_DAY_CONVENTION_UNKNOWN | NO_ADJUSTMENT | PREVIOUS | FOLLOWING | MODIFIED_PREVIOUS | MODIFIED_FOLLOWING
  | EOM_NO_ADJUSTMENT | EOM_PREVIOUS | EOM_FOLLOWING
deriving DecidableEq, Repr

/-- The enumeration of `instrument_protos/period.proto`. -/
inductive ProtoPeriod
  | TYPE_UNKNOWN | DAY | WEEK | MONTH | QUARTER | YEAR
deriving DecidableEq, Repr

/-- `market_data/utils.py` L33-43 and L70-86 `get_daycount_fn` for a convention of the platform.  The function
`actual_actual_isda` fails only for dates that are no calendar dates; the value 0 stands for this. -/
def getDaycountFn (K : Type) [Field K] (c : Daycount) : Except String (DateT → DateT → K) :=
  match c with
  | .DAY_COUNT_CONVENTION_UNKNOWN => .error "not mapped to a daycount function"
  | .ACTUAL_ACTUAL_ISDA => .ok (fun s e => match actualActualIsda K s e with | .ok x => x | .error _ => 0)
  | .ACTUAL_360 => .ok (actual360 K)
  | .ACTUAL_365 => .ok (actual365Fixed K)
  | .CONVENTION_30_360 => .ok (thirty360Isda K)

/-- `market_data/utils.py` L45-67 and L89-98 `get_business_day_convention`. -/
def getBusinessDayConvention (r : BusinessRule) : Except String (BusinessDayConvention × Bool) :=
  match r with
  | .BUSINESS_DAY_CONVENTION_UNKNOWN => .error "not mapped to a business day convention"
  | .NO_ADJUSTMENT => .ok (.NONE, false)
  | .FOLLOWING => .ok (.FOLLOWING, false)
  | .MODIFIED_FOLLOWING => .ok (.MODIFIED_FOLLOWING, false)
  | .PREVIOUS => .ok (.PRECEDING, false)
  | .MODIFIED_PREVIOUS => .ok (.MODIFIED_PRECEDING, false)
  | .EOM_FOLLOWING => .ok (.FOLLOWING, true)
  | .EOM_PREVIOUS => .ok (.PRECEDING, true)
  | .EOM_NO_ADJUSTMENT => .ok (.NONE, true)

/-- `market_data/utils.py` L101-147 `period_from_list`, `period_from_dict`, `get_period` (the same conversion): the name of the
period type is looked up in `dateslib.PeriodType`. -/
def getPeriod (t : ProtoPeriod) (amount : Int) : Except String Period :=
  match t with
  | .DAY => .ok ⟨amount, .DAY⟩
  | .WEEK => .ok ⟨amount, .WEEK⟩
  | .MONTH => .ok ⟨amount, .MONTH⟩
  | .YEAR => .ok ⟨amount, .YEAR⟩
  | .QUARTER => .error "KeyError: QUARTER"
  | .TYPE_UNKNOWN => .error "KeyError: TYPE_UNKNOWN"

/-- `core/interpolation_method.py`. -/
inductive Method
  | CUBIC | LINEAR | CONSTANT_FORWARD
deriving DecidableEq, Repr

/-- `market_data/rate_curve.py` L82-104: the interpolators. -/
noncomputable def Method.interpolate (m : Method) (t : ℝ) (x y : List ℝ) : Option ℝ :=
  match m with
  | .CUBIC => (splineBuild x y none none none).map (fun c => cubicInterpolate t x y c)
  | .LINEAR => some (linearInterpolate t x y)
  | .CONSTANT_FORWARD => constantForward t x y

/-- The members of `RateCurve`. -/
structure Curve where
  dates : List DateT
  discounts : List ℝ
  valuation : DateT
  method : Method := .CUBIC
  interpolateRates : Bool := true
  daycount : DateT → DateT → ℝ

namespace Curve
variable (c : Curve)

/-- `rate_curve.py` L280-285 `_get_time`. -/
noncomputable def time (d : DateT) : ℝ := c.daycount c.valuation d

/-- L112 `_times`. -/
noncomputable def times : List ℝ := c.dates.map c.time

/-- L138-144 `discount_rate_nodes`. -/
noncomputable def rateNodes : List ℝ := List.zipWith (fun d t => -Real.log d / t) c.discounts c.times

/-- L146-154 `set_discount_factor_nodes`. -/
def setNodes (values : List ℝ) : Except String Curve :=
  if values.length ≠ c.discounts.length then .error "New values should have shape" else .ok { c with discounts := values }

/-- L168-173 (and L192-197): the time asked for. -/
noncomputable def queryTime (date : Option DateT) (time : Option ℝ) : Except String ℝ :=
  match date, time with
  | none, none => .error "Either interpolation_dates or interpolation times must be supplied."
  | some d, _ => .ok (c.time d)
  | none, some t => .ok t

/-- L174-183: the rate at a time. -/
noncomputable def rateAt (t : ℝ) : Option ℝ :=
  if c.interpolateRates then c.method.interpolate t c.times c.rateNodes
  else (c.method.interpolate t c.times c.discounts).map (fun d => -(Real.log d / t))

/-- L198-205: the discount factor at a time. -/
noncomputable def discountAt (t : ℝ) : Option ℝ :=
  if c.interpolateRates then (c.method.interpolate t c.times c.rateNodes).map (fun r => Real.exp (-r * t))
  else c.method.interpolate t c.times c.discounts

/-- L156-184 `discount_rate`. -/
noncomputable def discountRate (date : Option DateT) (time : Option ℝ) : Except String (Option ℝ) := do
  let t ← c.queryTime date time
  return c.rateAt t

/-- L186-206 `discount_factor`. -/
noncomputable def discountFactor (date : Option DateT) (time : Option ℝ) : Except String (Option ℝ) := do
  let t ← c.queryTime date time
  return c.discountAt t

/-- L208-270 `forward_rate`.  A missing time cannot be converted to a tensor. -/
noncomputable def forwardRate (startDate maturityDate : Option DateT) (startTime maturityTime daycountFraction : Option ℝ) :
    Except String (Option ℝ) := do
  if startDate.isNone && startTime.isNone then throw "Either start_date or start_times must be supplied."
  if maturityDate.isNone && maturityTime.isNone then throw "Either maturity_date or maturity_time must be supplied."
  let args : ℝ × ℝ × ℝ ← (match startDate, maturityDate with
    | some s, some m => return (c.time s, c.time m, daycountFraction.getD (c.daycount s m))
    | _, _ => match startTime, maturityTime with
      | some s, some m => return (s, m, m - s)
      | _, _ => throw "None values not supported.")
  let start ← c.discountFactor none (some args.1)
  let maturity ← c.discountFactor none (some args.2.1)
  return (do
    let s ← start
    let m ← maturity
    return (s / m - 1) / args.2.2)

end Curve

/-- `market_data/utils.py` L150-165 `get_yield_and_time`: the pair for one node. -/
noncomputable def yieldAndTime (c : Curve) (valuation : DateT) (d : DateT) (discount : ℝ) : ℝ × ℝ :=
  let t := c.daycount valuation d
  ((1 / discount) ^ (1 / t) - 1, t)

/-- The data of an index in the market dictionary: `none` for a missing key. -/
structure FixingData (K : Type) where
  dates : Option (List DateT)
  rates : Option (List K)
  daycount : Option Daycount

/-- `market_data_impl.py` L198-257 `fixings` for one date. -/
def fixings {K : Type} [Zero K] (data : Option (FixingData K)) (date : DateT) : Except String (K × Option Daycount) :=
  match data with
  | some ⟨some dates, some rates, daycount⟩ =>
    match daycount with
    | none => .error "`fixing_daycount` should be specified"
    | some dc =>
      let ind : Int := (searchLeft (dates.map DateT.ordinal) date.ordinal : Nat)
      let ind := min (max ind 0) ((dates.length : Int) - 1)
      match rates[ind.toNat]? with
      | some r => .ok (r, some dc)
      | none => .error "index out of range"
  | _ => .ok (0, none)

/-- `core/curve_types.py`: the two kinds of curves, with the fields that name them. -/
inductive CurveType
  | riskFree (currency : String)
  | rateIndex (currency indexType source name : String)
deriving DecidableEq, Repr

/-- `market_data_impl.py` L163-172: the keys under which the data of a curve are looked up. -/
def CurveType.key : CurveType → String × String
  | .riskFree c => (c, "risk_free_curve")
  | .rateIndex c t _ _ => (c, t)

/-- `"_".join(s)` of a string. -/
def joinUnderscore (s : String) : List Char := s.toList.intersperse '_'

/-- `cashflow_streams.py` L954-963 `_get_signature`, as the list of its characters. -/
def CurveType.signature : CurveType → List Char
  | .riskFree c => c.toList
  | .rateIndex c t s n => c.toList ++ ['_'] ++ t.toList ++ ['_'] ++ joinUnderscore s ++ ['_'] ++ joinUnderscore n

/-- `np.unique`. -/
def npUnique {α : Type} [LinearOrder α] (x : List α) : List α := x.dedup.insertionSort (· ≤ ·)

/-- `cashflow_streams.py` L976-996 `create_mask`: the mask and the unique elements (`mask_map` is the list of them). -/
def createMask {α : Type} [LinearOrder α] (x : List α) : List Nat × List α :=
  let unique := npUnique x
  (x.map (fun el => unique.idxOf el), unique)

/-- L926-973 `process_curve_types` without a mask; `sig` is `_get_signature`.  The dictionary keeps the last curve of each
signature. -/
def processCurveTypes {α C : Type} [LinearOrder α] (sig : C → α) (curves : List C) : List C × List Nat :=
  let mask := createMask (curves.map sig)
  (mask.2.filterMap (fun s => curves.reverse.find? (fun c => decide (sig c = s))), mask.1)

/-- `tf.stack`: all rows of the same length. -/
def stackRows {α : Type} (rows : List (List α)) : Except String (List (List α)) :=
  match rows with
  | [] => .error "Must pass at least one tensor"
  | r :: rs => if rs.all (fun q => decide (q.length = r.length)) then .ok (r :: rs) else .error "Shapes of all inputs must match"

/-- `tf.gather(rows, mask)`. -/
def gatherRows {α : Type} (rows : List α) (mask : List Nat) : Except String (List α) :=
  mask.mapM (fun i => match rows[i]? with | some r => .ok r | none => .error "index out of range")

/-- `cashflow_streams.py` L822-877 `get_discount_curve` for the curves found in the market: the rows of the batched curve.  The
padded dates are overwritten by the stacked dates without padding (L866-867), the interpolation is the one of the last curve, and
no day count convention is passed on. -/
noncomputable def getDiscountCurve (curves : List Curve) (valuation : DateT) (mask : List Nat) : Except String (List Curve) := do
  let discounts ← (match padTensors (fun m : ℝ => m - 1) .default (curves.map (fun c => [c.discounts])) with
    | some ps => stackRows (ps.map List.flatten)
    | none => throw "empty tensor")
  let _ ← padDateTensors (curves.map (fun c => [c.dates]))
  let dates ← stackRows (curves.map (fun c => c.dates))
  let d ← gatherRows discounts mask
  let o ← gatherRows dates mask
  let rows ← o.mapM (fun row => row.mapM (fun t => fromOrdinals t.ordinal))
  match curves.getLast? with
  | none => throw "no curve"
  | some last => return List.zipWith (fun ds xs => ⟨ds, xs, valuation, last.method, last.interpolateRates, actual365Fixed ℝ⟩) rows d

end Model.Platform
