import Verif.Model.PlatformMarket
import Verif.Model.Schedules

/-!
# Model of `experimental/pricing_platform/framework/rate_instruments/cashflow_streams.py`: cashflow streams

One row of the batch at a time, real numbers are elements of an ordered field `K`; the schedules and the fixings of a batch are
modelled for all rows together.  A curve is the function giving the discount factor of a date (the class `RateCurve` and the batching
of curves are in `Model/PlatformMarket.lean`).
-/

namespace Model.Platform
variable {K : Type} [Field K] [LinearOrder K]

/-- Broadcasting of two lists along their only axis. -/
def zipBroadcast {α β γ : Type} (f : α → β → γ) (xs : List α) (ys : List β) : Except String (List γ) :=
  match xs, ys with
  | [x], ys => .ok (ys.map (f x))
  | xs, [y] => .ok (xs.map (fun x => f x y))
  | xs, ys => if xs.length = ys.length then .ok (List.zipWith f xs ys) else .error "Incompatible shapes"

/-- `cashflow_streams.py` L190-192 (and L508-510): weekends only, whatever calendar is asked for. -/
def streamCalendar : UnboundedCal := UnboundedCal.init (some [0, 0, 0, 0, 0, 1, 1]) none

/-- L756-819 `_generate_schedule`.  `PeriodicSchedule` gets no calendar, so the roll convention has no effect in it.  A supplied
penultimate date only changes the direction (`end_date or penultimate_coupon_date` is `end_date`). -/
def generateSchedule (p : PeriodType) (rows : List ScheduleRow) (settlementDays : List Int) (conv : BusinessDayConvention)
    (endOfMonth : Bool) (firstCoupon penultimate : Option (List DateT)) : Except String (List (List DateT)) := do
  if firstCoupon.isSome && penultimate.isSome then
    throw "Only first or last coupon dates can be specified  for an irregular coupon."
  let starts := firstCoupon.getD (rows.map (fun r => r.start))
  let starts ← (starts.zip settlementDays).mapM (fun q => streamCalendar.addBusinessDays q.1 q.2 conv)
  let backward := penultimate.isSome
  let stops ← ((rows.map (fun r => r.stop)).zip settlementDays).mapM (fun q => streamCalendar.addBusinessDays q.1 q.2 conv)
  let rows' := (rows.zip (starts.zip stops)).map (fun q => ⟨q.2.1, q.2.2, q.1.quantity⟩)
  let dates ← genPeriodicSchedule p rows' none backward endOfMonth
  return (rows'.zip dates).map (fun q => [q.1.start] ++ q.2 ++ [q.1.stop])

/-- L182-219 (and L500-537): the coupon dates of the rows.  `scheduleFn` is only called if a penultimate date is given; without one
the variable is not bound. -/
def couponDates (schedule : Option (List (List DateT))) (scheduleFn : Option (Except String (List (List DateT))))
    (generated : Except String (List (List DateT))) (penultimate : Bool) : Except String (List (List DateT)) :=
  match schedule, scheduleFn with
  | some s, _ => .ok s
  | none, none => generated
  | none, some f => if penultimate then f else .error "UnboundLocalError: coupon_dates"

/-- A row of `FixedCashflowStream`. -/
structure FixedRow (K : Type) where
  dates : List DateT
  notional : K
  rate : K
  daycount : DateT → DateT → K

/-- L222-226 (and L543-556): starts, ends and year fractions of the coupons. -/
def couponStarts (dates : List DateT) : List DateT := dates.dropLast
def couponEnds (dates : List DateT) : List DateT := dates.drop 1
def yearFractions (daycount : DateT → DateT → K) (dates : List DateT) : List K :=
  List.zipWith daycount (couponStarts dates) (couponEnds dates)

/-- L265-291 `cashflows` of a fixed stream. -/
def FixedRow.cashflows (s : FixedRow K) (valuation : DateT) : List K :=
  List.zipWith (fun d τ => s.notional * ((if d.ge valuation then 1 else 0) * τ * s.rate)) (couponEnds s.dates)
    (yearFractions s.daycount s.dates)

/-- L293-316 `price` of a fixed stream. -/
def FixedRow.price (s : FixedRow K) (discount : DateT → K) (valuation : DateT) : K :=
  (List.zipWith (fun c d => c * discount d) (s.cashflows valuation) (couponEnds s.dates)).sum

/-- A row of `FloatingCashflowStream`. -/
structure FloatRow (K : Type) where
  dates : List DateT
  notional : K
  spread : K
  daycount : DateT → DateT → K
  reset : Period

/-- L546-553: the ends of the accrual periods. -/
def FloatRow.accrualEnds (s : FloatRow K) : Except String (List DateT) := do
  let e ← (couponStarts s.dates).mapM (fun d => d.add s.reset)
  let ends := couponEnds s.dates
  return ends.take 1 ++ (e.drop 1).dropLast ++ ends.drop (ends.length - 1)

/-- L654-655: the index of the coupon whose rate has been fixed. -/
def fixingIndex (starts : List DateT) (valuation : DateT) : Nat :=
  (max ((searchLeft (starts.map DateT.ordinal) valuation.ordinal : Nat) - 1 : Int) 0).toNat

/-- L880-923 `_get_fixings` for one row: the fixing times the year fraction. -/
def rowFixing (data : Option (FixingData K)) (start stop : DateT) : Except String K := do
  let f ← fixings data start
  match f.2 with
  | none => return f.1 * 0
  | some dc =>
    let τ ← getDaycountFn K dc
    return f.1 * τ start stop

/-- L646-677: the past fixing. -/
def FloatRow.pastFixing (s : FloatRow K) (data : Option (FixingData K)) (given : Option K) (valuation : DateT) :
    Except String K :=
  match given with
  | some x => .ok x
  | none =>
    let i := fixingIndex (couponStarts s.dates) valuation
    match (couponStarts s.dates)[i]?, (couponEnds s.dates)[i]? with
    | some a, some b => rowFixing data a b
    | _, _ => .error "index out of range"

/-- L678-681 with `RateCurve.forward_rate` L208-270 for a given year fraction. -/
def curveForwardRate (reference : DateT → K) (start stop : DateT) (τ : K) : K := (reference start / reference stop - 1) / τ

/-- L620-695 `forward_rates`. -/
def FloatRow.rates (s : FloatRow K) (reference : DateT → K) (data : Option (FixingData K)) (given : Option K)
    (valuation : DateT) : Except String (List K) := do
  let past ← s.pastFixing data given valuation
  let accrual ← s.accrualEnds
  let τ := yearFractions s.daycount s.dates
  let f ← zipBroadcast (fun a b => (fun τ => curveForwardRate reference a b τ)) (couponStarts s.dates) accrual
  let f ← zipBroadcast (fun g τ => if τ > 0 then g τ else 0) f τ
  let coupons := List.zip (couponStarts s.dates) (couponEnds s.dates)
  zipBroadcast (fun (c : DateT × DateT) x => if c.2.lt valuation then 0 else if c.1.ge valuation then x else past) coupons f

/-- L697-728 `cashflows`. -/
def FloatRow.cashflows (s : FloatRow K) (reference : DateT → K) (data : Option (FixingData K)) (given : Option K)
    (valuation : DateT) : Except String (List K) := do
  let r ← s.rates reference data given valuation
  zipBroadcast (fun τ x => s.notional * (τ * (x + s.spread))) (yearFractions s.daycount s.dates) r

/-- L730-753 `price`. -/
def FloatRow.price (s : FloatRow K) (reference discount : DateT → K) (data : Option (FixingData K)) (given : Option K)
    (valuation : DateT) : Except String K := do
  let c ← s.cashflows reference data given valuation
  let pv ← zipBroadcast (fun x d => x * discount d) c (couponEnds s.dates)
  return pv.sum

/-- `tf.argsort`. -/
def argsort (l : List Nat) : List Nat := (List.range l.length).insertionSort (fun i j => l.getD i 0 ≤ l.getD j 0)

/-- L880-923 `_get_fixings` for a batch, with the fixing of row `j` from curve `i` given by `fixing i j`. -/
def batchFixings (numCurves : Nat) (mask : List Nat) (rows : Nat) (fixing : Nat → Nat → K) : List K :=
  if numCurves > 1 then
    let split := (List.range numCurves).map (fun i => (List.range mask.length).filter (fun j => decide (mask.getD j 0 = i)))
    let all := (List.zip (List.range numCurves) split).flatMap (fun q => q.2.map (fixing q.1))
    let indices := split.flatten
    (argsort indices).map (fun k => all.getD k 0)
  else (List.range rows).map (fixing 0)

end Model.Platform
