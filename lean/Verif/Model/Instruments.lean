import Mathlib.Order.Defs.LinearOrder
import Verif.Model.Daycounts
import Verif.Model.Schedules
import Verif.Model.Segments

/-!
# Model of `tf_quant_finance/experimental/instruments`: cashflow streams, swaps, bonds, notes, rate agreements, futures

Real numbers are elements of an ordered field `K`.  A curve is the function giving the discount factor of a date (any
interpolation; the class `RateCurve` itself is in `Model/RateCurve.lean`).  A batch is a list with one entry per contract; the
flattening of the cashflows of all contracts into one list and the summation per contract are modelled as they are in the
code.  A single coupon specification for the whole batch is the list repeating it.  The holiday calendar and the roll convention
passed to the schedule have no effect, because no calendar is passed along with the convention (`cashflow_stream.py` L40-44,
L48-52, L64-69; see `genPeriodicSchedule`), so they do not appear.
-/

namespace Model.Instruments
variable {K : Type} [Field K]

/-- `rates_common.py` L34-43 `DayCountConvention`. -/
inductive DayCount
  | actual360
  | actual365
  | thirty360Isda
deriving DecidableEq, Repr

/-- `rates_common.py` L172-184 `get_daycount_fraction`. -/
def daycountFraction (K : Type) [Field K] (convention : DayCount) (start stop : DateT) : K :=
  match convention with
  | .actual365 => actual365Fixed K start stop
  | .actual360 => actual360 K start stop
  | .thirty360Isda => thirty360Isda K start stop

/-- `rates_common.py` L70-83 `InterestRateMarket` (the volatilities are in `Model/InstrumentOptions.lean`). -/
structure Market (K : Type) where
  reference : DateT → K
  discount : DateT → K
  liborRate : Option K := none

/-- `rate_curve.py` L102-131 `get_forward_rate` with the day count fraction supplied. -/
def curveForward (curve : DateT → K) (start maturity : DateT) (daycount : K) : K :=
  forwardRate (curve start) (curve maturity) daycount

/-- `tf.repeat(l, n)`: every element `n` times. -/
def repeatEach {α : Type} (l : List α) (n : Nat) : List α := l.flatMap (List.replicate n)

/-- `tf.reduce_sum(tf.reshape(l, (batch, n)), axis=1)`. -/
def rowSums (batch n : Nat) (l : List K) : List K :=
  (List.range batch).map (fun i => ((l.drop (i * n)).take n).sum)

/-- `tf.math.segment_sum(l, ids)` for the ids `0, …, batch - 1`. -/
def segmentSum (batch : Nat) (l : List K) (ids : List Nat) : List K :=
  (List.range batch).map (fun i => (((l.zip ids).filter (fun x => x.2 = i)).map (fun x => x.1)).sum)

/-- Broadcasting of a list to the length `n`. -/
def broadcast {α : Type} (n : Nat) (l : List α) : Except String (List α) :=
  if l.length = n then .ok l
  else match l with
    | [x] => .ok (List.replicate n x)
    | _ => .error "Incompatible shapes"

/-! ## `cashflow_stream.py` -/

/-- The dates of one stream.  `first` and `penultimate` are only read when supplied. -/
structure StreamRow where
  start : DateT
  stop : DateT
  quantity : Int
  first : DateT
  penultimate : DateT
deriving DecidableEq, Repr

/-- L24-81 `CashflowStream._generate_schedule`: the coupon dates and, for every coupon, whether it is regular. -/
def generateSchedule (p : PeriodType) (hasFirst hasPenultimate : Bool) (rows : List StreamRow) :
    Except String (List (List DateT × List Bool)) :=
  if !hasFirst && !hasPenultimate then do
    let dates ← genPeriodicSchedule p (rows.map (fun r => ⟨r.start, r.stop, r.quantity⟩)) none false false
    return dates.map (fun l => (l, List.replicate (l.length - 1) true))
  else if hasFirst then do
    let dates ← genPeriodicSchedule p (rows.map (fun r => ⟨r.first, r.stop, r.quantity⟩)) none false false
    return List.zipWith (fun r l => (r.start :: l, false :: List.replicate (l.length - 1) true)) rows dates
  else do
    let dates ← genPeriodicSchedule p (rows.map (fun r => ⟨r.start, r.penultimate, r.quantity⟩)) none true false
    return List.zipWith (fun r l => (l ++ [r.stop], List.replicate (l.length - 1) true ++ [false])) rows dates

/-- `payment_dates.shape.as_list()[-1]`. -/
def numCashflows (schedule : List (List DateT × List Bool)) : Nat :=
  match schedule with
  | [] => 0
  | s :: _ => s.1.tail.length

/-- One stream of fixed coupons: dates and `FixedCouponSpecs`. -/
structure FixedRow (K : Type) where
  dates : StreamRow
  notional : K
  rate : K

/-- The members of `FixedCashflowStream`. -/
structure FixedStream (K : Type) where
  batch : Nat
  num : Nat
  paymentDates : List DateT
  notional : List K
  daycounts : List K
  couponRate : List K
  fixedRate : List K
  contractIndex : List Nat

/-- L246-290 `FixedCashflowStream._setup`. -/
def FixedStream.setup (p : PeriodType) (convention : DayCount) (hasFirst hasPenultimate : Bool)
    (rows : List (FixedRow K)) : Except String (FixedStream K) := do
  let schedule ← generateSchedule p hasFirst hasPenultimate (rows.map FixedRow.dates)
  let num := numCashflows schedule
  return {
    batch := rows.length
    num := num
    paymentDates := schedule.flatMap (fun s => s.1.tail)
    notional := repeatEach (rows.map FixedRow.notional) num
    daycounts := schedule.flatMap (fun s =>
      List.zipWith (daycountFraction K convention) s.1.dropLast s.1.tail)
    couponRate := repeatEach (rows.map FixedRow.rate) num
    fixedRate := rows.map FixedRow.rate
    contractIndex := repeatEach (List.range rows.length) num }

/-- L192-224 `FixedCashflowStream.price`. -/
def FixedStream.price (s : FixedStream K) (valuation : DateT) (m : Market K) : List K :=
  let discountFactors := s.paymentDates.map m.discount
  let future := s.paymentDates.map (fun t => if t.ge valuation then (1 : K) else 0)
  let pvs := List.zipWith (· * ·) s.notional (List.zipWith (· * ·)
    (List.zipWith (· * ·) (List.zipWith (· * ·) future s.daycounts) s.couponRate) discountFactors)
  rowSums s.batch s.num pvs

/-- One stream of floating coupons: dates and `FloatCouponSpecs`. -/
structure FloatRow (K : Type) where
  dates : StreamRow
  refQuantity : Int
  notional : K
  basis : K
  multiplier : K

/-- The members of `FloatingCashflowStream`. -/
structure FloatStream (K : Type) where
  batch : Nat
  num : Nat
  couponStartDates : List DateT
  couponEndDates : List DateT
  paymentDates : List DateT
  accrualStartDates : List DateT
  accrualEndDates : List DateT
  notional : List K
  daycounts : List K
  basis : List K
  multiplier : List K

/-- L463-532 `FloatingCashflowStream._setup`.  `refType` is the type of the reference term. -/
def FloatStream.setup (p refType : PeriodType) (convention : DayCount) (hasFirst hasPenultimate : Bool)
    (rows : List (FloatRow K)) : Except String (FloatStream K) := do
  let schedule ← generateSchedule p hasFirst hasPenultimate (rows.map FloatRow.dates)
  let accrualEnds ← (rows.zip schedule).mapM (fun q => do
    let shifted ← q.2.1.dropLast.mapM (fun t => t.add ⟨q.1.refQuantity, refType⟩)
    return List.zipWith (fun (regular : Bool) (x : DateT × DateT) => if regular then x.1 else x.2) q.2.2
      (shifted.zip q.2.1.tail))
  let num := numCashflows schedule
  return {
    batch := rows.length
    num := num
    couponStartDates := schedule.flatMap (fun s => s.1.dropLast)
    couponEndDates := schedule.flatMap (fun s => s.1.tail)
    paymentDates := schedule.flatMap (fun s => s.1.tail)
    accrualStartDates := schedule.flatMap (fun s => s.1.dropLast)
    accrualEndDates := accrualEnds.flatten
    notional := repeatEach (rows.map FloatRow.notional) num
    daycounts := schedule.flatMap (fun s =>
      List.zipWith (daycountFraction K convention) s.1.dropLast s.1.tail)
    basis := repeatEach (rows.map FloatRow.basis) num
    multiplier := repeatEach (rows.map FloatRow.multiplier) num }

variable [LinearOrder K]

/-- `rates_common.py` L187-200 `get_rate_index` followed by `tf.repeat(rate, num)`: a fixing is a scalar, the default is one
zero per contract. -/
def liborFixings (batch num : Nat) (m : Market K) : List K :=
  match m.liborRate with
  | some rate => if rate = 0 then List.replicate (batch * num) 0 else List.replicate num rate
  | none => List.replicate (batch * num) 0

/-- L438-448: the rate of one coupon. -/
def couponForward (daycount forward libor : K) (couponStart couponEnd valuation : DateT) : K :=
  let forward := if daycount > 0 then forward else 0
  if couponEnd.lt valuation then 0 else if couponStart.lt valuation then libor else forward

/-- L403-457 `FloatingCashflowStream.price`. -/
def FloatStream.price (s : FloatStream K) (valuation : DateT) (m : Market K) : Except String (List K) := do
  let libor ← broadcast (s.batch * s.num) (liborFixings s.batch s.num m)
  let discountFactors := s.paymentDates.map m.discount
  let forwards := List.zipWith (fun (x : DateT × DateT) d => curveForward m.reference x.1 x.2 d)
    (s.accrualStartDates.zip s.accrualEndDates) s.daycounts
  let rates := List.zipWith (fun (x : K × K × K) (t : DateT × DateT) =>
      couponForward x.1 x.2.1 x.2.2 t.1 t.2 valuation)
    (s.daycounts.zip (forwards.zip libor)) (s.couponStartDates.zip s.couponEndDates)
  let couponRate := List.zipWith (· * ·) s.multiplier (List.zipWith (· + ·) rates s.basis)
  let pvs := List.zipWith (· * ·) s.notional (List.zipWith (· * ·)
    (List.zipWith (· * ·) s.daycounts couponRate) discountFactors)
  return rowSums s.batch s.num pvs

/-! ## `interest_rate_swap.py` -/

/-- L272-286 `_setup_leg`: a leg is a stream of either kind. -/
inductive Leg (K : Type)
  | fixed (s : FixedStream K)
  | float (s : FloatStream K)

/-- The price of a leg. -/
def Leg.price (leg : Leg K) (valuation : DateT) (m : Market K) : Except String (List K) :=
  match leg with
  | .fixed s => .ok (s.price valuation m)
  | .float s => s.price valuation m

/-- The members of `InterestRateSwap`. -/
structure Swap (K : Type) where
  pay : Leg K
  receive : Leg K

/-- `_fixed_leg`: the leg set up last wins. -/
def Swap.fixedLeg (s : Swap K) : Option (FixedStream K) :=
  match s.receive with
  | .fixed f => some f
  | .float _ => match s.pay with
    | .fixed f => some f
    | .float _ => none

/-- `_floating_leg`. -/
def Swap.floatingLeg (s : Swap K) : Option (FloatStream K) :=
  match s.receive with
  | .float f => some f
  | .fixed _ => match s.pay with
    | .float f => some f
    | .fixed _ => none

/-- L211. -/
def Swap.isPayer (s : Swap K) : Bool :=
  match s.pay with
  | .fixed _ => true
  | .float _ => false

/-- L213-239 `price`. -/
def Swap.price (s : Swap K) (valuation : DateT) (m : Market K) : Except String (List K) := do
  let pay ← s.pay.price valuation m
  let receive ← s.receive.price valuation m
  return List.zipWith (· - ·) receive pay

/-- L288-305 `_annuity` (and L241-244 `annuity` for the unit notional); the valuation date is discarded. -/
def Swap.annuity (s : Swap K) (m : Market K) (unitNotional : Bool) : Except String (List K) :=
  match s.fixedLeg with
  | none => if unitNotional then .ok [0] else .error "'NoneType' object has no attribute 'notional'"
  | some f =>
    let notional := if unitNotional then List.replicate f.notional.length (1 : K) else f.notional
    .ok (segmentSum f.batch (List.zipWith (· * ·) (List.zipWith (· * ·) notional (f.paymentDates.map m.discount)) f.daycounts)
      f.contractIndex)

/-- L246-253 `par_rate`. -/
def Swap.parRate (s : Swap K) (valuation : DateT) (m : Market K) : Except String (List K) := do
  let annuity ← s.annuity m false
  match s.floatingLeg with
  | none => .error "'NoneType' object has no attribute 'price'"
  | some f => do
    let floatPv ← f.price valuation m
    return List.zipWith (· / ·) floatPv annuity

/-! ## `bond.py`, `floating_rate_note.py` -/

/-- `bond.py` L156-181 `price`; `notionals` and `maturities` have one entry per bond. -/
def bondPrice (cashflows : FixedStream K) (notionals : List K) (maturities : List DateT) (valuation : DateT)
    (m : Market K) : List K :=
  List.zipWith (· + ·) (cashflows.price valuation m)
    (List.zipWith (· * ·) notionals (maturities.map m.discount))

/-- `floating_rate_note.py` L154-179 `price`. -/
def notePrice (cashflows : FloatStream K) (notionals : List K) (maturities : List DateT) (valuation : DateT)
    (m : Market K) : Except String (List K) := do
  let coupons ← cashflows.price valuation m
  return List.zipWith (· + ·) coupons (List.zipWith (· * ·) notionals (maturities.map m.discount))

/-! ## `forward_rate_agreement.py`, `eurodollar_futures.py` (one contract) -/

/-- `forward_rate_agreement.py` L128-141: the end of the accrual period. -/
def fraAccrualEnd (settlement : DateT) (rateTerm : Option Period) (maturity : Option DateT) : Except String DateT :=
  match rateTerm, maturity with
  | none, none => .error "Error creating FRA. Either rate_term or maturity_date is required."
  | none, some t => .ok t
  | some term, _ => settlement.add term

/-- `forward_rate_agreement.py` L74-152 (the dates) and L154-182 `price`. -/
def fraPrice (convention : DayCount) (settlement : DateT) (rateTerm : Option Period) (maturity : Option DateT)
    (fixedRate notional : K) (m : Market K) : Except String K := do
  let accrualEnd ← fraAccrualEnd settlement rateTerm maturity
  let daycount := daycountFraction K convention settlement accrualEnd
  let forward := curveForward m.reference settlement accrualEnd daycount
  return m.discount settlement * notional * (forward - fixedRate) * daycount / (1 + daycount * forward)

/-- `eurodollar_futures.py`: the end of the accrual period. -/
def eurodollarAccrualEnd (expiry : DateT) (rateTerm : Option Period) (maturity : Option DateT) : Except String DateT :=
  match rateTerm, maturity with
  | none, some t => .ok t
  | some term, none => expiry.add term
  | _, _ => .error "Error creating the EurodollarFutures contract. Either rate_term or maturity_date is required."

/-- `eurodollar_futures.py` L76-176. -/
def eurodollarPrice (convention : DayCount) (expiry : DateT) (rateTerm : Option Period) (maturity : Option DateT)
    (notional : K) (m : Market K) : Except String K := do
  let accrualEnd ← eurodollarAccrualEnd expiry rateTerm maturity
  let daycount := daycountFraction K convention expiry accrualEnd
  return 100 * notional * (1 - curveForward m.reference expiry accrualEnd daycount)

/-! ## `overnight_index_linked_futures.py` (one contract; `_setup` treats every contract on its own) -/

/-- L213-231: the dates of the resets, from the start date to one day after the end date. -/
def overnightDates (cal : CalendarOps) (start stop : DateT) : Except String (List DateT) := do
  let day : Period := ⟨1, .DAY⟩
  let first ← start.add day
  let schedule ← genPeriodicSchedule .DAY [⟨first, stop, 1⟩] (some (cal, .FOLLOWING)) false false
  let past ← stop.add day
  return start :: (schedule.headD [] ++ [past])

/-- L165-205 `price` and L207-248 `_setup`; `compounding` is the averaging type.  `contract_unit` is not used. -/
def overnightPrice (cal : CalendarOps) (convention : DayCount) (compounding : Bool) (start stop : DateT)
    (m : Market K) : Except String K := do
  let dates ← overnightDates cal start stop
  let resets := dates.dropLast
  let fractions := List.zipWith (daycountFraction K convention) resets dates.tail
  let accrualEnds ← resets.mapM (fun t => t.add ⟨1, .DAY⟩)
  let forwards := List.zipWith (fun s e => forwardRate (m.reference s) (m.reference e) (daycountFraction K convention s e))
    resets accrualEnds
  let total := fractions.sum
  let rate := if compounding
    then ((List.zipWith (fun f d => 1 + f * d) forwards fractions).prod - 1) / total
    else (List.zipWith (· * ·) forwards fractions).sum / total
  return 100 * (1 - rate)

end Model.Instruments
