import Verif.Model.Instruments
import Verif.Model.VanillaPrices

/-!
# Model of `tf_quant_finance/experimental/instruments/cap_floor.py` and `swaption.py`

Real numbers.  `pricing_context` is the list of the Black volatilities; without it both classes read an attribute which does not
exist (`self._term`, `self._swap.swap_term`), which is modelled as an error.  A scalar is a list with one element.  The option
price of the lognormal model is `optionPrice` of `Model/VanillaPrices.lean`; where its logarithm would be that of a number
which is not positive, the code computes infinity or NaN.
-/

namespace Model.Instruments

/-! ## `cap_floor.py` -/

/-- A python number or a list. -/
inductive Amount
  | scalar (x : ℝ)
  | vector (l : List ℝ)

/-- L148-149: `notional or 1.0`; a number which is zero, and an empty list, are false. -/
noncomputable def capNotional (notional : Option Amount) : List ℝ :=
  match notional with
  | none => [1]
  | some (.scalar x) => if x = 0 then [1] else [x]
  | some (.vector l) => if l = [] then [1] else l

/-- The dates of one cap or floor. -/
structure CapRow where
  dates : ScheduleRow
  isCap : Bool

/-- The members of `CapAndFloor`. -/
structure CapFloor where
  batch : Nat
  num : Nat
  resetDates : List DateT
  paymentDates : List DateT
  daycounts : List ℝ
  strikes : List ℝ
  notional : List ℝ
  isCap : List Bool
  contractIndex : List Nat

/-- L90-155 and L250-281 `_setup_tensors`.  `reset_dates[:, 0]` (L272) does not exist if the schedule is empty. -/
noncomputable def CapFloor.setup (p : PeriodType) (convention : DayCount) (strikes : List ℝ) (notional : Option Amount)
    (rows : List CapRow) : Except String CapFloor := do
  let schedule ← genPeriodicSchedule p (rows.map CapRow.dates) none false false
  let num := (schedule.headD []).length - 1
  if num = 0 then
    .error "slice index 0 of dimension 1 out of bounds"
  else
    .ok {
      batch := rows.length
      num := num
      resetDates := schedule.flatMap List.dropLast
      paymentDates := schedule.flatMap List.tail
      daycounts := schedule.flatMap (fun l => List.zipWith (daycountFraction ℝ convention) l.dropLast l.tail)
      strikes := repeatEach strikes num
      notional := capNotional notional
      isCap := repeatEach (rows.map CapRow.isCap) num
      contractIndex := repeatEach (List.range rows.length) num }

/-- One caplet or floorlet. -/
structure Caplet where
  reset : DateT
  payment : DateT
  daycount : ℝ
  forward : ℝ
  strike : ℝ
  volatility : ℝ
  isCap : Bool
  notional : ℝ

/-- L216-248: the price of one caplet or floorlet. -/
noncomputable def Caplet.price (c : Caplet) (valuation : DateT) (m : Market ℝ) : Except String ℝ := do
  let discountFactor := if c.payment.gt valuation then m.discount c.payment else 0
  let black ← optionPrice {
    volatility := c.volatility
    strike := c.strike
    expiry := actual365Fixed ℝ valuation c.reset
    forward := some c.forward
    isCall := some c.isCap }
  let intrinsic := if c.isCap then max (c.forward - c.strike) 0 else max (c.strike - c.forward) 0
  let price := if c.payment.lt valuation then 0 else if c.reset.lt valuation then intrinsic else black
  return discountFactor * (c.notional * c.daycount * price)

/-- L224-229: the volatilities. -/
def blackVols (missing : String) (n : Nat) (context : Option (List ℝ)) : Except String (List ℝ) :=
  match context with
  | none => .error missing
  | some vols => broadcast n vols

/-- L283-304 `_get_forward_rate`. -/
noncomputable def CapFloor.forwards (s : CapFloor) (valuation : DateT) (m : Market ℝ) : Except String (List ℝ) := do
  let libor ← broadcast (s.batch * s.num) (liborFixings s.batch s.num m)
  return List.zipWith (fun (x : DateT × DateT) (d : ℝ × ℝ) =>
    couponForward d.1 (curveForward m.reference x.1 x.2 d.1) d.2 x.1 x.2 valuation)
    (s.resetDates.zip s.paymentDates) (s.daycounts.zip libor)

/-- L157-192 `price` and L194-248 `_price_lognormal_rate`. -/
noncomputable def CapFloor.price (s : CapFloor) (valuation : DateT) (m : Market ℝ) (context : Option (List ℝ)) :
    Except String (List ℝ) := do
  let n := s.batch * s.num
  let forwards ← s.forwards valuation m
  let vols ← blackVols "'CapAndFloor' object has no attribute '_term'" n context
  let strikes ← broadcast n s.strikes
  let notional ← broadcast n s.notional
  let caplets := List.zipWith (fun (t : (DateT × DateT) × ℝ × ℝ) (k : (ℝ × ℝ) × Bool × ℝ) =>
    (⟨t.1.1, t.1.2, t.2.1, t.2.2, k.1.1, k.1.2, k.2.1, k.2.2⟩ : Caplet))
    ((s.resetDates.zip s.paymentDates).zip (s.daycounts.zip forwards)) ((strikes.zip vols).zip (s.isCap.zip notional))
  let prices ← caplets.mapM (fun c => c.price valuation m)
  return segmentSum s.batch prices s.contractIndex

/-! ## `swaption.py` -/

/-- L132-203: `expiries` has one entry per swap. -/
noncomputable def swaptionsPrice (swap : Swap ℝ) (expiries : List DateT) (valuation : DateT) (m : Market ℝ)
    (context : Option (List ℝ)) : Except String (List ℝ) := do
  let annuity ← swap.annuity m true
  let forward ← swap.parRate valuation m
  match swap.fixedLeg, swap.floatingLeg with
  | some fixed, some float => do
    let vols ← blackVols "'InterestRateSwap' object has no attribute 'swap_term'" fixed.batch context
    let values ← (List.zipWith (fun (x : ℝ × ℝ) (y : ℝ × DateT) => ({
        volatility := x.1
        strike := x.2
        expiry := actual365Fixed ℝ valuation y.2
        forward := some y.1
        isCall := some swap.isPayer } : BsArgs)) (vols.zip fixed.fixedRate) (forward.zip expiries)).mapM optionPrice
    match float.notional.getLast? with
    | none => .error "slice index -1 of dimension 0 out of bounds"
    | some notional => .ok (List.zipWith (fun a v => notional * a * v) annuity values)
  | _, _ => .error "'NoneType' object has no attribute"

end Model.Instruments
