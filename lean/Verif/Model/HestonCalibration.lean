import Verif.Model.HestonOption
import Verif.Model.SabrCalibration

/-!
# Model of `tf_quant_finance/models/heston/approximations/calibration.py`

One element of the batch over the reals. As in `Model/SabrCalibration.lean` the optimizer is an arbitrary function of the loss function and the
initial position. `_scale`, `_to_unconstrained`, `_to_constrained` and `_assert_parameter_valid` (L552-579) are the same functions as in the
calibration of the SABR model. The error of the integration in the pricing function cannot occur, as its defaults are used.
-/

namespace Model

/-- One quoted option, L58-66. The numbers of arguments that are not supplied are ignored. -/
structure HestonQuote where
  price : ℝ
  strike : ℝ
  expiry : ℝ
  isCall : Bool
  spot : ℝ := 0
  forward : ℝ := 0
  discountRate : ℝ := 0
  dividendRate : ℝ := 0
  discountFactor : ℝ := 0

/-- The arguments of `calibration` L56-88; the Boolean values say which of the optional ones are supplied. -/
structure HestonCalibrationArgs where
  quotes : List HestonQuote
  hasSpot : Bool
  hasForward : Bool
  hasDiscountRate : Bool
  hasDividendRate : Bool
  hasDiscountFactor : Bool
  meanReversion : Bounded
  initialVariance : Bounded
  theta : Bounded
  volvol : Bounded
  rho : Bounded
  validateArgs : Bool := false

/-- An argument if it is supplied. -/
def supplied (b : Bool) (x : ℝ) : Option ℝ := if b then some x else none

/-- The option of a quote, with the market data that are supplied. -/
def hestonQuoteArgs (a : HestonCalibrationArgs) (q : HestonQuote) (p : HestonOptionParams) : HestonOptionArgs where
  strike := q.strike
  expiry := q.expiry
  spot := supplied a.hasSpot q.spot
  forward := supplied a.hasForward q.forward
  isCall := some q.isCall
  discountRate := supplied a.hasDiscountRate q.discountRate
  dividendRate := supplied a.hasDividendRate q.dividendRate
  discountFactor := supplied a.hasDiscountFactor q.discountFactor
  params := p

/-- L297-320: the rates and forwards; L477-489: the arguments of the pricing function. -/
noncomputable def hestonLossArgs (a : HestonCalibrationArgs) (q : HestonQuote) (p : HestonOptionParams) : HestonOptionArgs where
  strike := q.strike
  expiry := q.expiry
  forward := some (hestonQuoteArgs a q p).forwardPrice
  isCall := some q.isCall
  discountRate := some (hestonQuoteArgs a q p).rate
  dividendRate := some ((hestonQuoteArgs a q p).dividendRate.getD 0)
  params := p

/-- `_OptimizerArgHandler` L498-549. -/
noncomputable def hestonUnpack (a : HestonCalibrationArgs) (x : List ℝ) : HestonOptionParams where
  variance := toConstrained (x.getD 0 0) a.initialVariance.lower a.initialVariance.upper
  theta := toConstrained (x.getD 1 0) a.theta.lower a.theta.upper
  volvol := toConstrained (x.getD 2 0) a.volvol.lower a.volvol.upper
  meanReversion := toConstrained (x.getD 3 0) a.meanReversion.lower a.meanReversion.upper
  rho := toConstrained (x.getLastD 0) a.rho.lower a.rho.upper

/-- The values of L477-489. -/
noncomputable def hestonValue (a : HestonCalibrationArgs) (q : HestonQuote) (p : HestonOptionParams) : ℝ :=
  match hestonPrice (hestonLossArgs a q p) with
  | .ok v => v
  | .error _ => 0

/-- `loss_function` L463-495. -/
noncomputable def hestonLoss (a : HestonCalibrationArgs) (x : List ℝ) : ℝ :=
  let p := hestonUnpack a x
  (a.quotes.map fun q => (Real.log (1 + hestonValue a q p) - Real.log (1 + q.price)) ^ 2).sum / a.quotes.length

/-- `initial_x` L407-409. -/
noncomputable def hestonInitialPosition (a : HestonCalibrationArgs) : List (Option ℝ) :=
  [toUnconstrained a.initialVariance, toUnconstrained a.theta, toUnconstrained a.volvol, toUnconstrained a.meanReversion, toUnconstrained a.rho]

/-- The checks of L278-282. -/
def hestonCalibrationCheck (a : HestonCalibrationArgs) : Except String Unit :=
  if !a.hasSpot = !a.hasForward then .error "Either spots or forwards must be supplied but not both."
  else if a.hasDiscountRate && a.hasDiscountFactor then .error "At most one of discount_rates and discount_factors may be supplied"
  else .ok ()

/-- `calibration` L56-455. -/
noncomputable def hestonCalibration (optimizer : (List ℝ → ℝ) → List (Option ℝ) → List ℝ) (a : HestonCalibrationArgs) : Except String HestonOptionParams := do
  hestonCalibrationCheck a
  assertParameterValid a.validateArgs a.meanReversion "`mean_reversion` is invalid!"
  assertParameterValid a.validateArgs a.theta "`theta` is invalid!"
  assertParameterValid a.validateArgs a.volvol "`volvol` is invalid!"
  assertParameterValid a.validateArgs a.initialVariance "`initial_variance` is invalid!"
  assertParameterValid a.validateArgs a.rho "`rho` is invalid!"
  let position := optimizer (hestonLoss a) (hestonInitialPosition a)
  pure (hestonUnpack a position)

end Model
