import Verif.Model.Sabr

/-!
# Model of `tf_quant_finance/models/sabr/approximations/calibration.py`

One element of the batch over the reals. The optimizer is an arbitrary function of the loss function and the initial position; the gradient of
the loss function that the code supplies with it is not modelled, nor are the number of iterations and the convergence flag. The implied
volatilities of the input prices (L435-441) are given by an arbitrary function of the quote; their computation is modelled in
`Model/ImpliedVol.lean`. An infinite position (the logarithm of zero or of a division by zero) is `none`.
-/

namespace Model

/-- One quoted option, L59-63. -/
structure SabrQuote where
  price : ℝ
  strike : ℝ
  expiry : ℝ
  forward : ℝ
  isCall : Bool

/-- A starting value with its bounds. -/
structure Bounded where
  value : ℝ
  lower : ℝ
  upper : ℝ

/-- The arguments of `calibration` L57-85. A missing `alpha` is `none`, and its bounds are then ignored. -/
structure SabrCalibrationArgs where
  quotes : List SabrQuote
  beta : Bounded
  volvol : Bounded
  rho : Bounded
  alpha : Option Bounded := none
  type : SabrVolType := .lognormal
  volatilityBased : Bool := true
  calibrateBeta : Bool := false
  validateArgs : Bool := false

/-- `CalibrationResult` L38-54. -/
structure SabrParameters where
  alpha : ℝ
  beta : ℝ
  volvol : ℝ
  rho : ℝ

/-- `_scale` L557-559. -/
noncomputable def sabrScale (x lb ub : ℝ) : ℝ := (x - lb) / (ub - lb)

/-- `_to_unconstrained` L562-565. The scaled value zero makes the code take the logarithm of infinity, one that of zero. -/
noncomputable def toUnconstrained (b : Bounded) : Option ℝ :=
  let x := sabrScale b.value b.lower b.upper
  if x = 0 ∨ x = 1 then none else some (-Real.log ((1 - x) / x))

/-- `_to_constrained` L568-571. -/
noncomputable def toConstrained (x lb ub : ℝ) : ℝ :=
  let x := 1 / (1 + Real.exp (-x))
  x * (ub - lb) + lb

/-- `_assert_parameter_valid` L574-584. -/
noncomputable def assertParameterValid (validateArgs : Bool) (b : Bounded) (message : String) : Except String Unit :=
  if validateArgs then
    if b.value < b.lower then .error message
    else if b.value > b.upper then .error message
    else .ok ()
  else .ok ()

/-- `alpha` and its bounds, L307-319. -/
noncomputable def sabrAlpha (a : SabrCalibrationArgs) : Bounded :=
  match a.alpha with
  | some alpha => alpha
  | none =>
    let alpha := (a.quotes.map (·.forward)).sum / a.quotes.length
    let alpha := alpha ^ (1 - a.beta.value) * 0.1
    { value := alpha, lower := alpha * 0.1, upper := alpha * 10 }

/-- `_OptimizerArgHandler` L507-554; `packed_optimizer_args[..., -1]` is the last entry. -/
noncomputable def sabrUnpack (a : SabrCalibrationArgs) (x : List ℝ) : SabrParameters where
  alpha := toConstrained (x.getD 0 0) (sabrAlpha a).lower (sabrAlpha a).upper
  volvol := toConstrained (x.getD 1 0) a.volvol.lower a.volvol.upper
  rho := toConstrained (x.getD 2 0) a.rho.lower a.rho.upper
  beta := if a.calibrateBeta then toConstrained (x.getLastD 0) a.beta.lower a.beta.upper else a.beta.value

/-- The arguments of one option for the candidate parameters, L451-461, L487-498. -/
def sabrQuoteArgs (q : SabrQuote) (p : SabrParameters) : SabrArgs where
  strike := q.strike
  expiry := q.expiry
  forward := q.forward
  alpha := p.alpha
  beta := p.beta
  volvol := p.volvol
  rho := p.rho

/-- The loss of volatility based calibration, L443-463. -/
noncomputable def sabrVolLoss (eps : ℝ) (targetVol : SabrQuote → ℝ) (a : SabrCalibrationArgs) (x : List ℝ) : ℝ :=
  let p := sabrUnpack a x
  (a.quotes.map fun q => (targetVol q - sabrImpliedVol eps a.type (sabrQuoteArgs q p)) ^ 2).sum / a.quotes.length

/-- The price of `european_option_price`, L487-498; with the forward supplied it does not fail. -/
noncomputable def sabrValue (eps : ℝ) (type : SabrVolType) (q : SabrQuote) (p : SabrParameters) : ℝ :=
  match sabrOptionPrice eps type q.isCall (sabrQuoteArgs q p) with
  | .ok v => v
  | .error _ => 0

/-- The loss of price based calibration, L474-502; `log1p x` is `log (1 + x)`. -/
noncomputable def sabrPriceLoss (eps : ℝ) (a : SabrCalibrationArgs) (x : List ℝ) : ℝ :=
  let p := sabrUnpack a x
  (a.quotes.map fun q => (Real.log (1 + sabrValue eps a.type q p) - Real.log (1 + q.price)) ^ 2).sum / a.quotes.length

/-- The choice of the loss, L380-402. -/
noncomputable def sabrLoss (eps : ℝ) (targetVol : SabrQuote → ℝ) (a : SabrCalibrationArgs) : List ℝ → ℝ :=
  if a.volatilityBased then sabrVolLoss eps targetVol a else sabrPriceLoss eps a

/-- The starting point, L329-366. -/
noncomputable def sabrInitialPosition (a : SabrCalibrationArgs) : List (Option ℝ) :=
  if a.calibrateBeta then
    [toUnconstrained (sabrAlpha a), toUnconstrained a.volvol, toUnconstrained a.rho, toUnconstrained a.beta]
  else
    [toUnconstrained (sabrAlpha a), toUnconstrained a.volvol, toUnconstrained a.rho]

/-- `calibration` L57-420. -/
noncomputable def sabrCalibration (eps : ℝ) (targetVol : SabrQuote → ℝ) (optimizer : (List ℝ → ℝ) → List (Option ℝ) → List ℝ)
    (a : SabrCalibrationArgs) : Except String SabrParameters := do
  assertParameterValid a.validateArgs a.beta "`beta` is invalid!"
  assertParameterValid a.validateArgs (sabrAlpha a) "`alpha` is invalid!"
  assertParameterValid a.validateArgs a.volvol "`volvol` is invalid!"
  assertParameterValid a.validateArgs a.rho "`rho` is invalid!"
  let position := optimizer (sabrLoss eps targetVol a) (sabrInitialPosition a)
  pure (sabrUnpack a position)

end Model
