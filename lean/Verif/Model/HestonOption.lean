import Verif.Model.Simpson
import Verif.Model.Gauss
import Mathlib.Analysis.SpecialFunctions.Complex.Log
import Mathlib.Analysis.SpecialFunctions.Pow.Complex

/-!
# Model of `tf_quant_finance/models/heston/approximations/european_option.py` and `math/integration/integrate.py`

One option per call, real numbers for the floating point ones and complex numbers for the complex ones: `tf.math.sqrt` and
`tf.math.log` of a complex number are the principal values. The numbers of points of the integration rule, its limits and its method
are arguments that may be absent, as the keyword arguments of the code.
-/

namespace Model

/-- The parameters of the model: `variances`, `mean_reversion`, `theta`, `volvol` and `rho`. -/
structure HestonOptionParams where
  variance : ℝ
  meanReversion : ℝ
  theta : ℝ
  volvol : ℝ
  rho : ℝ

/-- `IntegrationMethod`, `integration_method.py`. -/
inductive IntegrationMethod where
  | compositeSimpsonsRule
  | gaussLegendre
  | other
deriving DecidableEq

/-- `integrate`, `integrate.py` L77-86; the number of points of the two rules has no default here, `lower` and `upper` are mandatory.
The default of `simpson` is 1001 points, the one of `gauss_legendre` 32 points. -/
def integrate {K : Type} [Field K] (func : K → K) (lower upper : K) (method : IntegrationMethod) (numPoints : Option Nat) : Except String K :=
  match method with
  | .compositeSimpsonsRule => simpson func lower upper (numPoints.getD 1001)
  | .gaussLegendre =>
    match gaussLegendre func lower upper (numPoints.getD 32) with
    | some r => .ok r
    | none => .error "unsupported number of points"
  | .other => .error "Unknown method"

namespace HestonOptionParams

/-- L235-237 `s`, at the real number `u`. -/
noncomputable def s (p : HestonOptionParams) (u : ℝ) : ℂ := (p.rho : ℂ) * p.volvol * (u * Complex.I)

/-- L238-244 `d`. -/
noncomputable def d (p : HestonOptionParams) (u : ℝ) : ℂ :=
  let sMeanReversion := (p.s u - p.meanReversion) * p.s u - (p.s u - p.meanReversion) * p.meanReversion
  (sMeanReversion - (p.volvol : ℂ) ^ 2 * (-(u * Complex.I) - (u : ℂ) ^ 2)) ^ ((2 : ℕ)⁻¹ : ℂ)

/-- L245 `g`. -/
noncomputable def g (p : HestonOptionParams) (u : ℝ) : ℂ := (p.meanReversion - p.s u - p.d u) / (p.meanReversion - p.s u + p.d u)

/-- L247 `h`, at expiry `t`. -/
noncomputable def h (p : HestonOptionParams) (u t : ℝ) : ℂ := p.g u * Complex.exp (-p.d u * t)

/-- L246, L248-250 `c`. -/
noncomputable def c (p : HestonOptionParams) (u t : ℝ) : ℂ :=
  let a := (p.meanReversion : ℂ) * p.theta
  let m := 2 * Complex.log ((1 - p.h u t) / (1 - p.g u))
  a / (p.volvol : ℂ) ^ 2 * ((p.meanReversion - p.s u - p.d u) * t - m)

/-- L251-252 `d_new`. -/
noncomputable def dNew (p : HestonOptionParams) (u t : ℝ) : ℂ :=
  let e := 1 - Complex.exp (-p.d u * t)
  (p.meanReversion - p.s u - p.d u) / (p.volvol : ℂ) ^ 2 * (e / (1 - p.h u t))

/-- L231-253 `char_fun`. -/
noncomputable def charFun (p : HestonOptionParams) (t u : ℝ) : ℂ := Complex.exp (p.c u t + p.dNew u t * p.variance)

end HestonOptionParams

/-- L255-265 `integrand_function`, for the characteristic function `charFun`. -/
noncomputable def attariIntegrand (charFun : ℝ → ℂ) (k u : ℝ) : ℝ :=
  let z := charFun u
  let a := (z.re + z.im / u) * Real.cos (u * k)
  let b := (z.im - z.re / u) * Real.sin (u * k)
  (a + b) / (1 + u * u)

/-- The keyword arguments of the integration. -/
structure IntegrationArgs where
  method : Option IntegrationMethod := none
  lower : Option ℝ := none
  upper : Option ℝ := none
  numPoints : Option Nat := none

/-- L222-230 and L269-273: the integral. The limits default to `1e-9` and `100` only for the rule of Simpson. -/
noncomputable def hestonIntegral (args : IntegrationArgs) (f : ℝ → ℝ) : Except String ℝ :=
  let method := args.method.getD .compositeSimpsonsRule
  if method = .compositeSimpsonsRule then
    integrate f (args.lower.getD (1 / 10 ^ 9)) (args.upper.getD 100) method (some (args.numPoints.getD 1001))
  else
    match args.lower, args.upper with
    | some lower, some upper => integrate f lower upper method args.numPoints
    | _, _ => .error "missing argument"

/-- The arguments of `european_option_price`, L30-47. -/
structure HestonOptionArgs where
  strike : ℝ
  expiry : ℝ
  spot : Option ℝ := none
  forward : Option ℝ := none
  isCall : Option Bool := none
  discountRate : Option ℝ := none
  dividendRate : Option ℝ := none
  discountFactor : Option ℝ := none
  params : HestonOptionParams
  integration : IntegrationArgs := {}

namespace HestonOptionArgs

/-- L161-166: the checks of the arguments. -/
noncomputable def check (a : HestonOptionArgs) : Except String Unit :=
  if a.spot.isNone = a.forward.isNone then .error "Either spots or forwards must be supplied but not both."
  else if a.discountRate.isSome ∧ a.discountFactor.isSome then .error "At most one of discount_rates and discount_factors may be supplied"
  else .ok ()

/-- L182-189 `discount_rates`. -/
noncomputable def rate (a : HestonOptionArgs) : ℝ :=
  match a.discountRate, a.discountFactor with
  | some r, _ => r
  | none, some df => -Real.log df / a.expiry
  | none, none => 0

/-- L196-197 `discount_factors`. -/
noncomputable def factor (a : HestonOptionArgs) : ℝ :=
  match a.discountFactor with
  | some df => df
  | none => Real.exp (-a.rate * a.expiry)

/-- L191-194, L199-204 `forwards`. -/
noncomputable def forwardPrice (a : HestonOptionArgs) : ℝ :=
  match a.forward with
  | some f => f
  | none => a.spot.getD 0 * Real.exp ((a.rate - a.dividendRate.getD 0) * a.expiry)

/-- L274 `undiscounted_call_prices`, for the value `integral`. -/
noncomputable def undiscountedCall (a : HestonOptionArgs) (integral : ℝ) : ℝ :=
  a.forwardPrice - a.strike * (0.5 + integral / Real.pi)

end HestonOptionArgs

/-- `european_option_price` L161-288. -/
noncomputable def hestonPrice (a : HestonOptionArgs) : Except String ℝ := do
  a.check
  let k := Real.log (a.strike / a.forwardPrice)
  let integral ← hestonIntegral a.integration (attariIntegrand (a.params.charFun a.expiry) k)
  let call := a.undiscountedCall integral
  match a.isCall with
  | none => .ok (call * a.factor)
  | some isCall =>
    let put := call - a.forwardPrice + a.strike
    .ok ((if isCall then call else put) * a.factor)

end Model
