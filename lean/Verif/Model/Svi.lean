import Mathlib.Analysis.SpecialFunctions.Log.Basic
import Mathlib.Analysis.SpecialFunctions.Sqrt

/-!
# Model of `tf_quant_finance/experimental/svi/parameterizations.py`

Real numbers, one smile and one strike.
-/

namespace Model

/-- The five raw parameters. -/
structure SviParameters where
  a : ℝ
  b : ℝ
  rho : ℝ
  m : ℝ
  sigma : ℝ

/-- L103-118: the checks, and the log-moneyness. -/
noncomputable def sviLogMoneyness (logMoneyness forward strike : Option ℝ) : Except String ℝ :=
  if strike.isNone != forward.isNone then
    .error "Either both `forwards` and `strikes` must be supplied, or neither."
  else if logMoneyness.isNone == forward.isNone then
    .error "Exactly one of `log_moneyness` or `forwards` must be provided."
  else
    match logMoneyness, forward, strike with
    | some k, _, _ => .ok k
    | none, some f, some x => .ok (Real.log (x / f))
    | none, _, _ => .error "unreachable"

/-- L26-132 `total_variance_from_raw_svi_parameters`. -/
noncomputable def sviTotalVariance (p : SviParameters) (logMoneyness forward strike : Option ℝ) : Except String ℝ := do
  let k ← sviLogMoneyness logMoneyness forward strike
  return p.a + p.b * (p.rho * (k - p.m) + Real.sqrt ((k - p.m) ^ 2 + p.sigma ^ 2))

/-- L135-226 `implied_volatility_from_raw_svi_parameters`. -/
noncomputable def sviImpliedVolatility (p : SviParameters) (logMoneyness forward strike : Option ℝ) (expiry : ℝ) :
    Except String ℝ := do
  let w ← sviTotalVariance p logMoneyness forward strike
  return Real.sqrt (w / expiry)

end Model
