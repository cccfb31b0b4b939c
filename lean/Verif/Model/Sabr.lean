import Verif.Model.VanillaPrices
import Mathlib.Analysis.SpecialFunctions.Pow.Real

/-!
# Model of `tf_quant_finance/models/sabr/approximations`: `implied_volatility.py`, `european_options.py`

One option over the reals. Strike and forward, shifted, are positive and the correlation is strictly between -1 and 1, so that the
powers, logarithms and divisions are those of the code. `approximation_type` has one value and is not used (L154).
-/

namespace Model

/-- `SabrImpliedVolatilityType` L33-53. -/
inductive SabrVolType where
  | normal
  | lognormal
deriving DecidableEq

/-- The arguments of `implied_volatility` L56-68 for one option. -/
structure SabrArgs where
  strike : ℝ
  expiry : ℝ
  forward : ℝ
  alpha : ℝ
  beta : ℝ
  volvol : ℝ
  rho : ℝ
  shift : ℝ := 0

/-- `_denom` L237-240. -/
noncomputable def sabrDenom (beta logFByK : ℝ) : ℝ :=
  let s := (1 - beta) * logFByK
  let sSquared := s * s
  1 + sSquared / 24 + sSquared * sSquared / 1920

/-- `_zeta_by_xhat` L225-234; `eps` is the result of `_epsilon` L219-222, and `divide_no_nan` is Lean's division. -/
noncomputable def sabrZetaByXhat (eps zeta rho : ℝ) : ℝ :=
  let zbxh := zeta / Real.log ((Real.sqrt (1 - 2 * rho * zeta + zeta * zeta) - rho + zeta) / (1 - rho))
  if |zeta| > eps then zbxh else 1

/-- `implied_volatility` L56-216. -/
noncomputable def sabrImpliedVol (eps : ℝ) (type : SabrVolType) (a : SabrArgs) : ℝ :=
  let strike := a.strike + a.shift
  let forward := a.forward + a.shift
  let moneyness := forward / strike
  let logMoneyness := Real.log moneyness
  let adjMoneyness := moneyness ^ (1 - a.beta)
  let sqrtAdjMoneyness := Real.sqrt adjMoneyness
  let adjAlpha := a.alpha * strike ^ (a.beta - 1)
  let zeta := (a.volvol / adjAlpha) * sqrtAdjMoneyness * logMoneyness
  let zetaByXhat := sabrZetaByXhat eps zeta a.rho
  let denom := sabrDenom a.beta logMoneyness
  let correction2 := (a.rho * a.beta / 4) * (1 / sqrtAdjMoneyness) * (adjAlpha * a.volvol * a.expiry)
  let correction3 := (2 - 3 * a.rho * a.rho) / 24 * (a.volvol * a.volvol * a.expiry)
  match type with
  | .normal =>
    let correction1 := (-a.beta * (2 - a.beta) / 24) * (1 / adjMoneyness) * (adjAlpha * adjAlpha * a.expiry)
    let number := sabrDenom 0 logMoneyness
    adjAlpha * strike * moneyness ^ (a.beta / 2) * (number / denom) * zetaByXhat * (1 + correction1 + correction2 + correction3)
  | .lognormal =>
    let correction1 := ((1 - a.beta) * (1 - a.beta) / 24) * (1 / adjMoneyness) * (adjAlpha * adjAlpha * a.expiry)
    adjAlpha * (1 / sqrtAdjMoneyness) * (1 / denom) * zetaByXhat * (1 + correction1 + correction2 + correction3)

/-- `option_price` of `european_options.py` L24-161. -/
noncomputable def sabrOptionPrice (eps : ℝ) (type : SabrVolType) (isCall : Bool) (a : SabrArgs) : Except String ℝ :=
  optionPrice {
    volatility := sabrImpliedVol eps type a
    strike := a.strike + a.shift
    expiry := a.expiry
    forward := some (a.forward + a.shift)
    isCall := some isCall
    isNormal := match type with
      | .normal => true
      | .lognormal => false }

end Model
