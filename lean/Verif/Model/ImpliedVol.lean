import Verif.Model.NormalCdf
import Verif.Model.Newton
import Mathlib.Analysis.SpecialFunctions.Log.Basic

/-!
# Model of `tf_quant_finance/black_scholes/implied_vol_newton_root.py` and `implied_vol_approximation.py`

One option is an element of the batch. Values are real; a value that is not finite is `none` as in the model of
`root_search/newton.py`. `validate_args` is in `Verif.Model.Validation`.
-/

namespace Model

/-- The arguments of `implied_vol` that describe one option (newton L36-50, approximation L20-31). -/
structure IvArgs where
  price : ℝ
  strike : ℝ
  expiry : ℝ
  spot : Option ℝ := none
  forward : Option ℝ := none
  discountFactor : Option ℝ := none
  isCall : Option Bool := none
  isNormal : Bool := false

/-- newton L138-139, approximation L112-113. -/
def ivCheck (a : IvArgs) : Except String Unit :=
  if a.spot.isNone == a.forward.isNone then .error "Either spots or forwards must be supplied but not both." else .ok ()

/-- newton L152-157, approximation L121-126. -/
noncomputable def ivDiscountFactor (a : IvArgs) : ℝ := a.discountFactor.getD 1

/-- newton L159-163, approximation L128-132. -/
noncomputable def ivForward (a : IvArgs) : ℝ :=
  match a.forward with
  | some f => f
  | none => a.spot.getD 0 / ivDiscountFactor a

/-- `_cdf`, newton L28-29. -/
noncomputable def ivCdf (x : ℝ) : ℝ := (erf (x / Real.sqrt 2) + 1) / 2

/-- `_pdf`, newton L32-33. -/
noncomputable def ivPdf (x : ℝ) : ℝ := Real.exp (-0.5 * x ^ 2) / Real.sqrt (2 * Real.pi)

/-- `_get_normalizations`, newton L250-283: the normalized price and the normalization. -/
noncomputable def ivNormalizations (price forward strike discountFactor : ℝ) : ℝ × ℝ :=
  let normalization := if |strike| ≥ |forward| then |strike| else |forward|
  let normalization := if normalization = 0 then 1 else normalization
  (price / normalization / discountFactor, normalization)

/-- `_make_black_lognormal_objective_and_vega_func`, newton L286-364. For volatility (or expiry) zero `d1` is a division by
zero and the vega vanishes or is not a number; the Newton step is then not finite either way. -/
noncomputable def blackObjectiveAndVega (a : IvArgs) : ValueAndGrad ℝ := fun volatility =>
  let forward := ivForward a
  let n := ivNormalizations a.price forward a.strike (ivDiscountFactor a)
  let normForward := forward / n.2
  let normStrike := a.strike / n.2
  let lnz := Real.log forward - Real.log a.strike
  let sqrtT := Real.sqrt a.expiry
  let volT := volatility * sqrtT
  if volT = 0 then (none, none) else
  let d1 := lnz / volT + volT / 2
  let d2 := d1 - volT
  let impliedPrice := normForward * ivCdf d1 - normStrike * ivCdf d2
  let impliedPrice := match a.isCall with
    | none => impliedPrice
    | some isCall => if isCall then impliedPrice else impliedPrice - normForward + normStrike
  let vega := normForward * ivPdf d1 * sqrtT / ivDiscountFactor a
  (some (impliedPrice - n.1), some vega)

/-- `_make_bachelier_objective_and_vega_func`, newton L367-442. -/
noncomputable def bachelierObjectiveAndVega (a : IvArgs) : ValueAndGrad ℝ := fun volatility =>
  let forward := ivForward a
  let n := ivNormalizations a.price forward a.strike (ivDiscountFactor a)
  let normForward := forward / n.2
  let normStrike := a.strike / n.2
  let sqrtT := Real.sqrt a.expiry
  let vols := volatility * sqrtT / n.2
  if vols = 0 then (none, none) else
  let d1 := (normForward - normStrike) / vols
  let impliedPrice := (normForward - normStrike) * ivCdf d1 + vols * ivPdf d1
  let impliedPrice := match a.isCall with
    | none => impliedPrice
    | some isCall => if isCall then impliedPrice else impliedPrice - normForward + normStrike
  let vega := ivPdf d1 * sqrtT / ivDiscountFactor a / n.2
  (some (impliedPrice - n.1), some vega)

/-- The choice of the pricer in `_newton_implied_vol`, newton L233-240. -/
noncomputable def ivObjectiveAndVega (a : IvArgs) : ValueAndGrad ℝ :=
  if a.isNormal then bachelierObjectiveAndVega a else blackObjectiveAndVega a

/-- `_newton_implied_vol`, newton L188-247, on a batch of options with given initial volatilities. `rel` is the default
relative tolerance of the root finder. -/
noncomputable def newtonImpliedVol (rel tolerance : ℝ) (maxIterations : Nat) (options : List IvArgs)
    (initialVolatilities : List (Option ℝ)) : List (NewtonCell ℝ) :=
  rootFinder rel tolerance maxIterations (options.map ivObjectiveAndVega) initialVolatilities

/-- `_get_quadratic_coeffs`, approximation L266-325: `a`, `b` and the logarithm of `c`. -/
noncomputable def polyaQuadraticCoeffs (price forward logForward optionSign polya : ℝ) : ℝ × ℝ × ℝ :=
  let q1 := forward - 1
  let q2 := forward + 1
  let r := 2 * price - optionSign * q1
  let f1 := forward ^ (-polya)
  let f2 := 1 / f1
  let g1 := f1 * forward
  let g2 := 1 / g1
  let a := (g1 - g2) ^ 2
  let h := forward ^ 2
  let r2 := r ^ 2
  let b := 4 * (f1 + f2) - 2 * (g1 + g2) * (1 + h - r2) / forward
  let lnc1 := Real.log (4 * price) + Real.log (price - optionSign * q1)
  let lnc2 := Real.log (q2 - r) + Real.log (q2 + r)
  let lnc := lnc1 + lnc2 - 2 * logForward
  (a, b, lnc)

/-- `tf.math.sign`. -/
noncomputable def tfSign (x : ℝ) : ℝ := if 0 < x then 1 else if x < 0 then -1 else 0

/-- `_approx_implied_vol_polya`, approximation L191-263, on the normalized price and forward. -/
noncomputable def approxImpliedVolPolya (price forward expiry : ℝ) (isCall : Option Bool) (polya : ℝ) : ℝ :=
  let flooredForward := max forward 1
  let cappedForward := min forward 1
  let logForward := Real.log forward
  let signLogForward := tfSign logForward
  let optionSign : ℝ := match isCall with
    | none => 1
    | some isCall => if isCall then 1 else -1
  let sign := optionSign * signLogForward
  let cdf := 0.5 + 0.5 * sign * Real.sqrt (-(Real.exp (-2 * polya * |logForward|) - 1))
  let threshold := sign * (flooredForward * cdf - cappedForward / 2)
  let coeffs := polyaQuadraticCoeffs price forward logForward optionSign polya
  let a := coeffs.1
  let b := coeffs.2.1
  let lnc := coeffs.2.2
  let c := Real.exp lnc
  let lnbeta := Real.log 2 + lnc - Real.log (b + Real.sqrt (b * b + 4 * a * c))
  let gamma := -lnbeta / polya
  let term1 := Real.sqrt (gamma + logForward)
  let term2 := Real.sqrt (gamma - logForward)
  let sqrtVar := if price ≤ threshold then signLogForward * (term1 - term2) else term1 + term2
  sqrtVar / Real.sqrt expiry

/-- `implied_vol` of the approximation, L20-144. -/
noncomputable def approxImpliedVol (a : IvArgs) (polya : ℝ := 2 / Real.pi) : Except String ℝ := do
  ivCheck a
  let discountFactor := ivDiscountFactor a
  let forward := ivForward a
  let adjustedStrike := a.strike * discountFactor
  pure (approxImpliedVolPolya (a.price / adjustedStrike) (forward / a.strike) a.expiry a.isCall polya)

/-- `implied_vol`, newton L36-185, for one option: the arguments are checked, the starting point is the given one, the
approximation (lognormal) or `price / pdf(0)` (normal). -/
noncomputable def impliedVolNewton (a : IvArgs) (initialVolatility : Option ℝ) (rel tolerance : ℝ) (maxIterations : Nat) :
    Except String (List (NewtonCell ℝ)) := do
  ivCheck a
  let start ← match initialVolatility with
    | some v => pure v
    | none => if a.isNormal then pure (a.price / (1 / Real.sqrt (2 * Real.pi))) else approxImpliedVol a
  pure (newtonImpliedVol rel tolerance maxIterations [a] [some start])

end Model
