import Mathlib.Analysis.SpecialFunctions.Pow.Real
import Mathlib.Analysis.SpecialFunctions.Log.Basic

/-!
# Model of `tf_quant_finance/black_scholes/crr_binomial_tree.py`

One option of the batch. Floats are real numbers; the trailing grid axis is a list, its first entry being the highest node.
-/

namespace Model

/-- The arguments of `option_price_binomial` L20-31. A missing rate is the rate 0 (L121-130), a missing `is_call_options` is
`true` and a missing `is_american` is `false` (L131-142). -/
structure CrrOption where
  volatility : ℝ
  strike : ℝ
  expiry : ℝ
  spot : ℝ
  discountRate : ℝ
  dividendRate : ℝ
  isCall : Bool
  isAmerican : Bool
  numSteps : ℕ

/-- `_get_payoff_fn` L199-216. -/
noncomputable def crrPayoff (strike : ℝ) (isCall : Bool) (spot : ℝ) : ℝ :=
  let sign : ℝ := (if isCall then 1 else 0) * 2 - 1
  max ((spot - strike) * sign) 0

/-- `_get_value_modifier` L219-227. -/
noncomputable def crrModifier (isAmerican : Bool) (payoff : ℝ → ℝ) (value spot : ℝ) : ℝ :=
  if isAmerican then max (payoff spot) value else value

/-- `one_step_back` L177-182. -/
noncomputable def crrStepBack (isAmerican : Bool) (payoff : ℝ → ℝ) (pUp pDn discount lnUp : ℝ) (state : List ℝ × List ℝ) :
    List ℝ × List ℝ :=
  let values := state.1
  let logSpots := state.2
  let nextValues := List.zipWith (fun below above => below * pDn + above * pUp) (values.drop 1) values.dropLast
  let nextLogSpots := logSpots.dropLast.map (fun x => x - lnUp)
  let modified := List.zipWith (crrModifier isAmerican payoff) nextValues (nextLogSpots.map Real.exp)
  (modified.map (fun v => discount * v), nextLogSpots)

/-- `option_price_binomial` L113-196. -/
noncomputable def optionPriceBinomial (o : CrrOption) : ℝ :=
  let n : ℝ := (o.numSteps : ℝ)
  let dt := o.expiry / n
  let lnUp := o.volatility * Real.sqrt dt
  let lnDn := -lnUp
  let gridIdx := (List.range (o.numSteps + 1)).map (fun i : ℕ => (i : ℝ))
  let logSpotGrid1 := Real.log o.spot + lnUp * n
  let logSpotGrid := gridIdx.map (fun i => logSpotGrid1 + (lnDn - lnUp) * i)
  let payoff := crrPayoff o.strike o.isCall
  let valuesGrid := logSpotGrid.map (fun x => payoff (Real.exp x))
  let pUp := (Real.exp ((o.discountRate - o.dividendRate) * dt + lnUp) - 1) / (Real.exp (2 * lnUp) - 1)
  let pDn := 1 - pUp
  let discount := Real.exp (-o.discountRate * dt)
  let pv := (crrStepBack o.isAmerican payoff pUp pDn discount lnUp)^[o.numSteps] (valuesGrid, logSpotGrid)
  if o.expiry > 0 then pv.1.getD 0 0
  else if o.isCall then max (o.spot - o.strike) 0 else max (o.strike - o.spot) 0

end Model
