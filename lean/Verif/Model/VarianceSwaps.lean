import Verif.Model.Segments
import Verif.Model.VanillaPrices

/-!
# Model of `tf_quant_finance/black_scholes/variance_swaps.py`

One element of the batch over the reals (so the test for descending strikes L95, which the code makes for the whole batch, is
made for one list; all lists of a batch must be ordered alike). `divide_no_nan` is Lean's division.
-/

namespace Model

open Classical in
/-- `replicating_weights`, L21-114. -/
noncomputable def replicatingWeights (strikes : List ℝ) (reference expiry : ℝ) (validate : Bool) :
    Except String (List ℝ) :=
  let strikeDiff := diff strikes 1 true
  let descending : Prop := ∀ d ∈ strikeDiff, d < 0
  let ascending : Prop := ∀ d ∈ strikeDiff, d > 0
  if validate = true ∧ ¬(descending ∨ ascending) then .error "assertion failed"
  else
    let payoff := strikes.map (fun k =>
      2 / expiry * ((k - reference) / reference - (Real.log k - Real.log reference)))
    let payoffDiff := diff payoff 1 true
    let rVals := List.zipWith (fun a b => a / b) payoffDiff strikeDiff
    let rValsDiff := diff (0 :: rVals) 1 true
    .ok (if descending then rValsDiff.map (fun r => -r) else rValsDiff)

/-- The prices of the options L257-272: the last strike is left out. -/
noncomputable def replicationPrices (strikes volatilities : List ℝ) (expiry rate spot : ℝ) (isCall : Bool) :
    Except String (List ℝ) :=
  (List.zip strikes.dropLast volatilities.dropLast).mapM (fun p => optionPrice {
    volatility := p.2
    strike := p.1
    expiry := expiry
    spot := some spot
    discountRate := some rate
    isCall := some isCall })

/-- `fair_strike`, L117-288. The length check L235-241 is not an assertion in the code (its result is not used), so it is
left out; the lists are assumed to have equal length. -/
noncomputable def fairStrike (putStrikes putVolatilities callStrikes callVolatilities : List ℝ)
    (expiry rate spot reference : ℝ) (validate : Bool) : Except String ℝ := do
  let putWeights ← replicatingWeights putStrikes reference expiry validate
  let callWeights ← replicatingWeights callStrikes reference expiry validate
  let putPrices ← replicationPrices putStrikes putVolatilities expiry rate spot false
  let callPrices ← replicationPrices callStrikes callVolatilities expiry rate spot true
  let effectiveRate := expiry * rate
  let discountFactor := Real.exp effectiveRate
  let sRatio := spot / reference
  let centrality := 2 / expiry * (effectiveRate - discountFactor * sRatio + 1 + Real.log sRatio)
  let optionsValue := discountFactor * ((List.zipWith (fun w p => w * p) putWeights putPrices).sum +
    (List.zipWith (fun w p => w * p) callWeights callPrices).sum)
  pure (optionsValue + centrality)

end Model
