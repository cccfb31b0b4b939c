import Verif.Model.NormalCdf
import Mathlib.Analysis.SpecialFunctions.Log.Basic

/-!
# Model of `barrier_price`, `tf_quant_finance/black_scholes/vanilla_prices.py` L185-446

One element of the batch over the reals. An argument the caller leaves out is `none`. Volatility and expiry are positive and
prices are positive (otherwise the code divides by zero or takes logarithms of numbers that are not positive).
-/

namespace Model

structure BarrierArgs where
  volatility : ℝ
  strike : ℝ
  expiry : ℝ
  spot : ℝ
  barrier : ℝ
  rebate : Option ℝ := none
  discountRate : Option ℝ := none
  dividendRate : Option ℝ := none
  isDown : Option Bool := none
  isKnockOut : Option Bool := none
  isCall : Option Bool := none

/-- `mask_matrix_greater_strike`, L356-364. -/
def barrierMasksGreater : List (List Int) := [
  [1, 1, -1, -1, 0, 0, 1, 1, 1, 1, 0, 0],
  [1, 1, 0, 0, 0, 0, 0, 0, 1, 1, 0, 0],
  [0, 0, 1, 1, 0, 0, -1, -1, 0, 0, 1, 1],
  [0, 0, 0, 0, 0, 0, 0, 0, 0, 0, 1, 1],
  [0, 0, 1, 1, -1, -1, 1, 1, 0, 0, 1, 1],
  [0, 0, 0, 0, 1, 1, 0, 0, 1, 1, 0, 0],
  [1, 1, -1, -1, 1, 1, -1, -1, 0, 0, 1, 1],
  [1, 1, 0, 0, -1, -1, 0, 0, 0, 0, 1, 1]]

/-- `mask_matrix_lower_strike`, L366-374. -/
def barrierMasksLower : List (List Int) := [
  [0, 0, 0, 0, 1, 1, 0, 0, 1, 1, 0, 0],
  [0, 0, 1, 1, -1, -1, 1, 1, 1, 1, 0, 0],
  [1, 1, 0, 0, -1, -1, 0, 0, 0, 0, 1, 1],
  [1, 1, -1, -1, 1, 1, -1, -1, 0, 0, 1, 1],
  [1, 1, 0, 0, 0, 0, 0, 0, 1, 1, 0, 0],
  [1, 1, -1, -1, 0, 0, 1, 1, 1, 1, 0, 0],
  [0, 0, 0, 0, 0, 0, 0, 0, 0, 0, 1, 1],
  [0, 0, 1, 1, 0, 0, -1, -1, 0, 0, 1, 1]]

/-- The row of the mask table, L345-349: `tf.where(flag, 1, 0)`, missing flags are 1. -/
def barrierIndex (a : BarrierArgs) : Nat :=
  let bit (f : Option Bool) : Nat := if f.getD true then 1 else 0
  (bit a.isDown <<< 2) + (bit a.isKnockOut <<< 1) + bit a.isCall

/-- `barrier_price`, L185-446. -/
noncomputable def barrierPrice (a : BarrierArgs) : ℝ :=
  let spot := a.spot
  let strike := a.strike
  let barrier := a.barrier
  let rebate := a.rebate.getD 0
  let rate := a.discountRate.getD 0
  let dividend := a.dividendRate.getD 0
  let masks : List Int :=
    (if strike > barrier then barrierMasksGreater else barrierMasksLower).getD (barrierIndex a) []
  let callOrPut : ℝ := if a.isCall.getD true then 1 else -1
  let belowOrAbove : ℝ := if a.isDown.getD true then 1 else -1
  let sqrtVar := a.volatility * Real.sqrt a.expiry
  let mu := (rate - dividend) - (a.volatility ^ 2) / 2
  let lamda := 1 + mu / (a.volatility ^ 2)
  let x := Real.log (spot / strike) / sqrtVar + lamda * sqrtVar
  let x1 := Real.log (spot / barrier) / sqrtVar + lamda * sqrtVar
  let y := Real.log ((barrier ^ 2) / (spot * strike)) / sqrtVar + lamda * sqrtVar
  let y1 := Real.log (barrier / spot) / sqrtVar + lamda * sqrtVar
  let b := (mu ^ 2 + 2 * (a.volatility ^ 2) * rate) / (a.volatility ^ 2)
  let z := Real.log (barrier / spot) / sqrtVar + b * sqrtVar
  let ea := mu / (a.volatility ^ 2)
  let discountFactor := Real.exp (-rate * a.expiry)
  let ratio := barrier / spot
  let spotTerm := callOrPut * spot * Real.exp (-dividend * a.expiry)
  let strikeTerm := callOrPut * strike * discountFactor
  let terms : List ℝ := [
    spotTerm, -strikeTerm,
    spotTerm, -strikeTerm,
    spotTerm * ratio ^ (2 * lamda),
    -strikeTerm * ratio ^ (2 * lamda - 2),
    spotTerm * ratio ^ (2 * lamda),
    -strikeTerm * ratio ^ (2 * lamda - 2),
    rebate * discountFactor,
    -rebate * discountFactor * ratio ^ (2 * lamda - 2),
    rebate * ratio ^ (ea + b),
    rebate * ratio ^ (ea - b)]
  let cdfs : List ℝ := [
    callOrPut * x,
    callOrPut * (x - sqrtVar),
    callOrPut * x1,
    callOrPut * (x1 - sqrtVar),
    belowOrAbove * y,
    belowOrAbove * (y - sqrtVar),
    belowOrAbove * y1,
    belowOrAbove * (y1 - sqrtVar),
    belowOrAbove * (x1 - sqrtVar),
    belowOrAbove * (y1 - sqrtVar),
    belowOrAbove * z,
    belowOrAbove * (z - 2 * b * sqrtVar)].map ncdf
  (List.zipWith (· * ·) (List.zipWith (fun (m : Int) t => (m : ℝ) * t) masks terms) cdfs).sum

end Model
