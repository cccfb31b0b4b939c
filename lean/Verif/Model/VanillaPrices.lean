import Verif.Model.NormalCdf
import Mathlib.Analysis.SpecialFunctions.Log.Basic

/-!
# Model of `tf_quant_finance/black_scholes/vanilla_prices.py`: European, binary and asset-or-nothing options, swaptions

One element of the batch over the reals. An argument the caller leaves out is `none`. The python value error is `Except.error`.
`divide_no_nan` is Lean's division (`x / 0 = 0`). Where the code divides by zero elsewhere the result would be NaN; this
happens only when a discount factor is supplied for the expiry 0 (L144), and in branches that `tf.where` discards.
-/

namespace Model

/-- The arguments shared by `option_price` L28-40, `binary_price` L449-461 and `asset_or_nothing_price` L608-620. -/
structure BsArgs where
  volatility : ℝ
  strike : ℝ
  expiry : ℝ
  spot : Option ℝ := none
  forward : Option ℝ := none
  discountRate : Option ℝ := none
  dividendRate : Option ℝ := none
  discountFactor : Option ℝ := none
  isCall : Option Bool := none
  isNormal : Bool := false

/-- The argument checks L124-128, L549-553, L707-711. -/
def bsCheck (a : BsArgs) : Except String Unit :=
  if a.spot.isNone == a.forward.isNone then .error "Either spots or forwards must be supplied but not both."
  else if a.discountRate.isSome && a.discountFactor.isSome then
    .error "At most one of discount_rates and discount_factors may be supplied"
  else .ok ()

/-- Discount rate and factor, L137-149, L562-574, L720-732. -/
noncomputable def bsDiscounting (a : BsArgs) : ℝ × ℝ :=
  match a.discountRate with
  | some r => (r, Real.exp (-r * a.expiry))
  | none => match a.discountFactor with
    | some df => (-Real.log df / a.expiry, df)
    | none => (0, 1)

/-- The forward price of `option_price` L151-159 and `asset_or_nothing_price` L734-742. -/
noncomputable def bsForward (a : BsArgs) : ℝ :=
  let rate := (bsDiscounting a).1
  let dividend := a.dividendRate.getD 0
  match a.forward with
  | some f => f
  | none => a.spot.getD 0 * Real.exp ((rate - dividend) * a.expiry)

/-- `option_price` L28-182. -/
noncomputable def optionPrice (a : BsArgs) : Except String ℝ := do
  bsCheck a
  let discountFactor := (bsDiscounting a).2
  let forward := bsForward a
  let sqrtVar := a.volatility * Real.sqrt a.expiry
  let undiscountedCall :=
    if a.isNormal = false then
      let d1 := Real.log (forward / a.strike) / sqrtVar + sqrtVar / 2
      let d2 := d1 - sqrtVar
      if sqrtVar > 0 then forward * ncdf d1 - a.strike * ncdf d2 else max (forward - a.strike) 0
    else
      let d1 := (forward - a.strike) / sqrtVar
      if sqrtVar > 0 then
        (forward - a.strike) * ncdf d1 + sqrtVar * Real.exp (-0.5 * d1 ^ 2) / Real.sqrt (2 * Real.pi)
      else max (forward - a.strike) 0
  match a.isCall with
  | none => pure (discountFactor * undiscountedCall)
  | some isCall =>
    let undiscountedForward := forward - a.strike
    let undiscountedPut := undiscountedCall - undiscountedForward
    pure (discountFactor * if isCall then undiscountedCall else undiscountedPut)

/-- The forward price of `binary_price` L576-584. The dividend rate is not used. -/
noncomputable def binaryForward (a : BsArgs) : ℝ :=
  match a.forward with
  | some f => f
  | none => a.spot.getD 0 / (bsDiscounting a).2

/-- `binary_price` L449-605. -/
noncomputable def binaryPrice (a : BsArgs) : Except String ℝ := do
  bsCheck a
  let discountFactor := (bsDiscounting a).2
  let forward := binaryForward a
  let sqrtVar := a.volatility * Real.sqrt a.expiry
  let d2 := if a.isNormal then (forward - a.strike) / sqrtVar else Real.log (forward / a.strike) / sqrtVar - sqrtVar / 2
  let zeroVolatilityCallPayoff : ℝ := if forward > a.strike then 1 else 0
  let undiscountedCall := if sqrtVar > 0 then ncdf d2 else zeroVolatilityCallPayoff
  match a.isCall with
  | none => pure (discountFactor * undiscountedCall)
  | some isCall =>
    let undiscountedPut := 1 - undiscountedCall
    pure (discountFactor * if isCall then undiscountedCall else undiscountedPut)

/-- `asset_or_nothing_price` L608-764. -/
noncomputable def assetOrNothingPrice (a : BsArgs) : Except String ℝ := do
  bsCheck a
  let discountFactor := (bsDiscounting a).2
  let forward := bsForward a
  let sqrtVar := a.volatility * Real.sqrt a.expiry
  let undiscountedCall :=
    if a.isNormal = false then
      let d1 := Real.log (forward / a.strike) / sqrtVar + sqrtVar / 2
      if sqrtVar > 0 then forward * ncdf d1 else if forward > a.strike then forward else 0
    else
      let d1 := (forward - a.strike) / sqrtVar
      if sqrtVar > 0 then
        forward * ncdf d1 + sqrtVar * Real.exp (-0.5 * d1 ^ 2) / Real.sqrt (2 * Real.pi)
      else if forward > a.strike then forward else 0
  match a.isCall with
  | none => pure (discountFactor * undiscountedCall)
  | some isCall =>
    let undiscountedPut := forward - undiscountedCall
    pure (discountFactor * if isCall then undiscountedCall else undiscountedPut)

/-- `swaption_price` L767-948 of one swaption. A missing notional is an error: the conversion of `None` at L928 fails. A missing `is_payer_swaption` is `true`. The
schedules enter only through the discount factors. -/
noncomputable def swaptionPrice (volatility expiry : ℝ) (floatStartDfs floatEndDfs fixedDaycounts fixedDfs : List ℝ) (coupon : ℝ) (notional : Option ℝ) (isPayer : Option Bool)
    (isNormal : Bool) : Except String ℝ := do
  let notional ← notional.elim (.error "ValueError: None values not supported.") Except.ok
  let isPayer := isPayer.getD true
  let swapAnnuity := (List.zipWith (fun x y => x * y) fixedDaycounts fixedDfs).sum
  let forwardSwapRate := (List.zipWith (fun x y => x - y) floatStartDfs floatEndDfs).sum / swapAnnuity
  let swaptionValue ← optionPrice { volatility := volatility, strike := coupon, expiry := expiry, forward := some forwardSwapRate, isCall := some isPayer, isNormal := isNormal }
  pure (notional * swapAnnuity * swaptionValue)

end Model
