import Verif.Model.Instruments
import Verif.Model.VanillaPrices
import Verif.Model.Simpson
import Mathlib.Analysis.SpecialFunctions.Pow.Real
import Mathlib.Analysis.Calculus.Deriv.Basic
import Mathlib.Data.Fintype.BigOperators

/-!
# Model of `tf_quant_finance/experimental/instruments/cms_swap.py`

One contract. The par rates and annuities of the swaps which start with the coupons are parameters (`Swap.parRate`, `Swap.annuity` of `Model/Instruments`).
Gradient tapes are derivatives. At the rate zero the tape returns NaN, because of the quotient in the branch of `tf.where` which is not selected; this is `none`.
-/

namespace Model
open Instruments
open scoped BigOperators

/-- The models of `rates_common.py` used here; another model is treated as the normal one. -/
inductive CmsModel
  | none
  | lognormalRate
  | normalRate
  | lognormalReplication
  | normalReplication
deriving DecidableEq

/-- `term_to_years` L342-349. -/
noncomputable def termToYears (t : Period) : ℝ :=
  (if t.type = .MONTH then 1 / 12 else if t.type = .YEAR then 1 else 0) * (t.quantity : ℝ)

/-- `_fs` L357-361. -/
noncomputable def cmsFs (tau periods delta s : ℝ) : ℝ :=
  let g := if s = 0 then tau * periods else 1 / s * (1 - 1 / (1 + tau * s) ^ periods)
  1 / (g * (1 + tau * s) ^ (delta / tau))

/-- `_fs` with the members set at L351-355. -/
noncomputable def cmsWeight (frequency fixedFrequency tenor : Period) : ℝ → ℝ :=
  cmsFs (termToYears fixedFrequency) (termToYears tenor / termToYears fixedFrequency) (termToYears frequency)

/-- `_f_atm` L363-366. -/
noncomputable def fAtm (fs : ℝ → ℝ) (s cmsRate : ℝ) : ℝ := (s - cmsRate) * (fs s / fs cmsRate - 1)

/-- `_option_prices` L587-648. -/
noncomputable def cmsOptionPrice (volatility strike forward expiry : ℝ) (isCall isNormal : Bool) : Except String ℝ :=
  let sqrtVar := Real.sqrt expiry * volatility
  let d := (forward - strike) / sqrtVar
  let density := Real.exp (-(1 / 2) * d ^ 2) / Real.sqrt (2 * Real.pi)
  do
    let black ← optionPrice { volatility := volatility, strike := strike, expiry := expiry, forward := some forward, isCall := some isCall }
    let value := if isNormal then
        if isCall then (forward - strike) * ncdf d + sqrtVar * density else (strike - forward) * ncdf (-d) + sqrtVar * density
      else black
    return if expiry > 0 then value else if isCall then max (forward - strike) 0 else max (strike - forward) 0

/-- The gradient at L368-374 of `_f_atm(cms_rates, cms_rates)` with respect to the rate `k`. The difference with `expand_dims` has an entry for each pair of
coupons, and both arguments are the same tensor. -/
noncomputable def fAtmFirstDerivative {n : Nat} (fs : ℝ → ℝ) (rates : Fin n → ℝ) (k : Fin n) : ℝ :=
  deriv (fun x => ∑ i, ∑ j, fAtm fs (Function.update rates k x j) (Function.update rates k x i)) (rates k)

/-- The price as a number; there is always one, see `C101_option_price`. -/
noncomputable def cmsOptionValue (volatility strike forward expiry : ℝ) (isCall isNormal : Bool) : ℝ :=
  match cmsOptionPrice volatility strike forward expiry isCall isNormal with
  | .ok v => v
  | .error _ => 0

/-- The integrands L235-244 and L256-265. -/
noncomputable def cmsIntegrand (fs : ℝ → ℝ) (option : ℝ → ℝ) (rate x : ℝ) : ℝ := deriv (deriv (fun s => fAtm fs s rate)) x * option x

/-- `_convexity_smile_replication` L218-279 for the coupon `k`. -/
noncomputable def cmsReplication {n : Nat} (fs : ℝ → ℝ) (isNormal : Bool) (volatility : ℝ) (expiries rates : Fin n → ℝ) (k : Fin n) (numPoints : Nat := 10001) :
    Except String (Option ℝ) := do
  let rate := rates k
  let lower := (0 : ℝ) + 1 / 1000000
  let upper := 2000 * rate
  let price := fun isCall x => cmsOptionPrice volatility x rate (expiries k) isCall isNormal
  let value := fun isCall x => cmsOptionValue volatility x rate (expiries k) isCall isNormal
  let intvalC ← simpson (cmsIntegrand fs (value true) rate) rate upper numPoints
  let intvalP ← simpson (cmsIntegrand fs (value false) rate) lower rate numPoints
  let dfk := fAtmFirstDerivative fs rates k
  let c ← price true rate
  let p ← price false rate
  let callRep := (1 + dfk) * c + intvalC
  let putRep := (1 + dfk) * p - intvalP
  return if rate = 0 then none else some (rate + (callRep - putRep))

/-- `_adjust_convexity` L189-216 for the coupon `k`. -/
noncomputable def cmsAdjust {n : Nat} (model : CmsModel) (fs : ℝ → ℝ) (volatility : ℝ) (expiries levels discounts rates : Fin n → ℝ) (k : Fin n) :
    Except String (Option ℝ) :=
  let rate := rates k
  let dfx : Option ℝ := if rate = 0 then none else some (deriv fs rate)
  match model with
  | .none => .ok (some rate)
  | .lognormalReplication => cmsReplication fs false volatility expiries rates k
  | .normalReplication => cmsReplication fs true volatility expiries rates k
  | .lognormalRate => .ok (dfx.map fun d => rate + d * levels k * rate ^ 2 * (Real.exp (volatility ^ 2 * expiries k) - 1) / discounts k)
  | .normalRate => .ok (dfx.map fun d => rate + d * levels k * (volatility ^ 2 * expiries k) / discounts k)

/-- One coupon of the stream, `_setup` L281-339: its dates and day count fraction. -/
structure CmsCoupon where
  start : DateT
  stop : DateT
  daycount : ℝ

/-- The rate of a coupon before the convexity adjustment, L167-177. -/
noncomputable def cmsCouponRate (c : CmsCoupon) (valuation : DateT) (parRate pastFixing : ℝ) : ℝ :=
  couponForward c.daycount parRate pastFixing c.start c.stop valuation

/-- `CMSCashflowStream.price` L132-187. -/
noncomputable def cmsPrice {n : Nat} (coupons : Fin n → CmsCoupon) (notional basis multiplier : ℝ) (model : CmsModel) (fs : ℝ → ℝ) (volatility : ℝ)
    (valuation : DateT) (discount : DateT → ℝ) (parRates levels : Fin n → ℝ) (swapRate : Option ℝ) : Except String (Option ℝ) := do
  let rates := fun k => cmsCouponRate (coupons k) valuation (parRates k) (swapRate.getD 0)
  let discounts := fun k => discount (coupons k).stop
  let expiries := fun k => actual365Fixed ℝ valuation (coupons k).start
  let adjusted ← (List.finRange n).mapM (fun k => cmsAdjust model fs volatility expiries levels discounts rates k)
  return do
    let adjusted ← adjusted.mapM id
    let pvs := List.zipWith (fun k r => notional * ((coupons k).daycount * (multiplier * (r + basis)) * discounts k)) (List.finRange n) adjusted
    return pvs.sum

end Model
