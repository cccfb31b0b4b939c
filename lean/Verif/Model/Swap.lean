import Mathlib.Algebra.Field.Defs
import Mathlib.Algebra.BigOperators.Group.List.Defs
import Mathlib.Analysis.SpecialFunctions.Exp

/-!
# Model of `tf_quant_finance/rates/analytics/swap.py` and `present_value` of `cashflows.py`

One swap of the batch. A leg is a list of cashflows; notionals are scalars. `divide_no_nan` is Lean's division.
-/

namespace Model

variable {K : Type} [Field K]

/-- `present_value`, cashflows.py L19-68. -/
def presentValue (cashflows discountFactors : List K) : K :=
  (List.zipWith (fun c d => c * d) cashflows discountFactors).sum

/-- `swap_price`, L30-97. -/
def swapPrice (pay receive payDfs receiveDfs : List K) : K :=
  let receivePv := presentValue receive receiveDfs
  let payPv := presentValue pay payDfs
  receivePv - payPv

/-- `rate_leg_cashflows`, L174-222, element-wise. -/
def rateLegCashflow (couponRate notional daycountFraction : K) : K := notional * daycountFraction * couponRate

/-- `ir_swap_price`, L225-333. The code passes notional, day count fraction and coupon in this order, although the parameters
of `rate_leg_cashflows` are coupon, notional and day count fraction (L322-329). -/
def irSwapPrice (payCoupons receiveCoupons : List K) (payNotional receiveNotional : K)
    (payDaycounts receiveDaycounts payDfs receiveDfs : List K) : K :=
  let pay := List.zipWith (fun d c => rateLegCashflow payNotional d c) payDaycounts payCoupons
  let receive := List.zipWith (fun d c => rateLegCashflow receiveNotional d c) receiveDaycounts receiveCoupons
  swapPrice pay receive payDfs receiveDfs

/-- `equity_leg_cashflows`, L100-171. -/
def equityLegCashflows (forwards : List K) (spot notional : K) (dividends : List K) : List K :=
  let prices := spot :: forwards
  List.zipWith (fun (p : K × K) d => (notional * (p.2 - p.1) + d) / p.1) (List.zip prices.dropLast (prices.drop 1)) dividends

/-- `equity_swap_price`, L399-539, with the dividends given as a list. -/
def equitySwapPrice (couponRates forwards : List K) (spot rateNotional equityNotional : K)
    (daycounts rateDfs equityDfs dividends : List K) (isEquityReceiver : Option Bool) : K :=
  let receiver : K := if isEquityReceiver.getD true then 1 else -1
  let equity := equityLegCashflows forwards spot equityNotional dividends
  let rate := List.zipWith (fun c d => rateLegCashflow c rateNotional d) couponRates daycounts
  receiver * swapPrice rate equity rateDfs equityDfs

/-- `ir_swap_par_rate_and_annuity`, L336-396. -/
noncomputable def parRateAndAnnuity (starts ends payments daycounts : List ℝ) (rate : ℝ → ℝ) : ℝ × ℝ :=
  let df (t : ℝ) := Real.exp (-rate t * t)
  let startDfs := starts.map df
  let endDfs := ends.map df
  let fixedDfs := payments.map df
  let annuity := (List.zipWith (fun a b => a * b) fixedDfs daycounts).sum
  let swapRate := (List.zipWith (fun a b => a - b) startDfs endDfs).sum / annuity
  (swapRate, annuity)

end Model
