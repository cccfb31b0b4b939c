import Mathlib.Analysis.SpecialFunctions.Pow.Real
import Verif.Model.Daycounts
import Verif.Model.LinearInterpolation
import Verif.Model.Segments

/-!
# Model of `tf_quant_finance/experimental/instruments/rate_curve.py`

Real numbers.  `compounding` is a natural number.  `x**y` is the real power.
-/

namespace Model.Instruments

/-- `interpolator(xi, x, y)`. -/
abbrev Interpolator := ℝ → List ℝ → List ℝ → ℝ

/-- The members of `RateCurve`. -/
structure RateCurve where
  valuation : DateT
  times : List ℝ
  rates : List ℝ
  interpolator : Interpolator

/-- L63-65: linear interpolation, constant outside. -/
noncomputable def defaultInterpolator : Interpolator := fun xi x y => linearInterpolate xi x y

/-- L80-85: one rate. -/
noncomputable def convertRate (compounding : Nat) (time rate : ℝ) : ℝ :=
  if 0 < compounding then
    if 0 < time then Real.log ((1 + rate / compounding) ^ ((compounding : ℝ) * rate)) / time else rate
  else rate

/-- L24-86 `__init__`. -/
noncomputable def RateCurve.setup (maturities : List DateT) (rates : List ℝ) (valuation : DateT) (compounding : Nat := 0)
    (interpolator : Interpolator := defaultInterpolator) : RateCurve :=
  let times := maturities.map (actual365Fixed ℝ valuation)
  ⟨valuation, times, List.zipWith (convertRate compounding) times rates, interpolator⟩

/-- L137-143 `_get_time`. -/
noncomputable def RateCurve.time (c : RateCurve) (date : DateT) : ℝ := actual365Fixed ℝ c.valuation date

/-- L88-93 `get_rates`. -/
noncomputable def RateCurve.rate (c : RateCurve) (date : DateT) : ℝ := c.interpolator (c.time date) c.times c.rates

/-- L95-100 `get_discount_factor`. -/
noncomputable def RateCurve.discountFactor (c : RateCurve) (date : DateT) : ℝ := Real.exp (-c.rate date * c.time date)

/-- L102-132 `get_forward_rate`. -/
noncomputable def RateCurve.forward (c : RateCurve) (start maturity : DateT) (daycount : Option ℝ) : ℝ :=
  forwardRate (c.discountFactor start) (c.discountFactor maturity) (daycount.getD (actual365Fixed ℝ start maturity))

/-- L146-156 `RateCurveFromDiscountingFunction`: only `get_discount_factor` is overridden. -/
structure DiscountCurve where
  base : RateCurve
  discountFn : DateT → ℝ

/-- L159-182 `ratecurve_from_discounting_function`; the pseudo date is the first of January 2020. -/
noncomputable def curveFromDiscounts (pseudo : DateT) (discountFn : DateT → ℝ) : DiscountCurve :=
  ⟨RateCurve.setup [pseudo] [0] pseudo, discountFn⟩

/-- `get_rates`, inherited. -/
noncomputable def DiscountCurve.rate (c : DiscountCurve) (date : DateT) : ℝ := c.base.rate date

/-- L155-156. -/
noncomputable def DiscountCurve.discountFactor (c : DiscountCurve) (date : DateT) : ℝ := c.discountFn date

/-- `get_forward_rate`, inherited, with the overridden discount factors. -/
noncomputable def DiscountCurve.forward (c : DiscountCurve) (start maturity : DateT) (daycount : Option ℝ) : ℝ :=
  forwardRate (c.discountFactor start) (c.discountFactor maturity) (daycount.getD (actual365Fixed ℝ start maturity))

end Model.Instruments
