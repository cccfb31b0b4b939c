import Mathlib.MeasureTheory.Integral.IntervalIntegral.Basic
import Mathlib.Analysis.SpecialFunctions.Pow.Real
import Mathlib.Analysis.Real.Pi.Bounds

/-! # The error function and the normal distribution function of `tf_quant_finance/black_scholes` -/

namespace Model

/-- The error function, as documented for `tf.math.erf`. -/
noncomputable def erf (x : ℝ) : ℝ := 2 / Real.sqrt Real.pi * ∫ t in (0 : ℝ)..x, Real.exp (-t ^ 2)

/-- `_ncdf`, black_scholes/vanilla_prices.py L951-952. -/
noncomputable def ncdf (x : ℝ) : ℝ := (erf (x / Real.sqrt 2) + 1) / 2

end Model
