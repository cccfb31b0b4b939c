import Mathlib.MeasureTheory.Integral.IntervalIntegral.Basic
import Mathlib.Analysis.SpecialFunctions.Exp

/-! The state `x` of the Hull-White model: `dx = (y(t) - k x) dt + sigma(t) dW`, `x(0) = 0`. -/

namespace Spec

/-- Variance of `x(t')` given `x(t)`. -/
noncomputable def stateVariance (k : ℝ) (sigma : ℝ → ℝ) (t t' : ℝ) : ℝ := ∫ s in t..t', Real.exp (-2 * k * (t' - s)) * sigma s ^ 2

/-- The drift `y(t)`, which is the variance of `x(t)`. -/
noncomputable def convexity (k : ℝ) (sigma : ℝ → ℝ) (t : ℝ) : ℝ := stateVariance k sigma 0 t

/-- Mean of `x(t')` given `x(t) = 0`. -/
noncomputable def stateMean (k : ℝ) (sigma : ℝ → ℝ) (t t' : ℝ) : ℝ := ∫ s in t..t', Real.exp (-k * (t' - s)) * convexity k sigma s

end Spec
