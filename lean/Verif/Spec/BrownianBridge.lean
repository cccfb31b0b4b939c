import Mathlib.Analysis.SpecialFunctions.Gaussian.GaussianIntegral

/-!
# Independent definitions for C71: the heat kernel
-/

namespace Spec

/-- The density at `z` of a normal variable with mean zero and variance `v`. -/
noncomputable def heat (v z : ℝ) : ℝ := Real.exp (-z ^ 2 / (2 * v)) / Real.sqrt (2 * Real.pi * v)

end Spec
