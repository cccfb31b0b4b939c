import Mathlib.Probability.CDF
import Mathlib.Probability.Distributions.Gaussian.Real

/-! The normal and lognormal laws used to state option prices. -/

namespace Spec
open ProbabilityTheory

/-- Distribution function of the standard normal law. -/
noncomputable def normalCdf (x : ℝ) : ℝ := cdf (gaussianReal 0 1) x

/-- Expectation of a function of `X`, where `X` is normal with the given mean and standard deviation `s`. -/
noncomputable def normalExpectation (mean s : ℝ) (f : ℝ → ℝ) : ℝ := ∫ x, f x ∂(gaussianReal mean (Real.toNNReal (s ^ 2)))

/-- Expectation of a function of `X`, where `log X` is normal with standard deviation `s` and `X` has the given mean. -/
noncomputable def lognormalExpectation (mean s : ℝ) (f : ℝ → ℝ) : ℝ :=
  normalExpectation (Real.log mean - s ^ 2 / 2) s (fun x => f (Real.exp x))

end Spec
