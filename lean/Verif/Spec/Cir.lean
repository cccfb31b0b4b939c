import Mathlib.Analysis.Calculus.Deriv.Basic
import Mathlib.Analysis.SpecialFunctions.Exp
import Mathlib.Probability.Distributions.Gamma
import Mathlib.Topology.Algebra.InfiniteSum.Basic

/-! Expectations of Poisson and gamma draws, and the law of the square root process by its Laplace transform. -/

namespace Spec

/-- The probability of `n` for a Poisson variable with the given mean. -/
noncomputable def poissonWeight (mean : ℝ) (n : ℕ) : ℝ := Real.exp (-mean) * mean ^ n / n.factorial

/-- Expectation of a function of a Poisson variable. -/
noncomputable def poissonExpectation (mean : ℝ) (f : ℕ → ℝ) : ℝ := ∑' n, poissonWeight mean n * f n

/-- Expectation of a function of a gamma variable with the given shape and rate. -/
noncomputable def gammaExpectation (shape rate : ℝ) (f : ℝ → ℝ) : ℝ := ∫ y, f y ∂(ProbabilityTheory.gammaMeasure shape rate)

/-- `u t x` is the expectation of `exp (-l X_t)` with `X_0 = x` for the process with the drift and the volatility: the equation of Kolmogorov on
non-negative states, with the initial value. Law on non-negative numbers are determined by these values for all `l ≥ 0`. -/
structure IsLaplaceTransform (drift vol : ℝ → ℝ) (l : ℝ) (u : ℝ → ℝ → ℝ) : Prop where
  initial : ∀ x, u 0 x = Real.exp (-l * x)
  continuous : ∀ x, 0 ≤ x → Filter.Tendsto (fun t => u t x) (nhdsWithin 0 (Set.Ioi 0)) (nhds (u 0 x))
  equation : ∃ ux uxx : ℝ → ℝ → ℝ, (∀ t > 0, ∀ x, HasDerivAt (fun x => u t x) (ux t x) x) ∧ (∀ t > 0, ∀ x, HasDerivAt (fun x => ux t x) (uxx t x) x) ∧
    ∀ t > 0, ∀ x ≥ 0, HasDerivAt (fun t => u t x) (drift x * ux t x + vol x ^ 2 / 2 * uxx t x) t

end Spec
