import Mathlib.Probability.Distributions.Gaussian.HasGaussianLaw.Basic
import Mathlib.Analysis.SpecialFunctions.Pow.Real

/-! Brownian motion at finitely many times and geometric means, used to state the prices of Asian options. -/

namespace Spec
open MeasureTheory ProbabilityTheory

/-- `W` is distributed as the values of a Brownian motion at the given times. -/
structure BrownianAt {Ω : Type*} [MeasurableSpace Ω] (P : Measure Ω) (times : List ℝ) (W : Fin times.length → Ω → ℝ) : Prop where
  gaussian : HasGaussianLaw (fun ω i => W i ω) P
  mean : ∀ i, P[W i] = 0
  covariance : ∀ i j, cov[W i, W j; P] = min times[i] times[j]

/-- The geometric mean. -/
noncomputable def geometricMean (xs : List ℝ) : ℝ := xs.prod ^ (1 / (xs.length : ℝ))

/-- Prices at the sampling times: the spot grows with the given rate and volatility, driven by `W`. -/
noncomputable def sampledPrices (spot growth volatility : ℝ) (times : List ℝ) (W : Fin times.length → ℝ) : List ℝ :=
  List.ofFn fun i => spot * Real.exp (growth * times[i] - volatility ^ 2 / 2 * times[i] + volatility * W i)

end Spec
