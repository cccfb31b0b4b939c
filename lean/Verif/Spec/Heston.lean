import Mathlib.Analysis.Calculus.Deriv.Basic
import Mathlib.Analysis.SpecialFunctions.Exp

/-! The moments of the variance in the model of Heston. -/

namespace Spec

/-- `mean` and `variance` are the mean and the variance, given the value `v` at time zero, of the process `dV = k (theta - V) dt + sigma √V dW`:
by Ito's formula they solve these linear equations. -/
structure IsCirMoments (k theta sigma v : ℝ) (mean variance : ℝ → ℝ) : Prop where
  mean_zero : mean 0 = v
  mean_deriv : ∀ t, HasDerivAt mean (k * (theta - mean t)) t
  variance_zero : variance 0 = 0
  variance_deriv : ∀ t, HasDerivAt variance (sigma ^ 2 * mean t - 2 * k * variance t) t

end Spec
