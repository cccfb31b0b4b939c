import Mathlib.Probability.Distributions.Gaussian.Real
import Mathlib.Analysis.SpecialFunctions.Log.Basic

/-! The law of a geometric Brownian motion that is stopped at a barrier (reflection principle). -/

namespace Spec
open ProbabilityTheory

/-- Density, at time `T`, of a Brownian motion with the given drift and volatility that starts in 0 and is removed when it
first reaches `level`: the density without removal less its mirror image. -/
noncomputable def survivalDensity (drift volatility T level x : ℝ) : ℝ :=
  gaussianPDFReal (drift * T) (Real.toNNReal (volatility ^ 2 * T)) x -
    Real.exp (2 * drift * level / volatility ^ 2) *
      gaussianPDFReal (2 * level + drift * T) (Real.toNNReal (volatility ^ 2 * T)) x

/-- The spot has not crossed the barrier. -/
def Alive (isDown : Bool) (barrier spot : ℝ) : Prop := if isDown then barrier < spot else spot < barrier

/-- Expectation of `f` of the spot at time `T` over the paths that never touch the barrier. -/
noncomputable def survivalExpectation (isDown : Bool) (barrier spot rate dividend volatility T : ℝ) (f : ℝ → ℝ) : ℝ :=
  ∫ x in {x : ℝ | Alive isDown barrier (spot * Real.exp x)},
    f (spot * Real.exp x) *
      survivalDensity (rate - dividend - volatility ^ 2 / 2) volatility T (Real.log (barrier / spot)) x

end Spec
