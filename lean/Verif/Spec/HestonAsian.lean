import Mathlib.Analysis.Calculus.Deriv.Basic
import Mathlib.Analysis.SpecialFunctions.Exp
import Mathlib.MeasureTheory.Integral.Bochner.Basic

/-! The transform of the sampled logarithm of the spot in the model of Heston. -/

namespace Spec

/-- `f t x v` solves at one point the backward equation of the model `dx = (g - v/2) dt + √v dW`, `dv = k (theta - v) dt + sigma √v dZ`, `dW dZ = rho dt`,
where `x` is the logarithm of the spot and `g` the difference of the interest rate and the dividend rate. -/
def SolvesHestonDrift (k theta sigma rho g : ℝ) (f : ℝ → ℝ → ℝ → ℂ) (t x v : ℝ) : Prop :=
  ∃ (ft : ℂ) (fx fv : ℝ → ℝ → ℂ) (fxx fxv fvv : ℂ),
    HasDerivAt (fun s => f s x v) ft t ∧
    (∀ y w, HasDerivAt (fun z => f t z w) (fx y w) y) ∧
    (∀ y w, HasDerivAt (fun z => f t y z) (fv y w) w) ∧
    HasDerivAt (fun z => fx z v) fxx x ∧
    HasDerivAt (fun z => fx x z) fxv v ∧
    HasDerivAt (fun z => fv x z) fvv v ∧
    ft + (g - v / 2 : ℝ) * fx x v + (k * (theta - v) : ℝ) * fv x v + (v / 2 : ℝ) * fxx + (rho * sigma * v : ℝ) * fxv +
      (sigma ^ 2 * v / 2 : ℝ) * fvv = 0

/-- `U q t x v`, for `t` between the times `tau q` and `tau (q + 1)`, is the conditional expectation of
`e ^ (s / n * (sum of the logarithms of the spot at the times of 1, …, m after t) + w * (logarithm of the spot at the last time))`: it solves the backward equation
between the times, is multiplied by `e ^ (s x / n)` at the times of `1, …, m`, and is `e ^ (w x)` at the end. -/
structure IsSampledTransform (k theta sigma rho g : ℝ) (tau : Nat → ℝ) (m n : Nat) (s w : ℂ) (U : Nat → ℝ → ℝ → ℝ → ℂ) : Prop where
  terminal : ∀ x v, U m (tau (m + 1)) x v = Complex.exp (w * x)
  jump : ∀ q < m, ∀ x v, U q (tau (q + 1)) x v = Complex.exp (s / n * x) * U (q + 1) (tau (q + 1)) x v
  equation : ∀ q ≤ m, ∀ t x v, tau q ≤ t → t ≤ tau (q + 1) → SolvesHestonDrift k theta sigma rho g (U q) t x v

end Spec
