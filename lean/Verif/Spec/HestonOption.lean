import Mathlib.Analysis.Calculus.Deriv.Basic
import Mathlib.MeasureTheory.Integral.Bochner.Basic
import Mathlib.Analysis.SpecialFunctions.Exp
import Mathlib.Analysis.SpecialFunctions.Complex.Log

/-! The characteristic function of the model of Heston and the price of a call. -/

namespace Spec

/-- `f t x v` solves at one point the backward equation of the model `dx = -v/2 dt + √v dW`, `dv = k (theta - v) dt + sigma √v dZ`,
`dW dZ = rho dt`, where `x` is the logarithm of the spot divided by the forward. -/
def SolvesHeston (k theta sigma rho : ℝ) (f : ℝ → ℝ → ℝ → ℂ) (t x v : ℝ) : Prop :=
  ∃ (ft : ℂ) (fx fv : ℝ → ℝ → ℂ) (fxx fxv fvv : ℂ),
    HasDerivAt (fun s => f s x v) ft t ∧
    (∀ y w, HasDerivAt (fun z => f t z w) (fx y w) y) ∧
    (∀ y w, HasDerivAt (fun z => f t y z) (fv y w) w) ∧
    HasDerivAt (fun z => fx z v) fxx x ∧
    HasDerivAt (fun z => fx x z) fxv v ∧
    HasDerivAt (fun z => fv x z) fvv v ∧
    ft - (v / 2 : ℝ) * fx x v + (k * (theta - v) : ℝ) * fv x v + (v / 2 : ℝ) * fxx + (rho * sigma * v : ℝ) * fxv +
      (sigma ^ 2 * v / 2 : ℝ) * fvv = 0

/-- The equations of Riccati for the exponents `C t + D t * v` of the characteristic function. -/
structure IsHestonExponents (k theta sigma rho u : ℝ) (C D : ℝ → ℂ) : Prop where
  C_zero : C 0 = 0
  D_zero : D 0 = 0
  C_deriv : ∀ t, 0 ≤ t → HasDerivAt C (k * theta * D t) t
  D_deriv : ∀ t, 0 ≤ t → HasDerivAt D (sigma ^ 2 / 2 * D t ^ 2 + (rho * sigma * (u * Complex.I) - k) * D t -
    ((u : ℂ) ^ 2 + u * Complex.I) / 2) t

open MeasureTheory in
/-- The undiscounted value of a call for the law `law` of the logarithm of the spot at expiry divided by the forward. -/
noncomputable def callValue (law : Measure ℝ) (forward strike : ℝ) : ℝ := ∫ x, max (forward * Real.exp x - strike) 0 ∂law

open MeasureTheory in
/-- The undiscounted value of a put. -/
noncomputable def putValue (law : Measure ℝ) (forward strike : ℝ) : ℝ := ∫ x, max (strike - forward * Real.exp x) 0 ∂law

open MeasureTheory in
/-- A law of the logarithm of the spot at expiry divided by the forward: it has a first moment and the spot has the mean `forward`. -/
structure IsLogPriceLaw (law : Measure ℝ) : Prop where
  probability : IsProbabilityMeasure law
  moment : Integrable (fun x : ℝ => x) law
  integrable_exp : Integrable Real.exp law
  mean : ∫ x, Real.exp x ∂law = 1

end Spec
