import Verif.Spec.HullWhite

/-! Two factors of the Hull-White model driven by Brownian motions with correlation `rho`. -/

namespace Spec

/-- Covariance of `x₁(t')` and `x₂(t')` given the states at `t`. -/
noncomputable def stateCovariance (k₁ k₂ : ℝ) (sigma₁ sigma₂ rho : ℝ → ℝ) (t t' : ℝ) : ℝ :=
  ∫ s in t..t', Real.exp (-(k₁ + k₂) * (t' - s)) * (rho s * sigma₁ s * sigma₂ s)

/-- Draws that have mean zero and variance one and are uncorrelated. -/
structure UnitDraws {Ω : Type*} [MeasurableSpace Ω] (P : MeasureTheory.Measure Ω) (z : Nat → Nat → Ω → ℝ) : Prop where
  integrable : ∀ n l, MeasureTheory.Integrable (z n l) P
  mean_zero : ∀ n l, ∫ ω, z n l ω ∂P = 0
  prod_integrable : ∀ n l n' l', MeasureTheory.Integrable (fun ω => z n l ω * z n' l' ω) P
  prod_mean : ∀ n l n' l', ∫ ω, z n l ω * z n' l' ω ∂P = if n = n' ∧ l = l' then 1 else 0

end Spec
