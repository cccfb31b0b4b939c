import Verif.Spec.Normal
import Mathlib.Analysis.SpecialFunctions.Log.Basic
import Mathlib.MeasureTheory.Integral.IntervalIntegral.Basic

/-! # American options in the Black-Scholes model: the integral equation of the exercise boundary -/

namespace Spec

/-- `(log z + (r - q ± σ² / 2) τ) / (σ √τ)`. -/
noncomputable def amD1 (τ z r q σ : ℝ) : ℝ := (Real.log z + (r - q + σ ^ 2 / 2) * τ) / (σ * Real.sqrt τ)

noncomputable def amD2 (τ z r q σ : ℝ) : ℝ := (Real.log z + (r - q - σ ^ 2 / 2) * τ) / (σ * Real.sqrt τ)

/-- Price of the European put. -/
noncomputable def europeanPut (s k r q σ τ : ℝ) : ℝ :=
  k * Real.exp (-r * τ) * normalCdf (-amD2 τ (s / k) r q σ) - s * Real.exp (-q * τ) * normalCdf (-amD1 τ (s / k) r q σ)

/-- Kim's formula: the price of an American put that is exercised when the price is at most `B u`, where `u` is the time to maturity. -/
noncomputable def kimPut (s k r q σ τ : ℝ) (B : ℝ → ℝ) : ℝ :=
  europeanPut s k r q σ τ
    + (∫ u in (0 : ℝ)..τ, r * k * Real.exp (-r * (τ - u)) * normalCdf (-amD2 (τ - u) (s / B u) r q σ))
    - ∫ u in (0 : ℝ)..τ, q * s * Real.exp (-q * (τ - u)) * normalCdf (-amD1 (τ - u) (s / B u) r q σ)

/-- Value matching: on the boundary the price is the payoff. -/
def valueMatching (k r q σ : ℝ) (B : ℝ → ℝ) (τ : ℝ) : Prop := k - B τ = kimPut (B τ) k r q σ τ B

/-- Numerator and denominator of the fixed point equation of the boundary, formula (3.7) of the paper. -/
noncomputable def boundaryN (k r q σ τ : ℝ) (B : ℝ → ℝ) : ℝ :=
  normalCdf (amD2 τ (B τ / k) r q σ) + r * ∫ u in (0 : ℝ)..τ, Real.exp (r * u) * normalCdf (amD2 (τ - u) (B τ / B u) r q σ)

noncomputable def boundaryD (k r q σ τ : ℝ) (B : ℝ → ℝ) : ℝ :=
  normalCdf (amD1 τ (B τ / k) r q σ) + q * ∫ u in (0 : ℝ)..τ, Real.exp (q * u) * normalCdf (amD1 (τ - u) (B τ / B u) r q σ)

/-- The limit of the boundary at maturity, for `r ≥ 0`: above it the dividends lost exceed the interest gained. -/
noncomputable def boundaryAtMaturity (k r q : ℝ) : ℝ := if q ≤ 0 then k else min k (k * r / q)

end Spec
