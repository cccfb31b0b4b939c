import Mathlib.Analysis.SpecialFunctions.Pow.Real
import Mathlib.MeasureTheory.Integral.IntervalIntegral.Basic

/-! Hagan's formulas (A.69) for the implied volatilities of the SABR model, for forward `f`, strike `K` and expiry `t`. -/

namespace Spec

/-- `x̂(ζ)`: the integral of `1 / √(1 - 2 ρ y + y²)` from zero to `ζ`. -/
noncomputable def haganXhat (rho zeta : ℝ) : ℝ := ∫ y in (0 : ℝ)..zeta, 1 / Real.sqrt (1 - 2 * rho * y + y ^ 2)

/-- `ζ / x̂(ζ)`, with its limit at zero. -/
noncomputable def haganRatio (rho zeta : ℝ) : ℝ := if zeta = 0 then 1 else zeta / haganXhat rho zeta

/-- `ζ`, equation (A.69b). -/
noncomputable def haganZeta (f K alpha beta volvol : ℝ) : ℝ := volvol / alpha * (f * K) ^ ((1 - beta) / 2) * Real.log (f / K)

/-- Black volatility, with `ratio` for `ζ / x̂(ζ)`. -/
noncomputable def haganLognormal (f K t alpha beta volvol rho ratio : ℝ) : ℝ :=
  alpha / ((f * K) ^ ((1 - beta) / 2) *
      (1 + (1 - beta) ^ 2 / 24 * Real.log (f / K) ^ 2 + (1 - beta) ^ 4 / 1920 * Real.log (f / K) ^ 4)) * ratio *
    (1 + ((1 - beta) ^ 2 * alpha ^ 2 / (24 * (f * K) ^ (1 - beta)) + rho * beta * volvol * alpha / (4 * (f * K) ^ ((1 - beta) / 2)) +
      (2 - 3 * rho ^ 2) / 24 * volvol ^ 2) * t)

/-- Normal volatility, equation (A.69a), with `ratio` for `ζ / x̂(ζ)`. -/
noncomputable def haganNormal (f K t alpha beta volvol rho ratio : ℝ) : ℝ :=
  alpha * (f * K) ^ (beta / 2) * ((1 + Real.log (f / K) ^ 2 / 24 + Real.log (f / K) ^ 4 / 1920) /
      (1 + (1 - beta) ^ 2 / 24 * Real.log (f / K) ^ 2 + (1 - beta) ^ 4 / 1920 * Real.log (f / K) ^ 4)) * ratio *
    (1 + (-beta * (2 - beta) * alpha ^ 2 / (24 * (f * K) ^ (1 - beta)) + rho * beta * volvol * alpha / (4 * (f * K) ^ ((1 - beta) / 2)) +
      (2 - 3 * rho ^ 2) / 24 * volvol ^ 2) * t)

end Spec
