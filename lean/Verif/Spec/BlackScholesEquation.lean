import Mathlib.Analysis.Calculus.Deriv.Basic

/-! The Black-Scholes equation in the spot price and the time to expiry. -/

namespace Spec
open Filter Topology

/-- The function `u` of spot and time to expiry satisfies the Black-Scholes equation with rate `r`, cost of carry `b` and volatility
`sigma` at one point: `u_t = sigma^2 s^2 / 2 u_ss + b s u_s - r u`. -/
def BlackScholesAt (r b sigma : ℝ) (u : ℝ → ℝ → ℝ) (s t : ℝ) : Prop :=
  ∃ (us : ℝ → ℝ) (uss ut : ℝ), (∀ᶠ y in 𝓝 s, HasDerivAt (fun y => u y t) (us y) y) ∧ HasDerivAt us uss s ∧
    HasDerivAt (fun t => u s t) ut t ∧ ut = sigma ^ 2 * s ^ 2 / 2 * uss + b * s * us s - r * u s t

end Spec
