import Mathlib.Analysis.SpecialFunctions.Exp

/-! The Black-Scholes model. -/

namespace Spec

/-- The price at time `t` of an asset with rate `r` and volatility `σ`; `W` is the Brownian motion at `t`. -/
noncomputable def blackScholesPath (S r σ t W : ℝ) : ℝ := S * Real.exp ((r - σ ^ 2 / 2) * t + σ * W)

/-- The `j`-th of `num` equally spaced times from 0 to `T`. -/
noncomputable def equalTime (T : ℝ) (num j : Nat) : ℝ := T * j / (num - 1 : Nat)

end Spec
