import Mathlib.Analysis.Calculus.Deriv.Basic
import Mathlib.Analysis.SpecialFunctions.Log.Basic
import Mathlib.Analysis.SpecialFunctions.Sqrt

/-! Dupire's forward equation for call prices as a function of expiry and strike. -/

namespace Spec
open Filter Topology

/-- The function `u` of time and strike has the time derivative `ut`, the strike derivative `uk` and the second strike derivative
`ukk` at the point `(t, k)`. -/
def SmoothAt (u : ℝ → ℝ → ℝ) (t k ut uk ukk : ℝ) : Prop :=
  ∃ u1 : ℝ → ℝ, (∀ᶠ y in 𝓝 k, HasDerivAt (fun y => u t y) (u1 y) y) ∧ u1 k = uk ∧ HasDerivAt u1 ukk k ∧
    HasDerivAt (fun x => u x k) ut t

/-- The call prices `c` satisfy Dupire's equation with short rate `r`, dividend yield `q` and local variance `v` at `(t, k)`:
`c_t = v k^2 / 2 c_kk - (r - q) k c_k - q c`. -/
def DupireAt (c : ℝ → ℝ → ℝ) (r q v t k : ℝ) : Prop :=
  ∃ ct ck ckk, SmoothAt c t k ct ck ckk ∧ ct = v * k ^ 2 / 2 * ckk - (r - q) * k * ck - q * c t k

/-- Dupire's local variance in terms of the implied volatility `v` and its derivatives, for the forward price `f`
(Clark, Foreign exchange option pricing, section 5.3.2). -/
noncomputable def impliedLocalVariance (r q f v vt vk vkk t k : ℝ) : ℝ :=
  let d1 := Real.log (f / k) / (v * Real.sqrt t) + v * Real.sqrt t / 2
  (v ^ 2 + 2 * t * v * vt + 2 * (r - q) * k * t * v * vk) /
    ((1 + k * d1 * Real.sqrt t * vk) ^ 2 + k ^ 2 * t * v * (vkk - d1 * Real.sqrt t * vk ^ 2))

end Spec
