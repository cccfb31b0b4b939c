import Mathlib.Analysis.SpecialFunctions.Exp

/-!
# Model of `tf_quant_finance/rates/nelson_seigel_svensson/nelson_seigel_svensson_interpolation.py`

Real numbers, one time.  `divide_no_nan` is the division of Lean.  A division of zero by zero, which gives NaN, is `none`.
-/

namespace Model

/-- L24-41 `SvenssonParameters`. -/
structure SvenssonParameters where
  beta0 : ℝ
  beta1 : ℝ
  beta2 : ℝ
  beta3 : ℝ
  tau1 : ℝ
  tau2 : ℝ

/-- L118-119 `_exp_term`. -/
noncomputable def svenssonExp (x y : ℝ) : ℝ := Real.exp (-(x / y))

/-- L122-123 `_integrated_exp_term`; the numerator is zero when the denominator is. -/
noncomputable def svenssonIntegrated (x y : ℝ) : Option ℝ :=
  if x / y = 0 then none else some ((1 - svenssonExp x y) / (x / y))

/-- L44-115 `interpolate`. -/
noncomputable def svensson (t : ℝ) (p : SvenssonParameters) : Option ℝ := do
  let e1 ← svenssonIntegrated t p.tau1
  let e2 ← svenssonIntegrated t p.tau2
  return p.beta0 + p.beta1 * e1 + p.beta2 * (e1 - svenssonExp t p.tau1) + p.beta3 * (e2 - svenssonExp t p.tau2)

end Model
