import Mathlib.Data.Real.Basic
import Mathlib.Algebra.BigOperators.Group.Finset.Basic

/-!
# Specification of constant maturity swaps

A coupon pays the swap rate `S`, which has mean `R` in the measure of the annuity. In the measure of the payment the mean is `E[S h(S)] / E[h(S)]`, where
`h(S)` is the value of the payment over the annuity as a function of the rate (P. Hagan, Convexity conundrums, 2003).
-/

namespace Spec
open scoped BigOperators

/-- The mean of the rate in the payment measure, for the expectation `E` of functions of the rate in the annuity measure. -/
noncomputable def cmsRate (E : (ℝ → ℝ) → ℝ) (h : ℝ → ℝ) : ℝ := E (fun s => s * h s) / E h

/-- The level of a swap with `n` equal periods `tau`, discounted at the rate `s`. -/
noncomputable def flatAnnuity (tau s : ℝ) (n : Nat) : ℝ := ∑ j ∈ Finset.range n, tau / (1 + tau * s) ^ (j + 1)

/-- The function `g` inside of `[lo, hi]` and continued by its tangents outside. -/
noncomputable def tangentExtension (g g' : ℝ → ℝ) (lo hi s : ℝ) : ℝ := g (max lo (min hi s)) + g' (max lo (min hi s)) * (s - max lo (min hi s))

end Spec
