import Mathlib.Data.Real.Basic
import Mathlib.Algebra.BigOperators.Fin

/-! What the method of Longstaff and Schwartz computes. -/

namespace Spec
open scoped BigOperators

/-- `beta` is a least squares fit of `y` by the regressors `x` over the samples in `S`. -/
def IsLeastSquares {n b : Nat} (S : Finset (Fin n)) (x : Fin b → Fin n → ℝ) (y : Fin n → ℝ) (beta : Fin b → ℝ) : Prop :=
  ∀ beta' : Fin b → ℝ, ∑ s ∈ S, (y s - ∑ k, x k s * beta k) ^ 2 ≤ ∑ s ∈ S, (y s - ∑ k, x k s * beta' k) ^ 2

open Classical in
/-- `tau` is an exercise policy of Longstaff and Schwartz for exercise indices `0, …, last`: `tau j s` is the index at which sample `s` is exercised
if it is not exercised before `j`. At `last` the option is exercised (or expires). Before, it is exercised if the payoff exceeds the positive part of
the regression of the discounted payoff of going on, fitted over those samples of `calibration` that are in the money. `factor j` are discount factors. -/
def IsLsmPolicy {n b : Nat} (last : Nat) (payoff factor : Nat → Fin n → ℝ) (basis : Nat → Fin b → Fin n → ℝ) (calibration : Finset (Fin n))
    (tau : Nat → Fin n → Nat) : Prop :=
  (∀ s, tau last s = last) ∧
  ∀ j, j < last → ∃ beta : Fin b → ℝ,
    IsLeastSquares (calibration.filter (fun s => payoff j s > 0)) (basis j)
      (fun s => factor (tau (j + 1) s) s / factor j s * payoff (tau (j + 1) s) s) beta ∧
    ∀ s, tau j s = if payoff j s > max (∑ k, basis j k s * beta k) 0 then j else tau (j + 1) s

end Spec
