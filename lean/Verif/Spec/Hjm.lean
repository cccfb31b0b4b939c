import Mathlib.Analysis.Calculus.Deriv.Basic
import Mathlib.MeasureTheory.Integral.IntervalIntegral.Basic
import Mathlib.Analysis.SpecialFunctions.Exp

/-! Pricing equation for a state of vectors `x` with noise and matrices `y` without, and the matrix `y` of a Gaussian model. -/

namespace Spec

/-- `P` satisfies at `(t, x, y)` the pricing equation `∂P/∂t + Σ mx ∂P/∂x + Σ my ∂P/∂y + ½ Σ a ∂²P/∂x∂x = r P`. -/
def SolvesPricing {n : Nat} (P : ℝ → (Fin n → ℝ) → (Fin n → Fin n → ℝ) → ℝ) (t : ℝ) (x : Fin n → ℝ) (y : Fin n → Fin n → ℝ)
    (mx : Fin n → ℝ) (my a : Fin n → Fin n → ℝ) (r : ℝ) : Prop :=
  ∃ (Pt : ℝ) (Px : (Fin n → ℝ) → Fin n → ℝ) (Py Pxx : Fin n → Fin n → ℝ),
    HasDerivAt (fun s => P s x y) Pt t ∧
    (∀ x' i, HasDerivAt (fun s => P t (Function.update x' i s) y) (Px x' i) (x' i)) ∧
    (∀ i j, HasDerivAt (fun s => Px (Function.update x j s) i) (Pxx i j) (x j)) ∧
    (∀ i j, HasDerivAt (fun s => P t x (Function.update y i (Function.update (y i) j s))) (Py i j) (y i j)) ∧
    Pt + ∑ i, mx i * Px x i + ∑ i, ∑ j, my i j * Py i j + 1 / 2 * ∑ i, ∑ j, a i j * Pxx i j = r * P t x y

/-- The covariance of the states of two factors with volatilities `s1` and `s2`, correlation `rho` and mean reversions with the sum `k`. -/
noncomputable def factorCovariance (rho k : ℝ) (s1 s2 : ℝ → ℝ) (t : ℝ) : ℝ := ∫ u in (0 : ℝ)..t, Real.exp (-k * (t - u)) * (rho * s1 u * s2 u)

end Spec
