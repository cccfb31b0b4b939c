import Mathlib.Data.Real.Sqrt
import Mathlib.LinearAlgebra.Matrix.Notation
import Mathlib.Data.Matrix.Mul
import Mathlib.Algebra.BigOperators.Group.Finset.Basic

/-!
# Specification of the local stochastic volatility model

The model `dS / S = (r - d) dt + L(t, S) sqrt(v) dW`, `dv = a(v) dt + b(v) dZ` with `dW dZ = rho dt`, and the Fokker-Planck equation of the joint density `p` of
the logarithm `X` of the spot and the variance `v` (I. Clark, Foreign exchange option pricing, 6.8.2):
`p_t = (A p)_XX + (B p)_Xv + (C p)_vv - (D p)_X - (E p)_v`.
-/

namespace Spec
open scoped BigOperators Matrix

/-- The covariance of the increments of the spot and the variance per unit of time. -/
def lsvCovariance (rho d1 d2 : ℝ) : Matrix (Fin 2) (Fin 2) ℝ := !![d1 ^ 2, rho * d1 * d2; rho * d1 * d2, d2 ^ 2]

/-- The coefficients `A`, `B`, `C`, `D`, `E` of the Fokker-Planck equation at a variance `v` and leverage `l`. -/
structure FokkerPlanck where
  spot : ℝ
  mixed : ℝ
  variance : ℝ
  spotDrift : ℝ
  varianceDrift : ℝ

noncomputable def fokkerPlanck (rate dividend rho : ℝ) (a b : ℝ → ℝ) (l v : ℝ) : FokkerPlanck :=
  ⟨v * l ^ 2 / 2, rho * Real.sqrt v * l * b v, b v ^ 2 / 2, rate - dividend - v * l ^ 2 / 2, a v⟩

/-- The integral of a function over the cells of a grid by the values at the lower left corners. -/
def cellIntegral (n m : Nat) (x y : Nat → ℝ) (p : Nat → Nat → ℝ) : ℝ :=
  ∑ i ∈ Finset.range m, ∑ j ∈ Finset.range n, p i j * (x (j + 1) - x j) * (y (i + 1) - y i)

/-- The sequence of densities and leverage functions when the leverage computed at the end of a step is the one of the next step: densities after
`k` steps with the leverage for the step that follows. -/
def lsvEvolution {D L : Type} (evolve : L → ℝ → D → D) (leverage : ℝ → D → L) (dt : ℝ) (l0 : L) (d0 : D) : Nat → D × L
  | 0 => (d0, l0)
  | k + 1 =>
    let s := lsvEvolution evolve leverage dt l0 d0 k
    let d := evolve s.2 (k * dt) s.1
    (d, leverage ((k + 1 : ℕ) * dt) d)

end Spec
