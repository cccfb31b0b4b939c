import Mathlib.Data.Real.Basic
import Mathlib.Data.Real.Sqrt
import Mathlib.Algebra.BigOperators.Fin

/-! The schemes of Euler and Milstein. -/

namespace Spec
open scoped BigOperators

/-- `X` is the Euler path from `x0` on the grid `t` with standard normal draws `z`, the coefficients of step `i` taken at time `s i`. -/
def IsEulerPath {d : Nat} (drift : ℝ → (Fin d → ℝ) → Fin d → ℝ) (vol : ℝ → (Fin d → ℝ) → Fin d → Fin d → ℝ) (x0 : Fin d → ℝ) (t s : Nat → ℝ)
    (z : Nat → Fin d → ℝ) (n : Nat) (X : Nat → Fin d → ℝ) : Prop :=
  X 0 = x0 ∧ ∀ i, i < n → ∀ k, X (i + 1) k =
    X i k + drift (s i) (X i) k * (t (i + 1) - t i) + ∑ j, vol (s i) (X i) k j * (Real.sqrt (t (i + 1) - t i) * z i j)

/-- The Milstein step (Kloeden and Platen, equation 10.3.4) from `x` for drift `a`, volatility `b k j` of state `k` and Wiener process `j`, its
derivatives `db i k j` by state `i`, increments `dw` and multiple Stratonovich integrals `J`. -/
noncomputable def milsteinStep {d : Nat} (x a : Fin d → ℝ) (b : Fin d → Fin d → ℝ) (db : Fin d → Fin d → Fin d → ℝ) (dt : ℝ) (dw : Fin d → ℝ)
    (J : Fin d → Fin d → ℝ) (k : Fin d) : ℝ :=
  x k + (a k - (∑ j, ∑ i, b i j * db i k j) / 2) * dt + ∑ j, b k j * dw j + ∑ j₁, ∑ j₂, (∑ i, b i j₁ * db i k j₂) * J j₁ j₂

/-- The symmetric part of the multiple Stratonovich integrals is determined by the increments. -/
def IsStratonovich {d : Nat} (dw : Fin d → ℝ) (J : Fin d → Fin d → ℝ) : Prop := ∀ i j, J i j + J j i = dw i * dw j

end Spec
