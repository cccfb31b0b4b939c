import Mathlib.Analysis.Calculus.Deriv.Basic
import Mathlib.LinearAlgebra.Matrix.Notation
import Mathlib.Data.Real.Sqrt
import Verif.Model.HullWhite
import Verif.Model.PathDiscount

/-!
# Model of `tf_quant_finance/models/hjm`: `quasi_gaussian_hjm.py`, `gaussian_hjm.py`, `cap_floor.py`, `swaption_pricing.py`

One model of the batch and one path at a time, over the reals, with `n` factors.  Automatic differentiation is the derivative.  A
Cholesky factor is any matrix `L` with `L Lᵀ = rho` (its triangular form is not used), an eigenvalue decomposition is given by the
eigenvalues and the orthogonal matrix of the eigenvectors.
-/

namespace Model

/-- Parameters, `quasi_gaussian_hjm.py` L116-125, L198-226: `volatility t r` are the volatilities of the factors. -/
structure Hjm (n : Nat) where
  meanReversion : Fin n → ℝ
  volatility : ℝ → ℝ → Fin n → ℝ
  rho : Matrix (Fin n) (Fin n) ℝ
  sqrtRho : Matrix (Fin n) (Fin n) ℝ
  discountRate : ℝ → ℝ

namespace Hjm
variable {n : Nat} (m : Hjm n)

/-- `_instant_forward_rate_fn` L170-182. -/
noncomputable def instantForwardRate (t : ℝ) : ℝ := -deriv (fun x => -m.discountRate x * x) t

/-- The short rate L234-235, L258-259, L499-502. -/
noncomputable def shortRate (t : ℝ) (x : Fin n → ℝ) : ℝ := m.instantForwardRate t + ∑ i, x i

/-- `_vol_fn` L229-248: the part of the state `x`; the rows and columns of `y` are zero. -/
noncomputable def diffusion (t : ℝ) (x : Fin n → ℝ) (i k : Fin n) : ℝ := m.sqrtRho i k * m.volatility t (m.shortRate t x) i

/-- `_drift_fn` L251-283, the part of the state `x`. -/
def driftX (x : Fin n → ℝ) (y : Fin n → Fin n → ℝ) (i : Fin n) : ℝ := (∑ j, y i j) - m.meanReversion i * x i

/-- `_drift_fn` L251-283, the part of the state `y`. -/
noncomputable def driftY (t : ℝ) (x : Fin n → ℝ) (y : Fin n → Fin n → ℝ) (i j : Fin n) : ℝ :=
  let v := m.volatility t (m.shortRate t x)
  m.rho i j * (v i * v j) - (m.meanReversion i + m.meanReversion j) * y i j

/-- A step of `euler_sampling.sample` for the whole state, with the normal draws `z`. -/
noncomputable def eulerStep (t dt : ℝ) (s : (Fin n → ℝ) × (Fin n → Fin n → ℝ)) (z : Fin n → ℝ) : (Fin n → ℝ) × (Fin n → Fin n → ℝ) :=
  (fun i => s.1 i + m.driftX s.1 s.2 i * dt + (∑ k, m.diffusion t s.1 i k * z k) * Real.sqrt dt,
    fun i j => s.2 i j + m.driftY t s.1 s.2 i j * dt)

/-- The states at the times `t, t + dt₁, …` from the zero state, L459-493. -/
noncomputable def eulerStates (t : ℝ) (s : (Fin n → ℝ) × (Fin n → Fin n → ℝ)) :
    List (ℝ × (Fin n → ℝ)) → List ((Fin n → ℝ) × (Fin n → Fin n → ℝ))
  | [] => [s]
  | (dt, z) :: rest => s :: eulerStates (t + dt) (m.eulerStep t dt s z) rest

/-- `_bond_reconstitution` L515-548. -/
noncomputable def bondPrice (t maturity : ℝ) (x : Fin n → ℝ) (y : Fin n → Fin n → ℝ) : ℝ :=
  let p0t := Real.exp (-m.discountRate t * t)
  let p0 := Real.exp (-m.discountRate maturity * maturity) / p0t
  let g := fun i => (1 - Real.exp (-m.meanReversion i * (maturity - t))) / m.meanReversion i
  let term1 := ∑ i, x i * g i
  let term2 := ∑ i, g i * ∑ j, y i j * g j
  p0 * Real.exp (-term1 - 0.5 * term2)

end Hjm

/-- `_get_valid_sqrt_matrix` L551-564 for the eigenvalues `e` and eigenvectors `v`; `chol` is the Cholesky factor. -/
noncomputable def hjmSqrtMatrix {n : Nat} (e : Fin n → ℝ) (v chol : Matrix (Fin n) (Fin n) ℝ) : Matrix (Fin n) (Fin n) ℝ :=
  if ∃ i, e i < 1e-5 then v * (Matrix.diagonal (fun i => max (e i) 1e-5)).map Real.sqrt else chol

/-- The discount factors of `quasi_gaussian_hjm.py` L504-507: `rates` are the short rates at the times of the grid. -/
noncomputable def quasiGaussianDiscounts (times rates : List ℝ) : List ℝ :=
  (cumsumUsingMatvec (List.zipWith (fun r dt => r * dt) rates (simulationSteps times))).map (fun c => Real.exp (-c))

/-- The discount factors of `gaussian_hjm.py` L449-453. -/
noncomputable def gaussianDiscounts (times rates : List ℝ) : List ℝ :=
  cumprodUsingMatvec (1 :: List.zipWith (fun r dt => Real.exp (-r * dt)) rates.dropLast (simulationSteps times).tail)

/-- Parameters of `gaussian_hjm.py` L124-206 with piecewise constant volatilities: the jumps and the values of each factor. -/
structure GaussianHjm (n : Nat) where
  meanReversion : Fin n → ℝ
  jumps : Fin n → List ℝ
  values : Fin n → List ℝ
  rho : Matrix (Fin n) (Fin n) ℝ
  sqrtRho : Matrix (Fin n) (Fin n) ℝ
  discountRate : ℝ → ℝ

namespace GaussianHjm
variable {n : Nat} (m : GaussianHjm n)

noncomputable def volatility (t : ℝ) (i : Fin n) : ℝ := piecewiseConstant (m.jumps i) (m.values i) true t

/-- `_integrate_volatility_squared` L334-340. -/
noncomputable def integrateVolatilitySquared (i j : Fin n) (vi vj lower upper : ℝ) : ℝ :=
  let mr2 := m.meanReversion i + m.meanReversion j
  m.rho i j * (vi * vj) / mr2 * (Real.exp (mr2 * upper) - Real.exp (mr2 * lower))

/-- `v_squared_between_vol_knots` L342-347 with L459-465: in the entry `i, j` the knots are those of the factor `j`. -/
noncomputable def betweenKnots (i j : Fin n) : List ℝ :=
  List.zipWith (fun (p : ℝ × ℝ) (v : ℝ × ℝ) => m.integrateVolatilitySquared i j v.1 v.2 p.1 p.2)
    ((0 :: (m.jumps j).dropLast).zip (m.jumps j))
    (((m.jumps i).map (fun s => m.volatility s i)).zip ((m.jumps j).map (fun s => m.volatility s j)))

/-- `state_y` L305-360: in the entry `i, j` the last knot before `t` is that of the factor `j`, the sum is taken to the index of the factor
`i`. -/
noncomputable def stateY (t : ℝ) (i j : Fin n) : ℝ :=
  let mr2 := m.meanReversion i + m.meanReversion j
  Real.exp (-mr2 * t) * (m.integrateVolatilitySquared i j (m.volatility t i) (m.volatility t j)
    ((0 :: m.jumps j).getD (searchLeft (m.jumps j) t) 0) t +
      (0 :: cumsumUsingMatvec (m.betweenKnots i j)).getD (searchLeft (m.jumps i) t) 0)

/-- The functions shared with the base class. -/
noncomputable def toHjm : Hjm n := ⟨m.meanReversion, fun t _ => m.volatility t, m.rho, m.sqrtRho, m.discountRate⟩

/-- `_drift_fn` L217-223. -/
noncomputable def drift (t : ℝ) (x : Fin n → ℝ) (i : Fin n) : ℝ := (∑ j, m.stateY t i j) - m.meanReversion i * x i

/-- `discount_bond_price` L362-402: the matrix of `state_y` gets transposed. -/
noncomputable def discountBondPrice (x : Fin n → ℝ) (t maturity : ℝ) : ℝ := m.toHjm.bondPrice t maturity x (fun i j => m.stateY t j i)

end GaussianHjm

end Model
