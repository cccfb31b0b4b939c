import Mathlib.Data.Real.Basic
import Mathlib.Algebra.BigOperators.Group.Finset.Basic
import Mathlib.Data.Finset.Range
import Mathlib.Data.Fintype.Basic
import Mathlib.Data.Fintype.BigOperators

/-!
# Model of `tf_quant_finance/models/joined_ito_process.py` and of the equations set up in `tf_quant_finance/models/generic_ito_process.py`

One state (one path, or one point of the grid). A square matrix is its size with its entries by indices from zero. `tf.linalg.cholesky` is a
parameter. A correlation given as a tensor is the constant function of the time.
-/

namespace Model
open scoped BigOperators

/-- An `ItoProcess`: `dim()`, `drift_fn()` and `volatility_fn()`; the values are those after `tf.broadcast_to`, `joined_ito_process.py` L174, L191. -/
structure ItoBlock where
  dim : Nat
  drift : ℝ → List ℝ → Nat → ℝ
  vol : ℝ → List ℝ → Nat → Nat → ℝ

/-- `block_diagonal_to_dense`, `models/utils.py` L323-326, with `LinearOperatorBlockDiag.to_dense`. -/
def blockDense : List (Nat × (Nat → Nat → ℝ)) → Nat → Nat → ℝ
  | [], _, _ => 0
  | (n, m) :: rest, i, j => if i < n ∧ j < n then m i j else if n ≤ i ∧ n ≤ j then blockDense rest (i - n) (j - n) else 0

/-- The loop of `_drift_fn`, L162-177, from the position `i1`, `i2`. -/
def joinedDriftLoop (t : ℝ) (x : List ℝ) : List ItoBlock → Nat → Nat → List ℝ
  | [], _, _ => []
  | p :: rest, i1, i2 =>
    let i2 := i2 + p.dim
    let position := (x.take i2).drop i1
    (List.range p.dim).map (p.drift t position) ++ joinedDriftLoop t x rest (i1 + p.dim) i2

/-- `_drift_fn`, L162-177. -/
def joinedDrift (processes : List ItoBlock) (t : ℝ) (x : List ℝ) : List ℝ := joinedDriftLoop t x processes 0 0

/-- The loop of `_vol_fn`, L181-193. -/
def joinedVolLoop (t : ℝ) (x : List ℝ) : List ItoBlock → Nat → Nat → List (Nat × (Nat → Nat → ℝ))
  | [], _, _ => []
  | p :: rest, i1, i2 =>
    let i2 := i2 + p.dim
    let position := (x.take i2).drop i1
    (p.dim, p.vol t position) :: joinedVolLoop t x rest (i1 + p.dim) i2

/-- `dim`, L143-151. -/
def joinedDim (processes : List ItoBlock) : Nat := (processes.map ItoBlock.dim).sum

/-- `_vol_fn`, L179-201. -/
def joinedVol (cholesky : Nat → (Nat → Nat → ℝ) → Nat → Nat → ℝ) (processes : List ItoBlock) (corr : List (Nat × (ℝ → Nat → Nat → ℝ))) (t : ℝ)
    (x : List ℝ) (i j : Nat) : ℝ :=
  let vol := blockDense (joinedVolLoop t x processes 0 0)
  let corrStructure := corr.map fun c => (c.1, c.2 t)
  let choleskyDecomp := blockDense (corrStructure.map fun m => (m.1, cholesky m.1 m.2))
  ∑ k ∈ Finset.range (joinedDim processes), vol i k * choleskyDecomp k j

/-- The coefficients of a parabolic equation at one point: second, first and zeroth order. `none` for no zeroth order term. -/
structure ItoPdeCoeffs (d : Nat) where
  second : Fin d → Fin d → ℝ
  first : Fin d → ℝ
  zeroth : Option ℝ

/-- `_coord_grid_to_mesh_grid`, `generic_ito_process.py` L882-885, at one index of the grid. -/
def meshPoint {d : Nat} (coordGrid : Fin d → List ℝ) (index : Fin d → Nat) : Fin d → ℝ := fun i => (coordGrid i).getD (index i) 0

/-- `_backward_pde_coeffs`, L845-879, at one index of the grid. -/
noncomputable def backwardPdeCoeffs {d : Nat} (drift : ℝ → (Fin d → ℝ) → Fin d → ℝ) (vol : ℝ → (Fin d → ℝ) → Fin d → Fin d → ℝ)
    (discounting : Option (ℝ → (Fin d → ℝ) → ℝ)) (t : ℝ) (coordGrid : Fin d → List ℝ) (index : Fin d → Nat) : ItoPdeCoeffs d :=
  let x := meshPoint coordGrid index
  let sigma := vol t x
  { second := fun i j => (∑ k, sigma i k * sigma j k) / 2
    first := fun i => drift t x i
    zeroth := discounting.map fun r => -r t x }

/-- The coefficients given to the solver in `fd_solver_forward`, L816-825: those under the derivatives. -/
noncomputable def forwardPdeCoeffs {d : Nat} (drift : ℝ → (Fin d → ℝ) → Fin d → ℝ) (vol : ℝ → (Fin d → ℝ) → Fin d → Fin d → ℝ) (t : ℝ)
    (coordGrid : Fin d → List ℝ) (index : Fin d → Nat) : ItoPdeCoeffs d :=
  let backward := backwardPdeCoeffs drift vol none t coordGrid index
  { second := fun i j => -backward.second i j
    first := backward.first
    zeroth := backward.zeroth }

end Model
