import Verif.Model.HullWhite
import Verif.Model.PrepareGrid
import Mathlib.Analysis.Real.Pi.Bounds
import Mathlib.Analysis.SpecialFunctions.Trigonometric.Basic
import Mathlib.LinearAlgebra.Matrix.Notation
import Mathlib.Data.Matrix.Mul

/-!
# Model of `tf_quant_finance/models/euler_sampling.py` and `tf_quant_finance/models/milstein_sampling.py`

One path. The normal draws of the path are a parameter, one entry per step. Iteration numbers that are never reached
(`maximum_iterations`, which is at least the number of steps) are left out. For the loop with `watch_params` the values returned by
`custom_loops.for_loop` are those of property C40.
-/

namespace Model
open scoped BigOperators

variable {S Z : Type}

/-- The states along the grid `t :: ts`: `current_state` in the loops. `step t' dt x z` is the step to time `t'`. -/
def schemeStates (step : ℝ → ℝ → S → Z → S) (t : ℝ) (x : S) : List ℝ → List Z → List S
  | t' :: ts, z :: zs => x :: schemeStates step t' (step t' (t' - t) x z) ts zs
  | _, _ => [x]

/-- `_while_loop` with a `TensorArray`, `euler_sampling.py` L426-455 with L531-537, `milstein_sampling.py` L378-415 with L666-672. The list
has the remaining grid points with their entries of `keep_mask`. -/
def recordingLoop (step : ℝ → ℝ → S → Z → S) (requested : Nat) :
    List (ℝ × Bool) → List Z → ℝ → Nat → S → List (Option S) → List (Option S)
  | (t', keep) :: rest, z :: draws, t, count, x, result =>
    if count < requested then
      let next := step t' (t' - t) x z
      recordingLoop step requested rest draws t' (count + if keep then 1 else 0) next (result.set count (some next))
    else result
  | _, _, _, _, _, result => result

/-- `_while_loop` without a `TensorArray`. -/
def lastLoop (step : ℝ → ℝ → S → Z → S) (requested : Nat) : List (ℝ × Bool) → List Z → ℝ → Nat → S → S
  | (t', keep) :: rest, z :: draws, t, count, x =>
    if count < requested then lastLoop step requested rest draws t' (count + if keep then 1 else 0) (step t' (t' - t) x z) else x
  | _, _, _, _, x => x

/-- `_while_loop`, `euler_sampling.py` L405-464, `milstein_sampling.py` L356-424. -/
def whileSample (step : ℝ → ℝ → S → Z → S) (requested : Nat) (grid : List ℝ) (mask : List Bool) (x0 : S) (draws : List Z) : List (Option S) :=
  let count := if mask.headD false then 1 else 0
  let rest := grid.tail.zip mask.tail
  if requested = 1 then [some (lastLoop step requested rest draws (grid.headD 0) count x0)]
  else recordingLoop step requested rest draws (grid.headD 0) count x0 ((List.replicate requested none).set 0 (some x0))

/-- `_for_loop`, `euler_sampling.py` L467-510: the states after the numbers of steps in `time_indices` (property C40). The branch for one
requested time is never taken since `num_time_points` is a list, and the value is the same. -/
def forSample (step : ℝ → ℝ → S → Z → S) (indices : List Int) (grid : List ℝ) (x0 : S) (draws : List Z) : List (Option S) :=
  indices.map fun i => (schemeStates step (grid.headD 0) x0 grid.tail draws)[i.toNat]?

/-- `_for_loop`, `milstein_sampling.py` L427-473: one requested time gives the state after all steps. -/
def forSampleMilstein (step : ℝ → ℝ → S → Z → S) (indices : List Int) (grid : List ℝ) (x0 : S) (draws : List Z) : List (Option S) :=
  let states := schemeStates step (grid.headD 0) x0 grid.tail draws
  if indices.length = 1 then [states[grid.length - 1]?] else indices.map fun i => states[i.toNat]?

/-- `_euler_step`, `euler_sampling.py` L513-537: `dim` state variables, `z` the normal draws. -/
noncomputable def eulerStep {d : Nat} (drift : ℝ → (Fin d → ℝ) → Fin d → ℝ) (vol : ℝ → (Fin d → ℝ) → Matrix (Fin d) (Fin d) ℝ) (currentTime dt : ℝ)
    (x z : Fin d → ℝ) : Fin d → ℝ :=
  let dw := fun j => z j * Real.sqrt dt
  fun k => x k + dt * drift currentTime x k + (vol currentTime x).mulVec dw k

/-- `_milstein_1d`, `milstein_sampling.py` L565-574. -/
noncomputable def milstein1d (z dt x drift vol gradVol : ℝ) : ℝ :=
  let dw := z * Real.sqrt dt
  let hotVol := vol * gradVol
  let hotDw := dw * dw - dt
  x + dt * drift + vol * dw + hotVol * hotDw / 2

/-- `_stratonovich_integral`, `milstein_sampling.py` L481-525. The draws are `mu`, `zeta` and `eta`; `order = p + 1`. -/
noncomputable def stratonovichIntegral {d p : Nat} (dt : ℝ) (dw : Fin d → ℝ) (mu zeta eta : Fin d → Fin (p + 1) → ℝ) (i j : Fin d) : ℝ :=
  let sqrtRho := Real.sqrt (1 / 12 - (∑ r : Fin (p + 1), 1 / ((r : ℝ) + 1) ^ 2) / 2 / Real.pi ^ 2)
  let xi := fun k => dw k / Real.sqrt dt
  dt * (dw i * dw j / 2 + sqrtRho * (mu i (Fin.last p) * xi j - xi i * mu j (Fin.last p))) +
    dt * (∑ r : Fin (p + 1), (zeta i r * (Real.sqrt 2 * xi j + eta j r) - (Real.sqrt 2 * xi i + eta i r) * zeta j r) * (1 / ((r : ℝ) + 1))) / (2 * Real.pi)

/-- `_milstein_hot`, `milstein_sampling.py` L528-552. `gradVol i k j` is the derivative of entry `k, j` of the volatility by the state `i`. -/
noncomputable def milsteinHot {d p : Nat} (vol : Matrix (Fin d) (Fin d) ℝ) (gradVol : Fin d → Matrix (Fin d) (Fin d) ℝ) (dt : ℝ) (dw : Fin d → ℝ)
    (mu zeta eta : Fin d → Fin (p + 1) → ℝ) (k : Fin d) : ℝ :=
  let integrals : Matrix (Fin d) (Fin d) ℝ := fun i j => if i = j then dw i * dw i / 2 else stratonovichIntegral dt dw mu zeta eta i j
  let stacked : Matrix (Fin d) (Fin d) ℝ := Matrix.of fun i m => gradVol i k m
  let lbar := stacked * vol
  ∑ i, ∑ j, lbar i j * integrals i j

/-- `_stratonovich_drift_update`, `milstein_sampling.py` L555-562; both tensors are flattened by the state and then by the Wiener process. -/
noncomputable def stratonovichDriftUpdate {d : Nat} (vol : Matrix (Fin d) (Fin d) ℝ) (gradVol : Fin d → Matrix (Fin d) (Fin d) ℝ) (k : Fin d) : ℝ :=
  ∑ i, ∑ j, gradVol i k j * vol i j

/-- `_milstein_nd`, `milstein_sampling.py` L577-593. -/
noncomputable def milsteinNd {d p : Nat} (z : Fin d → ℝ) (dt : ℝ) (x drift : Fin d → ℝ) (vol : Matrix (Fin d) (Fin d) ℝ)
    (gradVol : Fin d → Matrix (Fin d) (Fin d) ℝ) (mu zeta eta : Fin d → Fin (p + 1) → ℝ) (k : Fin d) : ℝ :=
  let dw := fun j => z j * Real.sqrt dt
  let dtInc := dt * (drift k - stratonovichDriftUpdate vol gradVol k)
  let dwInc := vol.mulVec dw k
  x k + dtInc + dwInc + milsteinHot vol gradVol dt dw mu zeta eta k

end Model
