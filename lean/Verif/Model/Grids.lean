import Verif.Model.PrepareGrid
import Mathlib.Analysis.SpecialFunctions.Log.Basic

/-!
# Model of `tf_quant_finance/math/pde/grids.py`

The arguments of rank 1 are lists, and a grid is the list of its axes. For the grids with an extra point, one element of the batch. Shapes
are always fully defined. The checks of `validate_args` are errors. `tf.sort` is insertion sort. An index out of range is an error.
-/

namespace Model

variable {K : Type} [Field K] [LinearOrder K]

/-- The assertions of `validate_args` for all axes, L79-84. -/
def gridAssertions (validateArgs : Bool) (minimums maximums : List K) (sizes : List Nat) : Except String Unit :=
  if validateArgs then
    if (List.zip minimums maximums).all (fun p => decide (p.2 > p.1)) = false then .error "assert_greater(maximums, minimums)"
    else if sizes.all (fun n => decide (n ≥ 2)) = false then .error "assert_greater_equal(sizes, 2)"
    else .ok ()
  else .ok ()

/-- The assertions L172-179: also the minima are positive. -/
def logGridAssertions (validateArgs : Bool) (minimums maximums : List K) (sizes : List Nat) : Except String Unit :=
  if validateArgs then
    if (List.zip minimums maximums).all (fun p => decide (p.2 > p.1)) = false then .error "assert_greater(maximums, minimums)"
    else if minimums.all (fun m => decide (m > 0)) = false then .error "assert_greater(minimums, 0)"
    else if sizes.all (fun n => decide (n ≥ 2)) = false then .error "assert_greater_equal(sizes, 2)"
    else .ok ()
  else .ok ()

/-- The check that the shapes are identical, L72-74, L165-167. -/
def gridShapes (minimums maximums : List K) (sizes : List Nat) : Except String Unit :=
  if minimums.length = maximums.length ∧ minimums.length = sizes.length then .ok ()
  else .error "The shapes of minimums, maximums and sizes must be identical."

/-- `uniform_grid` L21-91. -/
def uniformGrid (minimums maximums : List K) (sizes : List Nat) (validateArgs : Bool := false) : Except String (List (List K)) := do
  gridShapes minimums maximums sizes
  gridAssertions validateArgs minimums maximums sizes
  pure ((List.range sizes.length).map fun (i : Nat) => tfLinspace (minimums.getD i 0) (maximums.getD i 0) (sizes.getD i 0))

/-- `log_uniform_grid` L94-191. -/
noncomputable def logUniformGrid (minimums maximums : List ℝ) (sizes : List Nat) (validateArgs : Bool := false) : Except String (List (List ℝ)) := do
  gridShapes minimums maximums sizes
  logGridAssertions validateArgs minimums maximums sizes
  let logMaximums := maximums.map Real.log
  let logMinimums := minimums.map Real.log
  pure ((List.range sizes.length).map fun (i : Nat) => (tfLinspace (logMinimums.getD i 0) (logMaximums.getD i 0) (sizes.getD i 0)).map Real.exp)

/-- `rectangular_grid` L194-235. -/
def rectangularGrid (axisLocations : List (List K)) : Except String (List (List K)) :=
  if axisLocations = [] then .error "The axis locations parameter cannot be empty." else .ok axisLocations

/-- The check of the shapes L320-321, L432-433, and the indices of L332-336 and L344, which run over the axes of `sizes`. -/
def extraPointShapes (minimums maximums : List K) (sizes : List Nat) (extra : List K) : Except String Unit :=
  if minimums.length ≠ maximums.length then .error "The shapes of minimums and maximums must be identical."
  else if minimums.length < sizes.length ∨ extra.length < sizes.length then .error "index out of bounds"
  else .ok ()

/-- `uniform_grid_with_extra_point` L238-346. -/
def uniformGridWithExtraPoint (minimums maximums : List K) (sizes : List Nat) (extra : List K) (validateArgs : Bool := false) :
    Except String (List (List K)) := do
  extraPointShapes minimums maximums sizes extra
  gridAssertions validateArgs minimums maximums sizes
  pure ((List.range sizes.length).map fun (i : Nat) =>
    let minimum := minimums.getD i 0
    let maximum := maximums.getD i 0
    let location := (tfLinspace 0 1 (sizes.getD i 0)).map fun w => minimum + (maximum - minimum) * w
    (location ++ [extra.getD i 0]).insertionSort (· ≤ ·))

/-- `log_uniform_grid_with_extra_point` L349-467. -/
noncomputable def logUniformGridWithExtraPoint (minimums maximums : List ℝ) (sizes : List Nat) (extra : List ℝ) (validateArgs : Bool := false) :
    Except String (List (List ℝ)) := do
  extraPointShapes minimums maximums sizes extra
  logGridAssertions validateArgs minimums maximums sizes
  let logMaximums := maximums.map Real.log
  let logMinimums := minimums.map Real.log
  pure ((List.range sizes.length).map fun (i : Nat) =>
    let minimum := logMinimums.getD i 0
    let maximum := logMaximums.getD i 0
    let location := (tfLinspace 0 1 (sizes.getD i 0)).map fun w => minimum + (maximum - minimum) * w
    ((location ++ [Real.log (extra.getD i 0)]).insertionSort (· ≤ ·)).map Real.exp)

end Model
