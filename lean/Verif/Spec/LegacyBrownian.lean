import Mathlib.Algebra.BigOperators.Group.Finset.Basic
import Mathlib.Data.Real.Basic
import Mathlib.Data.List.Basic

/-! Paths of a process at given times: by increments, and by steps on a finer grid. -/

namespace Spec
open scoped BigOperators

/-- The change of path `n` in component `j` up to time number `m` from the time before, which is the start for the first time. -/
noncomputable def pathIncrement (start : Nat → ℝ) (path : Nat → Nat → Nat → ℝ) (n m j : Nat) : ℝ :=
  path n m j - (match m with
    | 0 => start j
    | m' + 1 => path n m' j)

/-- Time between the time number `m` and the time before; the first one starts at zero. -/
noncomputable def timeGap (times : List ℝ) (m : Nat) : ℝ :=
  times.getD m 0 - (match m with
    | 0 => 0
    | m' + 1 => times.getD m' 0)

/-- States on a grid: `step i t t'` is the step number `i`. -/
def gridState {K S : Type} [Zero K] (step : Nat → K → K → S → S) (grid : List K) (x0 : S) : Nat → S
  | 0 => x0
  | i + 1 => step i (grid.getD i 0) (grid.getD (i + 1) 0) (gridState step grid x0 i)

end Spec
