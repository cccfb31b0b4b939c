import Verif.Model.SearchSorted
import Mathlib.Algebra.Order.Floor.Defs
import Mathlib.Algebra.Order.Floor.Ring
import Mathlib.Algebra.Field.Defs
import Mathlib.Data.List.Sort

/-!
# Model of `prepare_grid` in `tf_quant_finance/models/utils.py`

Indices are integers, since the code subtracts from them. `none` is a lookup outside of a tensor.
-/

namespace Model

variable {K : Type} [Field K] [LinearOrder K]

/-- `tf.range(0, limit, delta)` for a positive `delta`. -/
def tfRange [FloorRing K] (limit delta : K) : List K := (List.range ⌈limit / delta⌉.toNat).map fun (k : Nat) => (k : K) * delta

/-- `tf.linspace(start, stop, num)`; one point is the start. -/
def tfLinspace (start stop : K) (num : Nat) : List K :=
  (List.range num).map fun (k : Nat) => start + (k : K) * ((stop - start) / ((max (num - 1) 1 : Nat) : K))

/-- Removal of points too close to the point before, L292-295. -/
def removeClose (tolerance : K) (allTimes : List K) : List K :=
  let dt := 1 :: List.zipWith (fun a b => a - b) (allTimes.drop 1) allTimes.dropLast
  ((List.zip allTimes dt).filter fun p => decide (p.2 > tolerance)).map Prod.fst

/-- `_grid_from_time_step`, L285-306. -/
def gridFromTimeStep [FloorRing K] (times : List K) (timeStep tolerance : K) : Option (List K × List Int) := do
  let last ← times.getLast?
  let grid := tfRange last timeStep
  let allTimes := (times ++ grid).insertionSort (· ≤ ·)
  let allTimes := removeClose tolerance allTimes
  let indices ← times.mapM fun t => do
    let i : Int := min (searchLeft allTimes t) (allTimes.length - 1)
    let g ← if i < 0 then none else allTimes[i.toNat]?
    pure (if g - t > tolerance then i - 1 else i)
  pure (allTimes, indices)

/-- `_grid_from_num_times`, L309-320. -/
def gridFromNumTimes (times : List K) (timeStep : K) (numTimeSteps : Nat) : Option (List K × List Int) := do
  let last ← times.getLast?
  let uniform := tfLinspace timeStep (last - timeStep) (numTimeSteps - times.length)
  let grid := (uniform ++ times).insertionSort (· ≤ ·)
  let allTimes := 0 :: grid
  pure (allTimes, times.map fun t => (searchLeft allTimes t : Int))

/-- The branch of `prepare_grid` for a supplied grid, L262-271. -/
def gridFromGrid (times timesGrid : List K) : Option (List K × List Int) := do
  let indices ← times.mapM fun t => do
    let i : Int := searchLeft timesGrid t
    let g1 ← timesGrid[i.toNat]?
    let g2 ← timesGrid[(max (i - 1) 0).toNat]?
    let d1 := g1 - t
    let d2 := g2 - t
    pure (if |d2| > |d1| then i else max (i - 1) 0)
  pure (timesGrid, indices)

/-- `prepare_grid`, L209-282: grid, mask and indices. -/
def prepareGrid [FloorRing K] (times : List K) (timeStep tolerance : K) (numTimeSteps : Option Nat) (timesGrid : Option (List K)) :
    Option (List K × List Bool × List Int) :=
  let grid := match timesGrid with
    | none => match numTimeSteps with
      | none => gridFromTimeStep times timeStep tolerance
      | some n => gridFromNumTimes times timeStep n
    | some g => gridFromGrid times g
  grid.map fun (allTimes, indices) =>
    let mask := (List.range allTimes.length).map fun (i : Nat) => decide (indices.count (i : Int) > 0)
    (allTimes, mask, indices)

end Model
