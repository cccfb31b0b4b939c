import Verif.Model.SearchSorted
import Verif.Model.Segments

/-!
# Model of `tf_quant_finance/math/piecewise.py`

One batch row, scalar values (empty event shape), one argument; numbers in an ordered field (no rounding).
-/

namespace Model

section
variable {K : Type} [LinearOrder K]

/-- L211-281 `find_interval_index` for one query (indices are `-1, 0, ...`). -/
def findIntervalIndex (query : K) (lowers : List K) (lastIntervalIsClosed : Bool) : Int :=
  let index : Int := (searchRight lowers query : Int) - 1
  let lastIndex : Int := (lowers.length : Int) - 1
  let shouldCap : Bool := match lowers.getLast? with
    | some lastX => decide (index = lastIndex) && decide (query ≤ lastX)
    | none => false
  let cap := lastIndex - (if shouldCap then 1 else 0)
  if lastIntervalIsClosed then min index cap else index

variable [Zero K]

/-- L284-311 `_piecewise_constant_function` (called by `__call__` L144-176). -/
def piecewiseConstant (jumps values : List K) (leftContinuous : Bool) (x : K) : K :=
  let index := if leftContinuous then searchLeft jumps x else searchRight jumps x
  values.getD index 0

/-- L372-412 `_get_indices_and_values`: `(value, jump_location, indices_jump)`. -/
def getIndicesAndValues (x : K) (jumps values : List K) (left : Bool) : K × K × Nat :=
  let index : Nat := if left then searchLeft jumps x else searchRight jumps x
  let numDataPoints : Int := (values.length : Int) - 2
  let indexJump : Int := if left then min (index : Int) numDataPoints else max ((index : Int) - 1) 0
  (values.getD index 0, jumps.getD indexJump.toNat 0, indexJump.toNat)

end

section
variable {K : Type} [Field K] [LinearOrder K]

/-- L330-345: `integrals`, cumulative integrals between the jumps, padded by zeros on both sides. -/
def cumulativeIntegrals (jumps values : List K) : List K :=
  let diffs := List.zipWith (· - ·) jumps.tail jumps.dropLast
  -- `values[1 : num_data_points - 1]`
  let inner := (values.take (values.length - 1)).drop 1
  [0] ++ cumsum (List.zipWith (· * ·) inner diffs) false ++ [0]

/-- L314-369 `_piecewise_constant_integrate`. -/
def piecewiseIntegrate (jumps values : List K) (x1 x2 : K) : K :=
  let integrals := cumulativeIntegrals jumps values
  let (value1, jump1, i1) := getIndicesAndValues x1 jumps values true
  let (value2, jump2, i2) := getIndicesAndValues x2 jumps values false
  (jump1 - x1) * value1 + (x2 - jump2) * value2 + integrals.getD i2 0 - integrals.getD i1 0

end

end Model
