import Mathlib.Algebra.Field.Defs
import Mathlib.Algebra.BigOperators.Group.List.Defs

/-! # Model of `tf_quant_finance/math/integration/simpson.py` (scalar limits, no rounding) -/

namespace Model

variable {K : Type} [Field K]

/-- L90-94 `weights`. -/
def simpsonWeights (numPoints : Nat) : List K :=
  [1] ++ (List.replicate ((numPoints - 3) / 2) [4, 2]).flatten ++ [4, 1]

/-- L86-89 `grid`. -/
def simpsonGrid (lower upper : K) (numPoints : Nat) : List K :=
  let dx := (upper - lower) / ((numPoints : K) - 1)
  (List.range numPoints).map (fun i : Nat => lower + dx * (i : K))

/-- L23-96 `simpson`; the assertions L80-83 are errors. -/
def simpson (f : K → K) (lower upper : K) (numPoints : Nat) : Except String K :=
  if ¬ (numPoints ≥ 3) then .error "num_points >= 3"
  else if ¬ (numPoints % 2 = 1) then .error "num_points % 2 == 1"
  else
    let dx := (upper - lower) / ((numPoints : K) - 1)
    .ok ((List.zipWith (· * ·) ((simpsonGrid lower upper numPoints).map f) (simpsonWeights numPoints)).sum * dx / 3)

end Model
