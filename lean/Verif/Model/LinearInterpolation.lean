import Verif.Model.SearchSorted
import Mathlib.Algebra.Field.Defs
import Mathlib.Algebra.BigOperators.Group.List.Defs

/-!
# Model of `tf_quant_finance/math/interpolation/linear/linear_interpolation.py`

One batch row, one query point; numbers in an ordered field (no rounding).  `divide_no_nan` is the division of a Lean
field (`a / 0 = 0`).
-/

namespace Model

variable {K : Type} [Field K] [LinearOrder K]

/-- L172-177 `get_slice` with gather. -/
def getSlice (l : List K) (i : Nat) : K := l.getD i 0

/-- `tf.one_hot(i, n)`. -/
def oneHot (i n : Nat) : List K := (List.range n).map (fun j => if j = i then 1 else 0)

/-- L172-177 `get_slice` with `optimize_for_tpu`: the sum of the products with the one-hot encoding. -/
def getSliceTpu (l : List K) (i : Nat) : K := (List.zipWith (· * ·) l (oneHot i l.length)).sum

/-- L28-196 `interpolate`; slopes default to 0 (L115-124). -/
def linearInterpolate (x : K) (xData yData : List K) (leftSlope : K := 0) (rightSlope : K := 0)
    (optimizeForTpu : Bool := false) : K :=
  let slice := if optimizeForTpu then getSliceTpu else getSlice
  let upper := searchLeft xData x
  let size := xData.length
  let atMin := upper = 0
  let atMax := upper = size
  let valuesMin := yData.headD 0 + leftSlope * (x - xData.headD 0)
  let valuesMax := yData.getLastD 0 + rightSlope * (x - xData.getLastD 0)
  let lowerEnc := max ((upper : Int) - 1) 0
  let upperEnc := min (upper : Int) ((size : Int) - 1)
  let xl := slice xData lowerEnc.toNat
  let xu := slice xData upperEnc.toNat
  let yl := slice yData lowerEnc.toNat
  let yu := slice yData upperEnc.toNat
  let xDiff := xu - xl
  let floorXDiff := if atMin ∨ atMax then xDiff + 1 else xDiff
  let interpolated := yl + (x - xl) * ((yu - yl) / floorXDiff)
  let interpolated := if atMin then valuesMin else interpolated
  if atMax then valuesMax else interpolated

end Model
