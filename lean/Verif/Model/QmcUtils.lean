import Verif.Model.DigitalNet
import Mathlib.Analysis.SpecialFunctions.Log.Basic
import Mathlib.Data.Int.Bitwise

/-!
# Model of `tf_quant_finance/math/qmc/utils.py`

One element of a tensor at a time. Shifts by a number outside `[0, width)` are left to the implementation by TensorFlow; they are modelled by the shift of integers without
bounds, cut to the width, and no theorem is about them. `filter_tensor` and `tent_transform` are in `Verif.Model.DigitalNet`. Logarithms are exact.
-/

namespace Model

/-- The largest number of an integer type of `8 * size` bits. -/
def intTypeMax (size : Nat) (unsigned : Bool) : Int := if unsigned then 2 ^ (8 * size) - 1 else 2 ^ (8 * size - 1) - 1

/-- `exp2`, L44-54. -/
def exp2Int (size : Nat) (unsigned : Bool) (value : Int) : Int :=
  let maxAllowed : Int := 8 * size
  let maxAllowed := if unsigned then maxAllowed else maxAllowed - 1
  if maxAllowed ≤ value then intTypeMax size unsigned else (((1 : Nat) <<< value.toNat : Nat) : Int) % 2 ^ (8 * size)

/-- `log2`, L77. -/
noncomputable def log2Real (value : ℝ) : ℝ := Real.log value / Real.log 2

/-- `filter_tensor`, L153-158, for signed masks; the right shift of TensorFlow keeps the sign. -/
def filterTensorInt (value bitMask : Int) (bitIndex : Nat) : Int := if (bitMask >>> bitIndex).land 1 = 1 then value else 0

/-- `tf.cast(num_results, tf.float32)` of a number: the nearest number with 24 binary digits, even in a tie. -/
def castFloat32 (n : Nat) : Nat :=
  let e := Nat.log 2 n - 23
  let q := n / 2 ^ e
  let r := n % 2 ^ e
  if 2 ^ e < 2 * r ∨ (2 ^ e = 2 * r ∧ q % 2 = 1) then (q + 1) * 2 ^ e else q * 2 ^ e

/-- The number of digits in `sobol.py` L100-102 and L191-193 and in `digital_net.py` L296-298. -/
noncomputable def numDigitsOf (n : Nat) : Int := ⌈log2Real ((castFloat32 n : Nat) : ℝ)⌉

end Model
