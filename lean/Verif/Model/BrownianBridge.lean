import Mathlib.Algebra.BigOperators.Intervals
import Mathlib.Analysis.SpecialFunctions.Exp
import Mathlib.Data.Int.Interval

/-!
# Model of `tf_quant_finance/black_scholes/brownian_bridge.py`

Real numbers, one element of the tensors.
-/

namespace Model

/-- L32-124 `brownian_bridge_double`; `n_cutoff` is a natural number. -/
noncomputable def brownianBridgeDouble (xStart xEnd variance upper lower : ℝ) (nCutoff : Nat := 3) : ℝ :=
  let diff := upper - lower
  ∑ k ∈ Finset.Icc (-(nCutoff : ℤ)) nCutoff,
    let a := k * diff * (k * diff + (xEnd - xStart))
    let b := (k * diff + xStart - upper) * (k * diff + (xEnd - upper))
    (Real.exp (-2 * a / variance) - Real.exp (-2 * b / variance))

/-- L127-196 `brownian_bridge_single`. -/
noncomputable def brownianBridgeSingle (xStart xEnd variance barrier : ℝ) : ℝ :=
  let a := (xStart - barrier) * (xEnd - barrier)
  1 - Real.exp (-2 * a / variance)

end Model
