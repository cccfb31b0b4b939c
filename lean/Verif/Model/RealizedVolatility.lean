import Mathlib.Analysis.SpecialFunctions.Log.Basic
import Mathlib.Analysis.SpecialFunctions.Sqrt
import Verif.Model.Segments

/-!
# Model of `tf_quant_finance/models/realized_volatility.py`

Real numbers, one path (a list along `axis`).
-/

namespace Model

/-- L23-31 `PathScale`. -/
inductive PathScale
  | original
  | log
deriving DecidableEq

/-- L34-42 `ReturnsType`. -/
inductive ReturnsType
  | abs
  | log
deriving DecidableEq

/-- L166-179 `transformed_paths`. -/
noncomputable def transformedPath (returns : ReturnsType) (scale : PathScale) (path : List ℝ) : List ℝ :=
  match returns, scale with
  | .log, .original => path.map Real.log
  | .log, .log => path
  | .abs, .original => path
  | .abs, .log => path.map Real.exp

/-- L167, L174 `component_transform`. -/
noncomputable def componentTransform (returns : ReturnsType) (x : ℝ) : ℝ :=
  match returns with
  | .log => x ^ 2
  | .abs => |x|

/-- L183-186: the time steps. -/
noncomputable def timeSteps (times : Option (List ℝ)) (n : Nat) : List ℝ :=
  match times with
  | none => List.replicate n 1
  | some t => diff t 1 true

/-- L45-198 `realized_volatility`.  Without `times` the denominators are ones. -/
noncomputable def realizedVolatility (path : List ℝ) (times : Option (List ℝ)) (scaling : Option ℝ) (returns : ReturnsType)
    (scale : PathScale) : ℝ :=
  let transformed := transformedPath returns scale path
  let diffs := (diff transformed 1 true).map (componentTransform returns)
  let denominators := timeSteps times diffs.length
  let denominators := match returns with
    | .abs => List.zipWith (· * ·) denominators ((transformed.take (transformed.length - 1)).map (componentTransform returns))
    | .log => denominators
  let total := (List.zipWith (· / ·) diffs denominators).sum
  let statistics := match returns with
    | .log => Real.sqrt total
    | .abs => total
  match scaling with
  | none => statistics
  | some c => c * statistics

end Model
