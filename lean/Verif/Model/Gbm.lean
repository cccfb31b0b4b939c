import Verif.Model.Piecewise
import Verif.Model.PathDiscount
import Mathlib.Analysis.SpecialFunctions.Exp
import Mathlib.Analysis.SpecialFunctions.Pow.Real
import Mathlib.Data.Matrix.Mul
import Mathlib.Algebra.BigOperators.Fin

/-!
# Model of `tf_quant_finance/models/geometric_brownian_motion`

`univariate_geometric_brownian_motion.py` for one batch element and one path, `multivariate_geometric_brownian_motion.py` for one path. The normal
draws are parameters. `fd_solver_backward` and `fd_solver_forward` are not modelled: they refer to attributes `_drift_fn` and `_volatility_fn` that the
classes do not have.
-/

namespace Model
open scoped BigOperators

/-- A parameter that is a number or a `PiecewiseConstantFunc`, `piecewise.convert_to_tensor_or_func`. -/
inductive TimeParam where
  | constant (c : ℝ)
  | piecewise (jumps values : List ℝ)

namespace TimeParam

/-- The value at a time: left continuous. -/
noncomputable def eval : TimeParam → ℝ → ℝ
  | constant c, _ => c
  | piecewise jumps values, t => piecewiseConstant jumps values true t

/-- `_integrate_parameter`, L240-259. -/
noncomputable def integrate : TimeParam → ℝ → ℝ → ℝ
  | constant c, t0, t1 => c * (t1 - t0)
  | piecewise jumps values, t0, t1 => piecewiseIntegrate jumps values t0 t1

/-- `_volatility_squared_from_volatility`, L315-337. -/
noncomputable def squared : TimeParam → TimeParam
  | constant c => constant (c ^ 2)
  | piecewise jumps values => piecewise jumps (values.map (fun v => v ^ 2))

end TimeParam

/-- `drift_fn`, L127-138. -/
noncomputable def gbmDrift (mean : TimeParam) (t x : ℝ) : ℝ := mean.eval t * x

/-- `volatility_fn`, L140-153. -/
noncomputable def gbmVolatility (volatility : TimeParam) (t x : ℝ) : ℝ := volatility.eval t * x

/-- The logarithm of an increment, L302-305. -/
noncomputable def gbmLogIncrement (mean volatility : TimeParam) (t0 t1 z : ℝ) : ℝ :=
  let meanIntegral := mean.integrate t0 t1
  let volatilitySqIntegral := volatility.squared.integrate t0 t1
  (meanIntegral - volatilitySqIntegral / 2) + Real.sqrt volatilitySqIntegral * z

/-- `_sample_paths`, L261-313. -/
noncomputable def gbmPath (mean volatility : TimeParam) (x0 : ℝ) (times draws : List ℝ) : List ℝ :=
  let times := 0 :: times
  let logIncrements := List.zipWith (fun (p : ℝ × ℝ) z => gbmLogIncrement mean volatility p.1 p.2 z) (times.dropLast.zip times.tail) draws
  (cumsumUsingMatvec logIncrements).map (fun c => x0 * Real.exp c)

/-- `volatility_fn` of the multivariate process, L138-151. -/
noncomputable def multiGbmVolatility {d : Nat} (vols : Fin d → ℝ) (cholesky : Option (Matrix (Fin d) (Fin d) ℝ)) (x : Fin d → ℝ) :
    Matrix (Fin d) (Fin d) ℝ :=
  match cholesky with
  | some L => Matrix.of fun k m => vols k * x k * L k m
  | none => Matrix.of fun k m => if k = m then vols k * x k else 0

/-- `stochastic_increment`, L261-265. -/
noncomputable def stochasticIncrement {d : Nat} (cholesky : Option (Matrix (Fin d) (Fin d) ℝ)) (z : Fin d → ℝ) : Fin d → ℝ :=
  match cholesky with
  | some L => L.mulVec z
  | none => z

/-- `_sample_paths` of the multivariate process, L229-282, component `k`. -/
noncomputable def multiGbmPath {d : Nat} (means vols : Fin d → ℝ) (cholesky : Option (Matrix (Fin d) (Fin d) ℝ)) (x0 : Fin d → ℝ) (times : List ℝ)
    (draws : List (Fin d → ℝ)) (k : Fin d) : List ℝ :=
  let times := 0 :: times
  let dt := List.zipWith (fun a b => a - b) times.tail times.dropLast
  let logIncrements := List.zipWith (fun dt z => (means k - vols k ^ 2 / 2) * dt + Real.sqrt dt * vols k * stochasticIncrement cholesky z k) dt draws
  (cumsumUsingMatvec logIncrements).map (fun c => x0 k * Real.exp c)

end Model
