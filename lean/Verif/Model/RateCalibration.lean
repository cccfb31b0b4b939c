import Verif.Model.SabrCalibration
import Mathlib.LinearAlgebra.Matrix.Notation
import Mathlib.Data.Matrix.Mul
import Mathlib.Analysis.SpecialFunctions.Trigonometric.Basic

/-!
# Model of `tf_quant_finance/models/hull_white/calibration.py` and `models/hjm/calibration.py`

Over the reals. As in `Model/SabrCalibration.lean` the optimizer is an arbitrary function of the loss function and the initial position, and
infinite positions are `none`. The values of the instruments in the model (prices, or implied normal volatilities of the prices) are an
arbitrary function of the parameters; `none` is not a number. `_scale` and `_to_unconstrained` are those of the SABR calibration. A loss that
is not a number is `none`.
-/

namespace Model

/-- A left-continuous piecewise constant parameter; constants have no jumps. -/
structure RatePiecewise where
  jumps : List ℝ
  values : List ℝ

/-- The check of the constructor `PiecewiseConstantFunc(jump_locations, values)`. -/
def makePiecewise (jumps values : List ℝ) : Except String RatePiecewise :=
  if values.length = jumps.length + 1 then .ok { jumps := jumps, values := values }
  else .error "piecewise constant function needs one value more than jumps"

/-- The arguments of both functions of `hull_white/calibration.py`: L56-88 and L457-485. -/
structure HwCalibrationArgs where
  targets : List ℝ
  notional : Option ℝ
  meanReversion : RatePiecewise
  volatility : RatePiecewise
  mrLower : ℝ := 0.001
  mrUpper : ℝ := 0.5
  volLower : ℝ := 0.00001
  volUpper : ℝ := 0.1

/-- L375-376, L734-735. -/
noncomputable def targetUpper (targets : List ℝ) : ℝ :=
  match targets with
  | [] => 0
  | t :: ts => ts.foldl max t

/-- L430-431 and L778-779: the sum (swaptions) or mean (caps) of the squared differences of the scaled values, where a value of the model
that is not a number is replaced by `replacement` (L426-428). If the largest target is zero, its scaled value is `0 / 0`. -/
noncomputable def calibrationLoss (useMean : Bool) (replacement : ℝ) (targets : List ℝ) (values : List (Option ℝ)) : Option ℝ :=
  let ub := targetUpper targets
  if ub = 0 then none else
    let terms := List.zipWith (fun v t => (sabrScale (v.getD replacement) 0 ub - sabrScale t 0 ub) ^ 2) values targets
    some (if useMean then terms.sum / terms.length else terms.sum)

/-- L378-380, L742-745. -/
noncomputable def hwInitialGuess (a : HwCalibrationArgs) : List (Option ℝ) :=
  a.meanReversion.values.map (fun v => toUnconstrained ⟨v, a.mrLower, a.mrUpper⟩) ++
    a.volatility.values.map (fun v => toUnconstrained ⟨v, a.volLower, a.volUpper⟩)

/-- L387-394, L438-447: the two parameters of a position. -/
noncomputable def hwUnpack (a : HwCalibrationArgs) (x : List ℝ) : Except String (RatePiecewise × RatePiecewise) := do
  let num := a.meanReversion.values.length
  let mr ← makePiecewise [] ((x.take num).map (fun v => toConstrained v a.mrLower a.mrUpper))
  let vol ← makePiecewise a.volatility.jumps ((x.drop num).map (fun v => toConstrained v a.volLower a.volUpper))
  return (mr, vol)

/-- L323-454 (`useMean = false`) and L709-803 (`useMean = true`). `convert_to_tensor(None)` L339, L720 fails. -/
noncomputable def hwCalibration (useMean : Bool) (values : RatePiecewise → RatePiecewise → List (Option ℝ))
    (optimizer : (List ℝ → Except String (Option ℝ)) → List (Option ℝ) → List ℝ) (a : HwCalibrationArgs) :
    Except String (RatePiecewise × RatePiecewise) := do
  if a.notional.isNone then throw "None values not supported."
  let loss := fun x => do
    let (mr, vol) ← hwUnpack a x
    return calibrationLoss useMean 0 a.targets (values mr vol)
  hwUnpack a (optimizer loss (hwInitialGuess a))

/-- `tf.math.cumprod` of a row. -/
noncomputable def cumprodFrom (acc : ℝ) : List ℝ → List ℝ
  | [] => []
  | x :: xs => (acc * x) :: cumprodFrom (acc * x) xs

/-- One row of L87-94 of `hjm/calibration.py`, before the product with the transpose; `n` is the number of assets. -/
noncomputable def hyperRow (n : Nat) (thetas : List ℝ) : List ℝ :=
  let cosTheta := thetas.map Real.cos ++ [1]
  let sinCumprod := 1 :: cumprodFrom 1 (thetas.map Real.sin)
  (List.zip cosTheta sinCumprod).zipIdx.map (fun e => if e.2 + 1 < n then e.1.1 * e.1.2 else e.1.2)

/-- `_correlation_matrix_using_hypersphere_decomposition` L57-97. The reshape L86 needs `n (n - 1)` angles. -/
noncomputable def hyperCorrelation (n : Nat) (thetas : List ℝ) : Except String (Matrix (Fin n) (Fin n) ℝ) :=
  if thetas.length = n * (n - 1) then
    let b : Matrix (Fin n) (Fin n) ℝ :=
      fun i j => (hyperRow n ((thetas.drop (i * (n - 1))).take (n - 1))).getD j 0
    .ok (b * b.transpose)
  else .error "Cannot reshape thetas"

/-- `_to_constrained` L507-509. -/
noncomputable def hjmToConstrained (x lb ub : ℝ) : ℝ :=
  let x := Real.exp x / (1 + Real.exp x)
  x * (ub - lb) + lb

/-- `_THETA_UB` L100. -/
noncomputable def thetaUpper : ℝ := 2 * Real.pi + 0.01

/-- L511-513: the initial angles. -/
noncomputable def hjmInitialAngles (numFactors : Nat) : List ℝ :=
  let num := numFactors * (numFactors - 1)
  (List.range num).map (fun i : Nat => (0.1 + (i : ℝ)) / (num : ℝ))

/-- L533-537: the correlation matrix in the loss function, from clipped positions. -/
noncomputable def hjmLossCorrelation (numFactors : Nat) (x : List ℝ) : Except String (Matrix (Fin numFactors) (Fin numFactors) ℝ) :=
  let thetas := (x.drop (2 * numFactors)).map (fun t => max (-25) (min t 25))
  hyperCorrelation numFactors (thetas.map (fun t => hjmToConstrained t 0 thetaUpper))

/-- L592-598: the correlation matrix of the result. -/
noncomputable def hjmResultCorrelation (numFactors : Nat) (x : List ℝ) : Except String (Matrix (Fin numFactors) (Fin numFactors) ℝ) :=
  hyperCorrelation numFactors ((x.drop (2 * numFactors)).map (fun t => hjmToConstrained t 0 thetaUpper))

/-- L586-590: mean reversions and volatilities of the result. -/
noncomputable def hjmResult (numFactors : Nat) (mrLower mrUpper volLower volUpper : ℝ) (x : List ℝ) : List ℝ × List ℝ :=
  ((x.take numFactors).map (fun v => hjmToConstrained v mrLower mrUpper),
    ((x.drop numFactors).take numFactors).map (fun v => hjmToConstrained v volLower volUpper))

/-- `tf.concat(…, axis=-1)` on shapes: the ranks and all dimensions but the last must agree. -/
def concatLastShapes (shapes : List (List Nat)) : Option (List Nat) :=
  match shapes with
  | [] => none
  | s :: _ =>
    if shapes.all (fun u => u.length != 0 && u.dropLast == s.dropLast) then
      some (s.dropLast ++ [(shapes.map (fun u => u.getLast?.getD 0)).sum])
    else none

/-- L511-523: the shape of the initial guess for models of shape `batch`, each with `numFactors` factors. -/
def hjmInitialShape (batch : List Nat) (numFactors : Nat) (calibrateCorrelation : Bool) : Option (List Nat) :=
  let parameters := batch ++ [numFactors]
  let corr :=
    if calibrateCorrelation then [numFactors * (numFactors - 1)]
    else if parameters.length > 1 then [parameters.length, 0] else [0]
  concatLastShapes [parameters, parameters, corr]

end Model
