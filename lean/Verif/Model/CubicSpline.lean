import Verif.Model.LinearInterpolation

/-!
# Model of `tf_quant_finance/math/interpolation/cubic/cubic_interpolation.py`

One spline and one query point per call (the code works on batches); exact numbers, so divisions by zero, which the code selects
away with `tf.where`, are harmless. `none` is an exception. `tf.linalg.tridiagonal_solve(.., partial_pivoting=False)` belongs to
TensorFlow: it is modelled by the algorithm of Thomas, which fails if a pivot is zero.
-/

namespace Model

variable {K : Type} [Field K] [LinearOrder K]

/-- One row of a tridiagonal system: superdiagonal, diagonal, subdiagonal, right hand side. -/
abbrev TriRow (K : Type) := K × K × K × K

/-- Elimination and back substitution. `u` and `v` are the modified superdiagonal and right hand side of the row above. -/
def thomas (u v : K) : List (TriRow K) → Option (List K)
  | [] => some []
  | (sup, diag, sub, rhs) :: rows =>
    let denom := diag - sub * u
    if denom = 0 then none
    else
      let u' := sup / denom
      let v' := (rhs - sub * v) / denom
      (thomas u' v' rows).map (fun z => (v' - u' * z.headD 0) :: z)

/-- `tf.linalg.tridiagonal_solve`, format `compact`, without pivoting. The first entry of the subdiagonal and the last one of the
superdiagonal are ignored. -/
def tridiagonalSolve (sup diag sub rhs : List K) : Option (List K) :=
  thomas 0 0 (List.zip sup (List.zip diag (List.zip sub rhs)))

/-- `BoundaryConditionType`, L31-44. -/
inductive BoundaryConditionType
  | natural
  | clamped
  | fixedFirstDerivative
  deriving DecidableEq

/-- `tf.where` on rows of the same length. -/
def selectWhere (c : List Bool) (a b : List K) : List K :=
  List.zipWith (fun c ab => if c = true then ab.1 else ab.2) c (List.zip a b)

/-- `_calculate_spline_coeffs_natural`, L283-305. -/
def splineNatural (dx superdiag subdiag diagValues rhs : List K) : Option (List K) :=
  let corrTerm := List.zipWith (fun s b => decide (s = 0) || decide (b = 0)) superdiag subdiag
  let diagCorr := selectWhere corrTerm (diagValues.map (fun _ => 1)) diagValues
  let superdiagCorr := selectWhere (subdiag.map (fun b => decide (b = 0))) (superdiag.map (fun _ => 0)) superdiag
  let subdiagCorr := selectWhere (superdiag.map (fun s => decide (s = 0))) (subdiag.map (fun _ => 0)) subdiag
  let rhs := selectWhere corrTerm (rhs.map (fun _ => 0)) rhs
  let zero := (dx.take 1).map (fun _ => (0 : K))
  (tridiagonalSolve superdiagCorr diagCorr subdiagCorr rhs).map (fun c => zero ++ c ++ zero)

/-- `_calculate_spline_coeffs_clamped_or_first_derivative`, L308-362. The boundary values are zero if clamped (L344-345). -/
def splineFirstDerivative (dx dd superdiag subdiag diagValues rhs : List K) (left right : K) : Option (List K) :=
  let zero := (dx.take 1).map (fun _ => (0 : K))
  let one := (dx.take 1).map (fun _ => (1 : K))
  let diagValues := (dx.take 1).map (fun d => 2 * d) ++ diagValues ++ zero
  let superdiag := dx.take 1 ++ superdiag ++ zero
  let subdiag := zero ++ subdiag ++ dx.drop (dx.length - 1)
  let dx := one ++ dx ++ zero
  let dxRight := dx.drop 1
  let dxLeft := dx.dropLast
  let rightBoundary := List.zipWith (fun r l => decide (r = 0) && decide (l ≠ 0)) dxRight dxLeft
  let diagValues := selectWhere rightBoundary (dxLeft.map (fun l => 2 * l)) diagValues
  let diagValues := selectWhere (dxLeft.map (fun l => decide (l = 0))) (diagValues.map (fun _ => 1)) diagValues
  let topRhs := (dd.take 1).map (fun d => 3 * (d - left))
  let rhs := topRhs ++ rhs ++ zero
  let ddLeft := one ++ dd
  let bottomRhs := ddLeft.map (fun d => -3 * (d - right))
  let rhs := selectWhere rightBoundary bottomRhs rhs
  let rhs := selectWhere (ddLeft.map (fun d => decide (d = 0))) (rhs.map (fun _ => 0)) rhs
  tridiagonalSolve superdiag diagValues subdiag rhs

/-- `_calculate_spline_coeffs`, L494-529. -/
def splineCoeffs (bc : BoundaryConditionType) (left right : K) (xData yData : List K) : Option (List K) :=
  let dx := List.zipWith (fun a b => a - b) (xData.drop 1) xData.dropLast
  let dd := List.zipWith (fun d x => if x = 0 then 0 else d / x)
    (List.zipWith (fun a b => a - b) (yData.drop 1) yData.dropLast) dx
  let rhs := List.zipWith (fun a b => -3 * (a - b)) dd.dropLast (dd.drop 1)
  let diagValues := List.zipWith (fun a b => 2 * (a - b)) (xData.drop 2) (xData.take (xData.length - 2))
  let superdiag := dx.drop 1
  let subdiag := dx.dropLast
  match bc with
  | .natural => splineNatural dx superdiag subdiag diagValues rhs
  | .clamped => splineFirstDerivative dx dd superdiag subdiag diagValues rhs 0 0
  | .fixedFirstDerivative => splineFirstDerivative dx dd superdiag subdiag diagValues rhs left right

/-- `build`, L142-170: the coefficients, the data being kept as they are. Without `validate_args`. -/
def splineBuild (xData yData : List K) (bc : Option BoundaryConditionType) (left right : Option K) : Option (List K) :=
  match bc.getD .natural, left, right with
  | .fixedFirstDerivative, some l, some r => splineCoeffs .fixedFirstDerivative l r xData yData
  | .fixedFirstDerivative, _, _ => none
  | b, _, _ => splineCoeffs b 0 0 xData yData

/-- `interpolate`, L217-280. -/
def cubicInterpolate (x : K) (xData yData coeffs : List K) (optimizeForTpu : Bool := false) : K :=
  let slice := if optimizeForTpu then getSliceTpu else getSlice
  let indices := (searchRight xData x : Int) - 1
  let lower := (max indices 0).toNat
  let upper := (min (indices + 1) ((xData.length : Int) - 1)).toNat
  let x0 := slice xData lower
  let x1 := slice xData upper
  let dx := x1 - x0
  let y0 := slice yData lower
  let y1 := slice yData upper
  let dy := y1 - y0
  let c0 := slice coeffs lower
  let c1 := slice coeffs upper
  let t := if dx > 0 then (x - x0) / dx else 0
  let df := (t + 1) * c1 * 2 - (t - 2) * c0 * 2
  let df1 := df * t * (t - 1) / 6
  let result := y0 + t * dy + dx * dx * df1
  let upperBound := xData.foldl max (xData.headD 0)
  let lowerBound := xData.foldl min (xData.headD 0)
  if x ≤ upperBound ∧ x ≥ lowerBound then result else if x > upperBound then y0 else y1

end Model
