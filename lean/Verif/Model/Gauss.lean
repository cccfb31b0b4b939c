import Verif.Model.GaussConstants
import Mathlib.Algebra.Order.Field.Basic

/-!
# Model of `tf_quant_finance/math/integration`: `gauss_legendre.py`, `gauss_kronrod.py`, `adaptive_update.py`

Exact numbers, one integral per call. The tables are the decimals of the file. `none` is the `ValueError` for unsupported numbers of points.
-/

namespace Model

variable {K : Type} [Field K]

/-- Table entries as numbers. -/
def tableValues (l : List Int) : List K := l.map (fun (i : Int) => (i : K) / 10 ^ 25)

/-- `grid` and the weighted sum, `gauss_legendre.py` L71-73, `gauss_kronrod.py` L88-94. -/
def quadrature (func : K → K) (lower upper : K) (roots weights : List K) : K :=
  (List.zipWith (fun r w => func (((upper - lower) * r + upper + lower) / 2) * (upper - lower) * w / 2) roots weights).sum

/-- `gauss_legendre` L60-74. -/
def gaussLegendre (func : K → K) (lower upper : K) (numPoints : Nat) : Option K :=
  (legendreRoots numPoints).bind fun roots => (legendreWeights numPoints).map fun weights =>
    quadrature func lower upper (tableValues roots) (tableValues weights)

/-- `_non_adaptive_gauss_kronrod`, `gauss_kronrod.py` L66-96: the result, and the result of the embedded Gauss-Legendre rule of
`gauss_kronrod` L177-187, which uses the first values of the function. -/
def kronrodPair (func : K → K) (numPoints : Nat) : Option (K → K → K × K) :=
  (legendreRoots ((numPoints - 1) / 2)).bind fun lr => (stieltjesRoots numPoints).bind fun sr =>
    (kronrodWeights numPoints).bind fun kw => (legendreWeights ((numPoints - 1) / 2)).map fun lw => fun lower upper =>
      (quadrature func lower upper (tableValues (lr ++ sr)) (tableValues kw),
       quadrature func lower upper (tableValues ((lr ++ sr).take ((numPoints - 1) / 2))) (tableValues lw))

variable [LinearOrder K]

/-- `relative_error > tolerance`, `adaptive_update.py` L66-67. Division by zero gives infinity, or not a number for zero by zero. The
estimate is not replaced by its absolute value. -/
def isBad (pair : K → K → K × K) (tolerance : K) (i : K × K) : Bool :=
  let estimate := (pair i.1 i.2).1
  let error := |(pair i.1 i.2).1 - (pair i.1 i.2).2|
  if estimate = 0 then decide (0 < error) else decide (tolerance < error / estimate)

/-- `adaptive_update.update` L61-99 for one integral: `top_k` selects exactly the bad intervals (in some order, here the given one). -/
def adaptiveUpdate (pair : K → K → K × K) (tolerance : K) (intervals : List (K × K)) : List (K × K) × K :=
  let bad := intervals.filter (isBad pair tolerance)
  let sumAll := (intervals.map (fun i => (pair i.1 i.2).1)).sum
  let sumBad := (bad.map (fun i => (pair i.1 i.2).1)).sum
  (bad.map (fun i => (i.1, (i.1 + i.2) / 2)) ++ bad.map (fun i => ((i.1 + i.2) / 2, i.2)), sumAll - sumBad)

/-- The while loop of `gauss_kronrod` L167-214: the sum of accepted estimates and the intervals that are left. -/
def adaptiveLoop (pair : K → K → K × K) (tolerance : K) : Nat → List (K × K) → K → List (K × K) × K
  | 0, intervals, sum => (intervals, sum)
  | depth + 1, intervals, sum =>
    if intervals.isEmpty then (intervals, sum)
    else
      let y := adaptiveUpdate pair tolerance intervals
      adaptiveLoop pair tolerance depth y.1 (sum + y.2)

/-- `gauss_kronrod` L160-214. -/
def gaussKronrod (func : K → K) (lower upper tolerance : K) (numPoints maxDepth : Nat) : Option K :=
  (kronrodPair func numPoints).map fun pair => (adaptiveLoop pair tolerance maxDepth [(lower, upper)] 0).2

end Model
