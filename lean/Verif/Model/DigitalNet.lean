import Mathlib.Algebra.Field.Defs
import Mathlib.Order.Defs.LinearOrder
import Mathlib.Data.Nat.Log

/-!
# Model of `tf_quant_finance/math/qmc/digital_net.py`, `math/qmc/sobol.py`, `math/qmc/utils.py` and
`math/random_ops/sobol/sobol_impl.py`

Non-negative int32/int64 values are natural numbers (no overflow); bit operations are those of `Nat`.  Points are
quotients in a field (no rounding).  `ceil(log2(n))` and `floor(log2(n))` are taken exactly (`Nat.clog 2`, `Nat.log 2`);
the code computes them in floating point.  One coordinate (one row of the generating matrices) at a time where the
code is element-wise in the dimension.
-/

namespace Model

/-- `utils.py` L120-158 `filter_tensor`. -/
def filterTensor (value bitMask bitIndex : Nat) : Nat :=
  if (bitMask >>> bitIndex) &&& 1 = 1 then value else 0

/-- `digital_net.py` L379-407: the loop computing the binary point of index `n`; `columns` are the columns of the
generating matrix of one coordinate. -/
def digitalNetPoint (columns : List Nat) (logNumResults digitalShift n : Nat) : Nat :=
  (List.range logNumResults).foldl (fun p j => p ^^^ filterTensor (columns.getD j 0) n j) digitalShift

/-- `digital_net.py` L422-527 `scramble_generating_matrices`, one entry of the generating matrix of one coordinate. -/
def scrambleEntry (scrambling : List Nat) (numDigits g : Nat) : Nat :=
  (List.range numDigits).foldl
    (fun m s => m ^^^ filterTensor ((scrambling.getD s 0) >>> s) g (numDigits - 1 - s)) 0

/-- `digital_net.py` L422-527 `scramble_generating_matrices`, one coordinate. -/
def scrambleMatrix (scrambling : List Nat) (numDigits : Nat) (columns : List Nat) : List Nat :=
  columns.map (scrambleEntry scrambling numDigits)

section
variable {K : Type} [Field K] [LinearOrder K]

/-- `utils.py` L94-117 `tent_transform`. -/
def tentTransform (x : K) : K := if x < 1 / 2 then 2 * x else 2 * (1 - x)

/-- L409-419: from the binary point to the sample. -/
def toUnit (numDigits p : Nat) (tent : Bool) : K :=
  let x : K := (p : K) / ((1 <<< numDigits : Nat) : K)
  if tent then tentTransform x else x

/-- `digital_net.py` L205-419 `digital_net_sample`: one row per sample, one entry per coordinate.
Without `validate_args`. -/
def digitalNetSample (matrices : List (List Nat)) (numResults numDigits : Nat)
    (sequenceIndices : Option (List Nat)) (scrambling : Option (List (List Nat)))
    (digitalShift : Option (List Nat)) (tent : Bool) : List (List K) :=
  let logNumResults := Nat.clog 2 numResults
  let indices := sequenceIndices.getD (List.range numResults)
  let shift := digitalShift.getD (List.replicate matrices.length 0)
  let matrices := match scrambling with
    | none => matrices
    | some s => List.zipWith (fun s c => scrambleMatrix s numDigits c) s matrices
  indices.map (fun n => List.zipWith
    (fun c sh => toUnit numDigits (digitalNetPoint c logNumResults sh n) tent) matrices shift)

end

/-! ### Sobol generating matrices (`qmc/sobol.py`) -/

/-- `sobol.py` L221-243 `_identity_matrix`. -/
def identityMatrix (numColumns numDigits : Nat) : List Nat :=
  (List.range numColumns).map (fun j => 1 <<< (numDigits - 1 - j))

/-- `sobol.py` L278-288, L315-317: initial matrix of one coordinate: `directions` is the column of the table of
initial direction numbers, padded with zeros. -/
def sobolInitial (directions : List Nat) (logNumResults numDigits : Nat) : List Nat :=
  (List.range logNumResults).map (fun j => (directions.getD j 0) <<< (numDigits - 1 - j))

/-- `sobol.py` L361-386 `loop_body_fn` for one coordinate. -/
def sobolLoopBody (polynomial degree : Nat) (matrix : List Nat) (column : Nat) : List Nat :=
  let columnValue := matrix.getD column 0
  (List.range matrix.length).map (fun i =>
    let m := matrix.getD i 0
    if max degree (column + 1) ≤ i ∧ i ≤ column + degree then
      (if i = column + degree then columnValue >>> degree else m) ^^^
        filterTensor columnValue polynomial (column + degree - i)
    else m)

/-- `sobol.py` L246-395 `_sobol_generating_matrices` for one coordinate. -/
def sobolMatrix (polynomial : Nat) (directions : List Nat) (logNumResults numDigits : Nat) : List Nat :=
  (List.range (logNumResults - 1)).foldl (sobolLoopBody polynomial (Nat.log 2 polynomial))
    (sobolInitial directions logNumResults numDigits)

/-- `sobol.py` L132-218 `sobol_generating_matrices`; `table` is the list of (polynomial, initial direction numbers) of
the coordinates after the first (the content of the data file). -/
def sobolGeneratingMatrices (table : List (Nat × List Nat)) (dim numResults numDigits : Nat) : List (List Nat) :=
  let logNumResults := Nat.clog 2 numResults
  identityMatrix logNumResults numDigits ::
    (table.take (dim - 1)).map (fun q => sobolMatrix q.1 q.2 logNumResults numDigits)

/-- `sobol.py` L32-129 `sobol_sample`. -/
def sobolSample {K : Type} [Field K] [LinearOrder K] (table : List (Nat × List Nat)) (dim numResults : Nat)
    (sequenceIndices : Option (List Nat)) (digitalShift : Option (List Nat))
    (scrambling : Option (List (List Nat))) (tent : Bool) : List (List K) :=
  let numDigits := Nat.clog 2 numResults
  let matrices := sobolGeneratingMatrices table dim numResults numDigits
  let matrices := match scrambling with
    | none => matrices
    | some s => List.zipWith (fun s c => scrambleMatrix s numDigits c) s matrices
  digitalNetSample matrices numResults numDigits sequenceIndices none digitalShift tent

/-! ### `random_ops/sobol/sobol_impl.py` -/

/-- `sobol_impl.py` L190-196: direction number `j` from the previous ones `m` (`m.length = j`). -/
def nextDirection (a deg : Nat) (m : List Nat) : Nat :=
  let j := m.length
  (List.range deg).foldl (fun v i =>
    if (a >>> i) &&& 1 = 1 then v ^^^ ((m.getD (j - deg + i) 0) <<< (deg - i)) else v) (m.getD (j - deg) 0)

/-- `sobol_impl.py` L188-196: the row of 32 direction numbers for polynomial `a`. -/
def directionRow (a : Nat) (initial : List Nat) : List Nat :=
  let deg := Nat.log 2 a
  (List.range (32 - deg)).foldl (fun m _ => m ++ [nextDirection a deg m]) (initial.take deg)

/-- `sobol_impl.py` L171-197 `_compute_direction_numbers`. -/
def computeDirectionNumbers (table : List (Nat × List Nat)) (dim : Nat) : List (List Nat) :=
  List.replicate 32 1 :: (table.take (dim - 1)).map (fun q => directionRow q.1 q.2)

/-- `sobol_impl.py` L128-157 for one coordinate: the xor of the shifted direction numbers selected by the bits of
`n`. -/
def sobolIndexPoint (directions : List Nat) (numDigits n : Nat) : Nat :=
  let product := fun j => (directions.getD j 0) <<< (numDigits - 1 - j) * (1 &&& (n >>> j))
  ((List.range numDigits).drop 1).foldl (fun r j => r ^^^ product j) (product 0)

/-- `sobol_impl.py` L39-167 `sample` (without `validate_args`). -/
def sobolImplSample {K : Type} [Field K] (table : List (Nat × List Nat)) (dim numResults skip : Nat) :
    List (List K) :=
  let directions := computeDirectionNumbers table dim
  let maxIndex := skip + numResults + 1
  let numDigits := Nat.clog 2 maxIndex
  (List.range numResults).map (fun i =>
    directions.map (fun d => ((sobolIndexPoint d numDigits (skip + 1 + i) : Nat) : K) / ((1 <<< numDigits : Nat) : K)))

end Model
