import Verif.Model.HjmOptions
import Verif.Model.LinearInterpolation
import Verif.Model.Lsm
import Verif.Model.NdArray
import Verif.Model.Parabolic

/-!
# Model of Bermudan swaptions in `tf_quant_finance/models/hull_white/swaption.py`

`bermudan_swaption_price` L314-723, `_prepare_indices_ijj` L863-873, `_map_payoff_to_sim_times` L876-934 and `_bermudan_swaption_fd` L987-1141.
Batches of any shape; one entry of the batch is priced at a time.  Coupons and daycount fractions are given in the shape they are broadcast to.
The sampler of discount curves is `CurvePaths`; the bond prices of the model on the grid of short rates and the steps of the finite difference
scheme are arguments.
-/

namespace Model

/-- `tf.unique`: the values in the order of their first occurrence. -/
def tfUnique {A : Type} [DecidableEq A] (l : List A) : List A := l.reverse.dedup.reverse

/-- `tf.reshape(x, [-1])`. -/
def flatValues {A : Type} (shape : List Nat) (f : List Nat → A) : List A := (List.range shape.prod).map (fun (k : Nat) => f (unflatIndex shape k))

/-- `tf.tile` of a vector. -/
def tileList {A : Type} (l : List A) (k : Nat) : List A := (List.replicate k l).flatten

/-- `tf.repeat` of a vector. -/
def repeatList {A : Type} (l : List A) (k : Nat) : List A := l.flatMap (fun (a : A) => List.replicate k a)

/-- `index_list`, L905-917. -/
def sparseIndexLists (shape last : List Nat) : List (List Nat) :=
  (List.range (shape.length - 1)).map (fun (d : Nat) =>
    tileList (repeatList (List.range (shape.getD d 0)) (shape.drop (d + 1)).prod) (shape.take d).prod) ++ [last]

/-- `tf.stack(index_list, axis=-1)`, L925. -/
def stackLists (n : Nat) (lists : List (List Nat)) : List (List Nat) :=
  (List.range n).map (fun (k : Nat) => lists.map (fun (l : List Nat) => l.getD k 0))

/-- `tf.sparse.to_dense` without validation: the last value for an index counts, zero if there is none. -/
def sparseToDense {K : Type} [Zero K] (indices : List (List Nat)) (values : List K) (shape : List Nat) : NdArray K :=
  ⟨shape, fun idx => (((indices.zip values).reverse.find? (fun (p : List Nat × K) => decide (p.1 = idx))).map Prod.snd).getD 0⟩

/-- `_map_payoff_to_sim_times`, L876-934. -/
def mapPayoffToSimTimes {K : Type} [Zero K] [One K] (indices : NdArray Nat) (payoff : NdArray K) (numSamples : Nat) : NdArray K × NdArray K :=
  let shape := numSamples :: indices.shape
  let repeated := flatValues shape (fun idx => indices.get idx.tail)
  let outputShape := shape.dropLast ++ [repeated.foldl max 0 + 1]
  let sparse := stackLists shape.prod (sparseIndexLists shape repeated)
  (sparseToDense sparse (List.replicate shape.prod 1) outputShape, sparseToDense sparse (flatValues payoff.shape payoff.get) outputShape)

/-- `_prepare_indices_ijj`, L863-873. -/
def prepareIndicesIjj (idx0 idx1 idx2 : List Nat) : List (Nat × Nat × Nat) :=
  let i0 := repeatList idx0 idx1.length
  let i1 := tileList idx1 idx0.length
  let i2 := tileList idx2 idx0.length
  List.zipWith (fun (a : Nat) (p : Nat × Nat) => (a, p)) i0 (List.zip i1 i2)

/-- The arguments of `bermudan_swaption_price`: entries by index, `batch ++ [exercise]` for exercise times, `batch ++ [exercise, payment]` for
payments. -/
structure BermudanBatch (K : Type) where
  batch : List Nat
  numExercise : Nat
  numPayments : Nat
  exerciseTimes : List Nat → K
  paymentTimes : List Nat → K
  daycount : List Nat → K
  coupon : List Nat → K
  notional : List Nat → K

namespace BermudanBatch

section
variable {K : Type}

def exerciseShape (a : BermudanBatch K) : List Nat := a.batch ++ [a.numExercise]
def paymentShape (a : BermudanBatch K) : List Nat := a.batch ++ [a.numExercise, a.numPayments]

/-- `unique_exercise_times`, L572-573. -/
def uniqueTimes [DecidableEq K] (a : BermudanBatch K) : List K := tfUnique (flatValues a.exerciseShape a.exerciseTimes)

/-- `exercise_times` repeated for the payments, L584-586. -/
def repeatedTimes (a : BermudanBatch K) : List Nat → K := fun idx => a.exerciseTimes idx.dropLast

/-- `exercise_time_index`, L572-575. -/
def timeIndex [DecidableEq K] (a : BermudanBatch K) : NdArray Nat := ⟨a.exerciseShape, fun idx => a.uniqueTimes.idxOf (a.exerciseTimes idx)⟩

/-- The swap at an exercise time from the bond prices, L670-678 and L1061-1066. -/
def swapPayoff [Field K] (a : BermudanBatch K) (isPayer : Bool) (bonds : List Nat → K) (idx : List Nat) : K :=
  let fixedLeg := ((List.range a.numPayments).map (fun (p : Nat) => a.coupon (idx ++ [p]) * a.daycount (idx ++ [p]) * bonds (idx ++ [p]))).sum
  let floatLeg := 1 - bonds (idx ++ [a.numPayments - 1])
  let payoff := floatLeg - fixedLeg
  if isPayer then payoff else -payoff

end

/-- `sim_times`, L612-616; `tf.range` starts at `time_step`. -/
noncomputable def simTimes (a : BermudanBatch ℝ) (step : ℝ) : List ℝ :=
  simulationTimes a.uniqueTimes step ⌈(a.uniqueTimes.getLastD 0 - step) / step⌉.toNat

/-- `tau`, L618-620, flattened. -/
def taus (a : BermudanBatch ℝ) : List ℝ := flatValues a.paymentShape (fun idx => a.paymentTimes idx - a.repeatedTimes idx)

/-- `curve_times`, L622-623. -/
noncomputable def curveTimes (a : BermudanBatch ℝ) : List ℝ := a.taus.dedup.mergeSort (fun (x y : ℝ) => decide (x ≤ y))

/-- `payoff_bond_price`, L656-667, for sample `s` and the index of a payment. -/
noncomputable def payoffBond (a : BermudanBatch ℝ) (paths : CurvePaths) (numSamples : Nat) (step : ℝ) (s : Nat) (idx : List Nat) : ℝ :=
  let sims := a.simTimes step
  let simIndex := (flatValues a.paymentShape a.repeatedTimes).map (fun (t : ℝ) => searchLeft sims t)
  let curveIndex := a.taus.map (fun (t : ℝ) => searchLeft a.curveTimes t)
  let bond := fun (i : Nat × Nat × Nat × Nat) => paths.bond i.1 (sims.getD i.2.2.1 0) (sims.getD i.2.2.1 0 + a.curveTimes.getD i.2.1 0)
  let gathered := (prepareIndices (List.range numSamples) curveIndex simIndex [0]).map bond
  gathered.getD (flatIndex (numSamples :: a.paymentShape ++ [1]) (s :: idx ++ [0])) 0

/-- `payoff_swap`, L670-678. `is_payer_swaption` is overwritten in L562. -/
noncomputable def payoffSwap (a : BermudanBatch ℝ) (paths : CurvePaths) (numSamples : Nat) (step : ℝ) : NdArray ℝ :=
  ⟨numSamples :: a.exerciseShape, fun idx => a.swapPayoff true (a.payoffBond paths numSamples step (idx.headD 0)) idx.tail⟩

/-- `_payoff_fn`, L687-706: the payoff of an entry of the batch for a sample and a time index. -/
noncomputable def payoffFn (a : BermudanBatch ℝ) (paths : CurvePaths) (numSamples : Nat) (step : ℝ) (entry : List Nat) (j s : Nat) : ℝ :=
  let mapped := mapPayoffToSimTimes a.timeIndex (a.payoffSwap paths numSamples step) numSamples
  if mapped.1.get (s :: entry ++ [j]) > 0 then max (mapped.2.get (s :: entry ++ [j])) 0 else 0

/-- The arguments of `least_square_mc`, L680-716; `basis` are the basis functions of the short rates at one time. -/
noncomputable def lsmInput (a : BermudanBatch ℝ) (paths : CurvePaths) (numSamples : Nat) (step : ℝ) {b : Nat}
    (basis : (Fin numSamples → ℝ) → Fin b → Fin numSamples → ℝ) (pinv : Matrix (Fin b) (Fin b) ℝ → Matrix (Fin b) (Fin b) ℝ)
    (entry : List Nat) : LsmInput numSamples b :=
  let sims := a.simTimes step
  let simIndex := a.uniqueTimes.map (fun (t : ℝ) => searchLeft sims t)
  { exerciseTimes := List.range a.uniqueTimes.length
    payoffFn := fun j s => a.payoffFn paths numSamples step entry j s.val
    basisFn := fun j => basis (fun s => paths.rate s.val (sims.getD (simIndex.getD j 0) 0))
    discountFactors := simIndex.map (fun (i : Nat) (s : Fin numSamples) =>
      (pathDiscountFactors sims (sims.map (paths.rate s.val))).getD i 0)
    numCalibration := none
    numPathTimes := a.uniqueTimes.length
    pinv := pinv }

/-- `bermudan_swaption_price` by simulation, for an entry of the batch. -/
noncomputable def priceMc (a : BermudanBatch ℝ) (paths : CurvePaths) (numSamples : Nat) (step : ℝ) {b : Nat}
    (basis : (Fin numSamples → ℝ) → Fin b → Fin numSamples → ℝ) (pinv : Matrix (Fin b) (Fin b) ℝ → Matrix (Fin b) (Fin b) ℝ)
    (entry : List Nat) : ℝ :=
  a.notional entry * (a.lsmInput paths numSamples step basis pinv entry).leastSquareMc

/-! ## Finite differences -/

section
variable {K : Type} [Field K] [LinearOrder K]

/-- `longest_exercise_time`, L994. -/
def longestTime (a : BermudanBatch K) : K := a.uniqueTimes.getLastD 0

/-- The sorted times with the differences to the times before, L994-1011. -/
def sortedTimes [FloorRing K] (a : BermudanBatch K) (step : Option K) : List (K × K) :=
  let delta := step.getD (a.longestTime / 100)
  let times := (a.uniqueTimes ++ tfRange a.longestTime delta).insertionSort (· ≤ ·)
  List.zip times (100 :: List.zipWith (fun (x y : K) => x - y) times.tail times.dropLast)

/-- `pde_time_grid` and `pde_time_grid_dt`, L1012-1015. -/
def pdeTimeGrid [FloorRing K] (a : BermudanBatch K) (step : Option K) (tolerance : K) : List K × List K :=
  let kept := (a.sortedTimes step).filter (fun (p : K × K) => decide (p.2 > tolerance))
  (kept.map Prod.fst, kept.map Prod.snd)

/-- The bond prices at a point `g` of the grid of short rates for the index of a payment, L1017-1059. -/
def fdBond (a : BermudanBatch K) (times rates : List K) (bond : K → K → K → K) (g : Nat) (idx : List Nat) : K :=
  let maturities := (tfUnique (flatValues a.paymentShape a.paymentTimes)).insertionSort (· ≤ ·)
  let timesIndex := (flatValues a.paymentShape a.repeatedTimes).map (fun (t : K) => searchLeft times t)
  let maturitiesIndex := (flatValues a.paymentShape a.paymentTimes).map (fun (t : K) => searchLeft maturities t)
  let value := fun (i : Nat × Nat × Nat) => bond (rates.getD i.1 0) (times.getD i.2.1 0) (maturities.getD i.2.2 0)
  ((prepareIndicesIjj (List.range rates.length) timesIndex maturitiesIndex).map value).getD (flatIndex (rates.length :: a.paymentShape) (g :: idx)) 0

/-- `exercise_times_index`, L1068-1072. -/
def fdTimeIndex (a : BermudanBatch K) (times : List K) : NdArray Nat := ⟨a.exerciseShape, fun idx => searchLeft times (a.exerciseTimes idx)⟩

/-- `payoff_swap`, L1061-1078, for a time index, an entry of the batch and a point of the grid; the number of time indices is given too. -/
def fdPayoff (a : BermudanBatch K) (isPayer : Bool) (times rates : List K) (bond : K → K → K → K) : NdArray K :=
  (mapPayoffToSimTimes (a.fdTimeIndex times) ⟨rates.length :: a.exerciseShape, fun idx =>
    a.swapPayoff isPayer (a.fdBond times rates bond (idx.headD 0)) idx.tail⟩ rates.length).2

/-- `payoff_swap[j]` for an entry of the batch and a point of the grid. -/
def payoffAt (a : BermudanBatch K) (isPayer : Bool) (times rates : List K) (bond : K → K → K → K) (entry : List Nat) (j g : Nat) : K :=
  (a.fdPayoff isPayer times rates bond).get (g :: entry ++ [j])

/-- `_get_index`, L1080-1084. A time after the last point of the grid raises an error in the code. -/
def gridIndex (times : List K) (tolerance t : K) : Int := (pdeGridIndex tolerance times t).getD (-1)

/-- `_lower_boundary_fn`, L1098-1103. -/
def lowerBoundary (a : BermudanBatch K) (isPayer : Bool) (times rates : List K) (bond : K → K → K → K) (tolerance : K) (entry : List Nat) (t : K) : K :=
  let index := gridIndex times tolerance t
  let result := if index > -1 then a.payoffAt isPayer times rates bond entry index.toNat 0 else 0
  if isPayer then 0 else result

/-- `_upper_boundary_fn`, L1105-1110. -/
def upperBoundary (a : BermudanBatch K) (isPayer : Bool) (times rates : List K) (bond : K → K → K → K) (tolerance : K) (entry : List Nat) (t : K) : K :=
  let index := gridIndex times tolerance t
  let result := if index > -1 then a.payoffAt isPayer times rates bond entry index.toNat 0 else 0
  if isPayer then result else 0

/-- `_final_value`, L1112-1113. -/
def finalValue (a : BermudanBatch K) (isPayer : Bool) (times rates : List K) (bond : K → K → K → K) (entry : List Nat) : List K :=
  (List.range rates.length).map (fun (g : Nat) =>
    max (a.payoffAt isPayer times rates bond entry ((a.fdPayoff isPayer times rates bond).shape.getLastD 0 - 1) g) 0)

/-- `_values_transform_fn`, L1115-1119. -/
def valuesTransform (a : BermudanBatch K) (isPayer : Bool) (times rates : List K) (bond : K → K → K → K) (tolerance : K) (entry : List Nat) (t : K)
    (values : List K) : List K :=
  let index := gridIndex times tolerance t
  values.zipIdx.map (fun (p : K × Nat) =>
    max p.1 (if index > -1 then max (a.payoffAt isPayer times rates bond entry index.toNat p.2) 0 else 0))

/-- `_pde_time_step`, L1121-1124; the index `-1` is the last entry. -/
def pdeTimeStep (times dt : List K) (tolerance t : K) : K :=
  let index := gridIndex times tolerance t
  if index > -1 then dt.getD index.toNat 0 else dt.getLastD 0

/-- `_bermudan_swaption_fd`, L987-1141, for an entry of the batch: `rates` is the uniform grid of L997-1004, `forward` the instantaneous forward
rate at zero, `scheme` makes one step of the solver from the boundary values. -/
def priceFd [FloorRing K] (a : BermudanBatch K) (isPayer : Bool) (numGridPoints : Nat) (step : Option K) (tolerance : K) (bond : K → K → K → K)
    (forward : K) (scheme : (K → K) → (K → K) → K → K → Nat → List K → Option (List K)) (maximumSteps : Nat) (entry : List Nat) : Option K :=
  let rates : List K := tfLinspace (-(1 / 5)) (1 / 5) numGridPoints
  let grid := a.pdeTimeGrid step tolerance
  let result := solveBackward a.longestTime 0 (a.finalValue isPayer grid.1 rates bond entry) none 0
    (some (.callable (pdeTimeStep grid.1 grid.2 tolerance) maximumSteps))
    (scheme (a.lowerBoundary isPayer grid.1 rates bond tolerance entry) (a.upperBoundary isPayer grid.1 rates bond tolerance entry))
    (some (a.valuesTransform isPayer grid.1 rates bond tolerance entry))
  result.map (fun (r : List K × K × Nat) => a.notional entry * linearInterpolate forward rates r.1)

/-- What `bermudan_swaption_price` does with finite differences, L562-564 and L594-607. -/
def bermudanFd [FloorRing K] (a : BermudanBatch K) (isPayer : Bool) (numGridPoints : Nat) (step : Option K) (tolerance : K) (bond : K → K → K → K)
    (forward : K) (scheme : (K → K) → (K → K) → K → K → Nat → List K → Option (List K)) (maximumSteps : Nat) (entry : List Nat) : Option K :=
  let _ := isPayer
  let isPayer := true
  a.priceFd isPayer numGridPoints step tolerance bond forward scheme maximumSteps entry

end

end BermudanBatch

end Model
