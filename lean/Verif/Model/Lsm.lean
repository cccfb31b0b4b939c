import Mathlib.Data.Real.Basic
import Mathlib.LinearAlgebra.Matrix.DotProduct
import Mathlib.Algebra.BigOperators.Fin

/-!
# The regression Monte Carlo of Longstaff and Schwartz

`models/longstaff_schwartz/lsm.py` and the two earlier versions `experimental/lsm_algorithm/lsm_v2.py` and `experimental/lsm_algorithm/lsm.py`.
One option (batch entry). Sample paths enter only through the payoff and the basis, both as functions of the time index and the sample; discount
factors may depend on the sample. `tf.linalg.pinv` is an argument. Floats are real numbers.
-/

namespace Model
open scoped BigOperators

/-- The arguments of `least_square_mc`, `lsm.py` L128-135, for `n` samples and `b` basis functions. -/
structure LsmInput (n b : Nat) where
  exerciseTimes : List Nat
  /-- `payoff_fn(sample_paths, time_index)` -/
  payoffFn : Nat → Fin n → ℝ
  /-- `basis_fn(sample_paths, time_index)`, shape `[basis_size, num_samples]` -/
  basisFn : Nat → Fin b → Fin n → ℝ
  /-- one factor for each exercise time and sample -/
  discountFactors : List (Fin n → ℝ)
  numCalibration : Option Nat
  /-- `tf.shape(sample_paths)[-2]` -/
  numPathTimes : Nat
  pinv : Matrix (Fin b) (Fin b) ℝ → Matrix (Fin b) (Fin b) ℝ

variable {n b : Nat}

namespace LsmInput

/-- `num_times`, L238. -/
def numTimes (a : LsmInput n b) : Nat := a.exerciseTimes.length

/-- The discount factors after `tf.pad` with a leading one, L252-256. -/
def padded (a : LsmInput n b) (i : Nat) : Fin n → ℝ := ((fun _ => 1) :: a.discountFactors).getD i (fun _ => 0)

/-- The payoff at an exercise index, L258-261 and L408-411. -/
def exerciseValue (a : LsmInput n b) (i : Nat) : Fin n → ℝ := a.payoffFn (a.exerciseTimes.getD i 0)

/-- The basis at an exercise index, L418. -/
def design (a : LsmInput n b) (i : Nat) : Fin b → Fin n → ℝ := a.basisFn (a.exerciseTimes.getD i 0)

/-- The samples used in the regression, L266-269 and L356-363. -/
def calibration (a : LsmInput n b) : Finset (Fin n) :=
  match a.numCalibration with
  | none => Finset.univ
  | some m => Finset.univ.filter (fun s => s.val < m)

/-- The samples used for the price, L292-294. -/
def pricing (a : LsmInput n b) : Finset (Fin n) :=
  match a.numCalibration with
  | none => Finset.univ
  | some m => Finset.univ.filter (fun s => m ≤ s.val)

/-- `_apply_discount`, L304-325. -/
noncomputable def applyDiscount (a : LsmInput n b) (values : Fin n → ℝ) (i : Nat) : Fin n → ℝ :=
  fun s => a.padded (i + 1) s / a.padded i s * values s

open Classical in
/-- `_expected_exercise_fn`, L328-383. -/
noncomputable def expectedExercise (a : LsmInput n b) (design : Fin b → Fin n → ℝ) (continuation exercise : Fin n → ℝ) : Fin n → ℝ :=
  let masked : Fin n → Fin b → ℝ := fun s k => if exercise s > 0 then design k s else 0
  let lhs : Matrix (Fin b) (Fin b) ℝ := fun k l => ∑ s ∈ a.calibration, masked s k * masked s l
  let rhs : Fin b → ℝ := fun k => ∑ s ∈ a.calibration, masked s k * continuation s
  let beta : Fin b → ℝ := fun k => ∑ l, a.pinv lhs k l * rhs l
  fun s => max (∑ k, design k s * beta k) 0

/-- `LsmLoopVars`, L31-47. -/
structure Vars (n : Nat) where
  exerciseIndex : Nat
  cashflow : Fin n → ℝ
  values : Fin n → ℝ

open Classical in
/-- `_lsm_loop_body` with `_updated_cashflows_and_values`, L386-436. -/
noncomputable def loopBody (a : LsmInput n b) (v : Vars n) : Vars n :=
  let exercise := a.exerciseValue (v.exerciseIndex - 1)
  let continuation := a.applyDiscount (fun s => v.values s + v.cashflow s) v.exerciseIndex
  let expected := a.expectedExercise (a.design (v.exerciseIndex - 1)) continuation exercise
  let updatedValues : Fin n → ℝ := fun s => if exercise s > expected s then 0 else v.cashflow s + v.values s
  let updatedCashflow : Fin n → ℝ := fun s => if exercise s > expected s then exercise s else 0
  ⟨v.exerciseIndex - 1, updatedCashflow, a.applyDiscount updatedValues v.exerciseIndex⟩

/-- The `tf.while_loop`, L287-289, with its maximal number of iterations. -/
noncomputable def loop (a : LsmInput n b) : Nat → Vars n → Vars n
  | 0, v => v
  | fuel + 1, v => if v.exerciseIndex > 0 then loop a fuel (a.loopBody v) else v

/-- `least_square_mc`, L257-295. -/
noncomputable def leastSquareMc (a : LsmInput n b) : ℝ :=
  let v := a.loop a.numPathTimes ⟨a.numTimes - 1, a.exerciseValue (a.numTimes - 1), fun _ => 0⟩
  let present := a.applyDiscount (fun s => v.cashflow s + v.values s) 0
  (∑ s ∈ a.pricing, present s) / (a.pricing.card : ℝ)

/-! ## `lsm_v2.py`: all cashflows are kept -/

/-- `_continuation_value_fn`, `lsm_v2.py` L296-328; `cash s j` is the cashflow of sample `s` at exercise index `j`. -/
noncomputable def continuationV2 (a : LsmInput n b) (cash : Fin n → Nat → ℝ) (i : Nat) : Fin n → ℝ := fun s =>
  ∑ j ∈ Finset.range a.numTimes, (if j ≥ i then cash s j else 0) * ((if j + 1 ≥ i + 1 then a.padded (j + 1) s else 0) / a.padded i s)

open Classical in
/-- `_updated_cashflow`, `lsm_v2.py` L389-407. -/
noncomputable def updatedCashflowV2 (exerciseIndex : Nat) (exercise expected : Fin n → ℝ) (cash : Fin n → Nat → ℝ) : Fin n → Nat → ℝ := fun s j =>
  if j ≥ exerciseIndex then (if exercise s > expected s then 0 else cash s j) else (if exercise s > expected s then exercise s else 0)

/-- The loop of `lsm_v2.py`, L279-281 and L410-436: fuel, exercise index, cashflows. -/
noncomputable def loopV2 (a : LsmInput n b) : Nat → Nat → (Fin n → Nat → ℝ) → (Fin n → Nat → ℝ)
  | 0, _, cash => cash
  | fuel + 1, e, cash =>
    if e > 0 then
      let exercise := a.exerciseValue (e - 1)
      let expected := a.expectedExercise (a.design (e - 1)) (a.continuationV2 cash e) exercise
      loopV2 a fuel (e - 1) (updatedCashflowV2 e exercise expected cash)
    else cash

/-- `least_square_mc`, `lsm_v2.py` L250-287. -/
noncomputable def leastSquareMcV2 (a : LsmInput n b) : ℝ :=
  let cash := a.loopV2 a.numTimes (a.numTimes - 1) (fun s j => if j < a.numTimes - 1 then 0 else a.exerciseValue (a.numTimes - 1) s)
  (∑ s ∈ a.pricing, a.continuationV2 cash 0 s) / (a.pricing.card : ℝ)

/-! ## `lsm.py` in `experimental`: the same with slices, without calibration samples -/

/-- `continuation_value_fn`, `experimental/lsm_algorithm/lsm.py` L242-269. -/
noncomputable def continuationV1 (a : LsmInput n b) (cash : Fin n → Nat → ℝ) (i : Nat) : Fin n → ℝ := fun s =>
  ∑ j ∈ Finset.Ico i a.numTimes, cash s j * (a.padded (j + 1) s / a.padded i s)

open Classical in
/-- `_updated_cashflow`, `experimental/lsm_algorithm/lsm.py` L318-351. -/
noncomputable def updatedCashflowV1 (exerciseIndex : Nat) (exercise expected : Fin n → ℝ) (cash : Fin n → Nat → ℝ) : Fin n → Nat → ℝ := fun s j =>
  let doExercise : ℝ := if exercise s > expected s then 1 else 0
  let newCash := if j < exerciseIndex - 1 then 0 else if j = exerciseIndex - 1 then (if exercise s > expected s then exercise s else 0) else 0
  let oldMask := if j < exerciseIndex then 0 else 1 - doExercise
  newCash + oldMask * cash s j

/-- The loop, `experimental/lsm_algorithm/lsm.py` L229-230 and L354-380. -/
noncomputable def loopV1 (a : LsmInput n b) : Nat → Nat → (Fin n → Nat → ℝ) → (Fin n → Nat → ℝ)
  | 0, _, cash => cash
  | fuel + 1, e, cash =>
    if e > 0 then
      let exercise := a.exerciseValue (e - 1)
      let expected := a.expectedExercise (a.design (e - 1)) (a.continuationV1 cash e) exercise
      loopV1 a fuel (e - 1) (updatedCashflowV1 e exercise expected cash)
    else cash

/-- `least_square_mc`, `experimental/lsm_algorithm/lsm.py` L211-233. -/
noncomputable def leastSquareMcV1 (a : LsmInput n b) : ℝ :=
  let cash := a.loopV1 a.numTimes (a.numTimes - 1) (fun s j => if j < a.numTimes - 1 then 0 else a.exerciseValue (a.numTimes - 1) s)
  (∑ s, a.continuationV1 cash 0 s) / (n : ℝ)

end LsmInput

/-- The powers of the polynomial basis, `lsm.py` L112-118: `tf.meshgrid` with its default indexing swaps the first two axes, then the grid is
flattened in row-major order. -/
def powersIj (degree : Nat) : Nat → List (List Nat)
  | 0 => [[]]
  | dim + 1 => (List.range (degree + 1)).flatMap (fun k => (powersIj degree dim).map (fun p => k :: p))

/-- Exponents of the basis functions, in order. -/
def basisPowers (degree dim : Nat) : List (List Nat) :=
  (powersIj degree dim).map (fun p => match p with
    | x :: y :: t => y :: x :: t
    | p => p)

/-- `make_polynomial_basis`, `lsm.py` L107-124, for the samples at one time: rows are basis functions, columns are samples. Samples are lists of
length `dim`. -/
def polynomialBasis {K : Type} [Field K] (degree dim : Nat) (samples : List (List K)) : List (List K) :=
  let mean : List K := (List.range dim).map (fun d => (samples.map (fun x => x.getD d 0)).sum / (samples.length : K))
  let centered := samples.map (fun x => List.zipWith (fun u v => u - v) x mean)
  (basisPowers degree dim).map (fun p => centered.map (fun x => (List.zipWith (fun u k => u ^ k) x p).prod))

end Model
