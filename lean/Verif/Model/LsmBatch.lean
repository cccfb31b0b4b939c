import Verif.Model.Lsm

/-!
# Batches of options in the regression Monte Carlo of Longstaff and Schwartz

`models/longstaff_schwartz/lsm.py` with the payoff of `models/longstaff_schwartz/payoff_utils.py` (the code of `experimental/lsm_algorithm/payoff.py`
is the same). `Model.Lsm` is one option; here all tensors have their batch dimension and are broadcast as TensorFlow does it. Tensors of rank 2 and 3
are their dimensions with entries by indices. Indices out of range and shapes that do not fit are errors. The mean of no numbers is 0 in the model and NaN in
the code. `tf.linalg.pinv` is an argument. Floats are real numbers.
-/

namespace Model
open scoped BigOperators

/-- Broadcasting of one dimension. -/
def broadcastDim (a b : Nat) : Except String Nat :=
  if a = b ∨ b = 1 then .ok a else if a = 1 then .ok b else .error "Incompatible shapes"

/-- The index into a dimension of size `d` for an index into the broadcast dimension. -/
def broadcastGet (d i : Nat) : Nat := if d = 1 then 0 else i

structure Tensor2 (K : Type) where
  d0 : Nat
  d1 : Nat
  get : Nat → Nat → K

structure Tensor3 (K : Type) where
  d0 : Nat
  d1 : Nat
  d2 : Nat
  get : Nat → Nat → Nat → K

structure Tensor4 (K : Type) where
  d0 : Nat
  d1 : Nat
  d2 : Nat
  d3 : Nat
  get : Nat → Nat → Nat → Nat → K

namespace Tensor2
variable {K L M : Type}

def map (f : K → L) (a : Tensor2 K) : Tensor2 L := ⟨a.d0, a.d1, fun i j => f (a.get i j)⟩

/-- An operation of two tensors with broadcasting. -/
def map2 (f : K → L → M) (a : Tensor2 K) (b : Tensor2 L) : Except String (Tensor2 M) := do
  let r ← broadcastDim a.d0 b.d0
  let c ← broadcastDim a.d1 b.d1
  .ok ⟨r, c, fun i j => f (a.get (broadcastGet a.d0 i) (broadcastGet a.d1 j)) (b.get (broadcastGet b.d0 i) (broadcastGet b.d1 j))⟩

/-- A scalar where a tensor of rank 2 is expected. -/
def ofScalar (x : K) : Tensor2 K := ⟨1, 1, fun _ _ => x⟩

/-- A tensor of rank 1 and `n` entries where one of rank 2 is expected. -/
def ofRow (n : Nat) (x : Nat → K) : Tensor2 K := ⟨1, n, fun _ j => x j⟩

/-- `tf.expand_dims(tf.transpose(a), axis=-1)`. -/
def column (a : Tensor2 K) : Tensor3 K := ⟨a.d1, a.d0, 1, fun v s _ => a.get s v⟩

end Tensor2

namespace Tensor3
variable {K : Type}

/-- `tf.transpose(a, [0, 2, 1])`. -/
def swap (a : Tensor3 K) : Tensor3 K := ⟨a.d0, a.d2, a.d1, fun i j k => a.get i k j⟩

/-- `tf.matmul` of batches of matrices. -/
def matmul [AddCommMonoid K] [Mul K] (a b : Tensor3 K) : Except String (Tensor3 K) := do
  let d ← broadcastDim a.d0 b.d0
  if a.d2 = b.d1 then
    .ok ⟨d, a.d1, b.d2, fun v i k => ∑ j ∈ Finset.range a.d2, a.get (broadcastGet a.d0 v) i j * b.get (broadcastGet b.d0 v) j k⟩
  else .error "Matrix size-incompatible"

/-- `tf.where(mask, x, tf.zeros_like(x))`. -/
def whereElseZero [Zero K] (mask : Tensor3 Bool) (x : Tensor3 K) : Except String (Tensor3 K) := do
  let a ← broadcastDim mask.d0 x.d0
  let b ← broadcastDim mask.d1 x.d1
  let c ← broadcastDim mask.d2 x.d2
  .ok ⟨a, b, c, fun i j k =>
    if mask.get (broadcastGet mask.d0 i) (broadcastGet mask.d1 j) (broadcastGet mask.d2 k) then
      x.get (broadcastGet x.d0 i) (broadcastGet x.d1 j) (broadcastGet x.d2 k) else 0⟩

/-- `a[i]`. -/
def slice (a : Tensor3 K) (i : Nat) : Except String (Tensor2 K) :=
  if i < a.d0 then .ok ⟨a.d1, a.d2, a.get i⟩ else .error "slice index out of bounds"

end Tensor3

/-- The argument `sample_paths`: one set of paths, of shape `[num_samples, num_times, dim]`, or one for each option, of shape
`[batch_size, num_samples, num_times, dim]`. -/
inductive LsmPaths
  | shared (t : Tensor3 ℝ)
  | batch (t : Tensor4 ℝ)

namespace LsmPaths

/-- `payoff_utils.py` L85-90: `[num_samples, batch_size, num_times, dim]`. -/
def samplesFirst : LsmPaths → Tensor4 ℝ
  | shared t => ⟨t.d0, 1, t.d1, t.d2, fun s _ i d => t.get s i d⟩
  | batch t => ⟨t.d1, t.d0, t.d2, t.d3, fun s v i d => t.get v s i d⟩

/-- `lsm.py` L101-102: `[batch_size, num_samples, num_times, dim]`. -/
def batchFirst : LsmPaths → Tensor4 ℝ
  | shared t => ⟨1, t.d0, t.d1, t.d2, fun _ s i d => t.get s i d⟩
  | batch t => t

/-- `tf.shape(sample_paths)[-2]`, `lsm.py` L286. -/
def numTimes : LsmPaths → Nat
  | shared t => t.d1
  | batch t => t.d2

end LsmPaths

/-- `_put_valuer`, `payoff_utils.py` L82-97 and `experimental/lsm_algorithm/payoff.py` L73-91. -/
noncomputable def putValuer (strikes : Tensor2 ℝ) (paths : LsmPaths) (timeIndex : Nat) : Except String (Tensor2 ℝ) :=
  let p := paths.samplesFirst
  if timeIndex < p.d2 then do
    let average : Tensor2 ℝ := ⟨p.d0, p.d1, fun s v => (∑ d ∈ Finset.range p.d3, p.get s v timeIndex d) / (p.d3 : ℝ)⟩
    let difference ← Tensor2.map2 (fun k a => k - a) strikes average
    .ok (difference.map fun x => max x 0)
  else .error "slice out of bounds"

/-- `make_polynomial_basis`, `lsm.py` L99-124; `tf.meshgrid` needs at least one dimension. -/
noncomputable def batchBasis (degree : Nat) (paths : LsmPaths) (timeIndex : Nat) : Except String (Tensor3 ℝ) :=
  let p := paths.batchFirst
  if timeIndex < p.d2 ∧ 0 < p.d3 then
    let mean : Nat → Nat → ℝ := fun v d => (∑ s ∈ Finset.range p.d1, p.get v s timeIndex d) / (p.d1 : ℝ)
    let grid := basisPowers degree p.d3
    .ok ⟨p.d0, grid.length, p.d1, fun v k s =>
      ∏ d ∈ Finset.range p.d3, (p.get v s timeIndex d - mean v d) ^ ((grid.getD k []).getD d 0)⟩
  else .error "slice out of bounds"

/-- The argument `discount_factors` by its rank. -/
inductive LsmDiscounts
  | missing
  | rank0 (x : ℝ)
  | rank1 (n : Nat) (x : Nat → ℝ)
  | rank2 (x : Tensor2 ℝ)
  | rank3 (x : Tensor3 ℝ)

/-- L239-256: reshaping, a leading one, `[num_exercise_times + 1, num_samples, batch_size]`. A tensor of rank 2 stays one of rank 2, which does
not fit the three paddings of `tf.pad`. -/
def LsmDiscounts.prepare (numExercise : Nat) : LsmDiscounts → Except String (Tensor3 ℝ)
  | missing => .ok ⟨numExercise + 1, 1, 1, fun _ _ _ => 1⟩
  | rank0 x => .ok ⟨1 + 1, 1, 1, fun i _ _ => if i = 0 then 1 else x⟩
  | rank1 n x => .ok ⟨n + 1, 1, 1, fun i _ _ => if i = 0 then 1 else x (i - 1)⟩
  | rank2 _ => .error "The first dimension of paddings must be the rank of inputs"
  | rank3 x => .ok ⟨x.d2 + 1, x.d0, x.d1, fun i s v => if i = 0 then 1 else x.get s v (i - 1)⟩

/-- `_apply_discount`, L304-325. -/
noncomputable def batchDiscount (discounts : Tensor3 ℝ) (values : Tensor2 ℝ) (i : Nat) : Except String (Tensor2 ℝ) := do
  let late ← discounts.slice (i + 1)
  let early ← discounts.slice i
  let ratio ← Tensor2.map2 (fun x y => x / y) late early
  Tensor2.map2 (fun x y => x * y) ratio values

/-- `tf.linalg.pinv` on each matrix. -/
noncomputable def batchPinv (pinv : (b : Nat) → Matrix (Fin b) (Fin b) ℝ → Matrix (Fin b) (Fin b) ℝ) (a : Tensor3 ℝ) : Tensor3 ℝ :=
  ⟨a.d0, a.d1, a.d1, fun v k l =>
    if h : k < a.d1 ∧ l < a.d1 then pinv a.d1 (fun p q => a.get v p.val q.val) ⟨k, h.1⟩ ⟨l, h.2⟩ else 0⟩

/-- The rows used in the regression, L356-363. -/
def calibrationRows (numCalibration : Option Nat) (masked : Tensor3 ℝ) (continuation : Tensor2 ℝ) : Except String (Tensor3 ℝ × Tensor2 ℝ) :=
  match numCalibration with
  | none => .ok (masked, continuation)
  | some m =>
    if m ≤ masked.d1 ∧ m ≤ continuation.d0 then
      .ok (⟨masked.d0, m, masked.d2, masked.get⟩, ⟨m, continuation.d1, continuation.get⟩)
    else .error "indices out of range"

open Classical in
/-- `_expected_exercise_fn`, L328-383. -/
noncomputable def batchExpectedExercise (pinv : (b : Nat) → Matrix (Fin b) (Fin b) ℝ → Matrix (Fin b) (Fin b) ℝ) (numCalibration : Option Nat)
    (design : Tensor3 ℝ) (continuation exercise : Tensor2 ℝ) : Except String (Tensor2 ℝ) := do
  let masked ← Tensor3.whereElseZero (exercise.map fun x => decide (x > 0)).column design.swap
  let rows ← calibrationRows numCalibration masked continuation
  let lhs ← Tensor3.matmul rows.1.swap rows.1
  let rhs ← Tensor3.matmul rows.1.swap rows.2.column
  let beta ← Tensor3.matmul (batchPinv pinv lhs) rhs
  let fitted ← Tensor3.matmul design.swap beta
  .ok ⟨fitted.d1, fitted.d0, fun s v => max (fitted.get v s 0) 0⟩

/-- `LsmLoopVars`, L31-47. -/
structure BatchVars where
  exerciseIndex : Nat
  cashflow : Tensor2 ℝ
  values : Tensor2 ℝ

/-- The arguments of `least_square_mc`, L128-135. -/
structure BatchLsm where
  exerciseTimes : List Nat
  payoffFn : Nat → Except String (Tensor2 ℝ)
  basisFn : Nat → Except String (Tensor3 ℝ)
  discountFactors : LsmDiscounts
  numCalibration : Option Nat
  numPathTimes : Nat
  pinv : (b : Nat) → Matrix (Fin b) (Fin b) ℝ → Matrix (Fin b) (Fin b) ℝ

/-- `exercise_times[i]`. -/
def BatchLsm.timeIndex (a : BatchLsm) (i : Nat) : Except String Nat :=
  match a.exerciseTimes[i]? with
  | some t => .ok t
  | none => .error "slice index out of bounds"

open Classical in
/-- `_lsm_loop_body` with `_updated_cashflows_and_values`, L386-436. -/
noncomputable def BatchLsm.loopBody (a : BatchLsm) (discounts : Tensor3 ℝ) (w : BatchVars) : Except String BatchVars := do
  let t ← a.timeIndex (w.exerciseIndex - 1)
  let exercise ← a.payoffFn t
  let total ← Tensor2.map2 (fun x y => x + y) w.values w.cashflow
  let continuation ← batchDiscount discounts total w.exerciseIndex
  let design ← a.basisFn t
  let expected ← batchExpectedExercise a.pinv a.numCalibration design continuation exercise
  let update ← Tensor2.map2 (fun x y => decide (x > y)) exercise expected
  let current ← Tensor2.map2 (fun x y => x + y) w.cashflow w.values
  let values ← Tensor2.map2 (fun u x => if u then 0 else x) update current
  let cashflow ← Tensor2.map2 (fun u x => if u then x else 0) update exercise
  let next ← batchDiscount discounts values w.exerciseIndex
  .ok ⟨w.exerciseIndex - 1, cashflow, next⟩

/-- The `tf.while_loop`, L287-289. -/
noncomputable def BatchLsm.loop (a : BatchLsm) (discounts : Tensor3 ℝ) : Nat → BatchVars → Except String BatchVars
  | 0, w => .ok w
  | fuel + 1, w => if w.exerciseIndex > 0 then (a.loopBody discounts w).bind (BatchLsm.loop a discounts fuel) else .ok w

/-- `least_square_mc`, L229-295: the number of prices with the prices. -/
noncomputable def BatchLsm.price (a : BatchLsm) : Except String (Nat × (Nat → ℝ)) := do
  let discounts ← a.discountFactors.prepare a.exerciseTimes.length
  let t ← a.timeIndex (a.exerciseTimes.length - 1)
  let exercise ← a.payoffFn t
  let w ← a.loop discounts a.numPathTimes ⟨a.exerciseTimes.length - 1, exercise, exercise.map fun _ => 0⟩
  let total ← Tensor2.map2 (fun x y => x + y) w.cashflow w.values
  let present ← batchDiscount discounts total 0
  let first := a.numCalibration.getD 0
  .ok (present.d1, fun v => (∑ s ∈ Finset.Ico first present.d0, present.get s v) / ((present.d0 - first : Nat) : ℝ))

end Model
