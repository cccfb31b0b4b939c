import Verif.Model.DateTensor
import Verif.Model.ShapeUtils

/-!
# Model of `tf_quant_finance/datetime/tensor_wrapper.py` and `periods/period_tensors.py`, and of the shapes of `date_tensor.py`

The operations of TensorFlow that move the elements of tensors are modelled as documented. Quantities are integers without bounds.
-/

namespace Model

namespace MoveOps
variable {K : Type}

/-- An axis counted from the end if negative. -/
def normAxis (rank : Nat) (axis : Int) : Except String Nat :=
  if 0 ≤ axis ∧ axis < rank then .ok axis.toNat else if axis < 0 ∧ 0 ≤ axis + rank then .ok (axis + rank).toNat else .error "axis out of range"

/-- `tf.expand_dims`. -/
def expandDims (axis : Int) (t : NdArray K) : Except String (NdArray K) := do
  let a ← normAxis (t.shape.length + 1) axis
  return ⟨t.shape.take a ++ 1 :: t.shape.drop a, fun idx => t.get (idx.take a ++ idx.drop (a + 1))⟩

/-- The tensor and the index from which `tf.concat` takes an element. -/
def concatSource (a : Nat) : List (List Nat) → List Nat → Nat × List Nat
  | [], idx => (0, idx)
  | s :: rest, idx =>
    if idx.getD a 0 < s.getD a 0 then (0, idx)
    else
      let r := concatSource a rest (idx.take a ++ (idx.getD a 0 - s.getD a 0) :: idx.drop (a + 1))
      (r.1 + 1, r.2)

/-- The element of the tensor with number `p.1` at index `p.2`. -/
def elementAt (ts : List (NdArray K)) (first : NdArray K) (p : Nat × List Nat) : K := (ts.getD p.1 first).get p.2

/-- `tf.concat`. -/
def concat (axis : Int) (ts : List (NdArray K)) : Except String (NdArray K) :=
  match ts with
  | [] => .error "no tensors"
  | t :: rest => do
    let a ← normAxis t.shape.length axis
    if ∀ u ∈ rest, u.shape.length = t.shape.length ∧ u.shape.take a = t.shape.take a ∧ u.shape.drop (a + 1) = t.shape.drop (a + 1) then
      return ⟨t.shape.take a ++ ((t :: rest).map fun u => u.shape.getD a 0).sum :: t.shape.drop (a + 1),
        fun idx => elementAt (t :: rest) t (concatSource a ((t :: rest).map NdArray.shape) idx)⟩
    else .error "shapes do not match"

/-- `tf.stack`. -/
def stack (axis : Int) (ts : List (NdArray K)) : Except String (NdArray K) :=
  match ts with
  | [] => .error "no tensors"
  | t :: rest => do
    let a ← normAxis (t.shape.length + 1) axis
    if ∀ u ∈ rest, u.shape = t.shape then
      return ⟨t.shape.take a ++ (rest.length + 1) :: t.shape.drop a, fun idx => elementAt (t :: rest) t (idx.getD a 0, idx.take a ++ idx.drop (a + 1))⟩
    else .error "shapes do not match"

/-- `tf.where` with three arguments. -/
def select (condition : NdArray Bool) (ts : List (NdArray K)) : Except String (NdArray K) :=
  match ts with
  | [x, y] =>
    match commonShapeFrom condition.shape [x.shape, y.shape] with
    | .ok s => .ok ⟨s, fun idx => if condition.get (broadcastIndex condition.shape idx) then x.get (broadcastIndex x.shape idx) else y.get (broadcastIndex y.shape idx)⟩
    | .error e => .error e
  | _ => .error "two tensors are expected"

/-- `tf.reshape`; `none` in the shape stands for `-1`. -/
def reshapeTo (shape : List (Option Nat)) (t : NdArray K) : Except String (NdArray K) :=
  let known := (shape.filterMap id).prod
  let missing := t.shape.prod / known
  let s := shape.map fun d => d.getD missing
  if 1 < shape.count none then .error "only one dimension can be unknown"
  else if none ∈ shape ∧ known = 0 then .error "cannot infer the missing size"
  else if s.prod = t.shape.prod then .ok (t.reshape s) else .error "sizes do not match"

/-- `tf.transpose`. -/
def transposeTo (perm : Option (List Nat)) (t : NdArray K) : Except String (NdArray K) :=
  let p := perm.getD (List.range t.shape.length).reverse
  if p.length = t.shape.length ∧ (∀ a ∈ p, a < t.shape.length) ∧ p.Nodup then .ok (t.transpose p) else .error "not a permutation"

/-- The dimensions that are kept, and the index before them. -/
def squeezeShape : List (Nat × Bool) → List Nat
  | [] => []
  | (_, true) :: r => squeezeShape r
  | (d, false) :: r => d :: squeezeShape r

def squeezeSource : List (Nat × Bool) → List Nat → List Nat
  | [], _ => []
  | (_, true) :: r, idx => 0 :: squeezeSource r idx
  | (_, false) :: r, idx => idx.headD 0 :: squeezeSource r idx.tail

def squeezeAxes (axes : Option (List Int)) (s : List Nat) : Except String (List Nat) :=
  match axes with
  | none => .ok ((List.range s.length).filter fun a => s.getD a 0 = 1)
  | some l => l.mapM (normAxis s.length)

/-- `tf.squeeze`: all dimensions of one without axes. -/
def squeeze (axes : Option (List Int)) (t : NdArray K) : Except String (NdArray K) := do
  let removed ← squeezeAxes axes t.shape
  let marked := t.shape.zipIdx.map fun p => (p.1, decide (p.2 ∈ removed))
  if ∀ p ∈ marked, p.2 = true → p.1 = 1 then return ⟨squeezeShape marked, fun idx => t.get (squeezeSource marked idx)⟩
  else .error "can only squeeze dimensions of one"

def maskAxis (axis : Option Int) (rank : Nat) : Except String Nat :=
  match axis with
  | none => .ok 0
  | some a => normAxis rank a

/-- `tf.boolean_mask`. -/
def booleanMask (mask : NdArray Bool) (axis : Option Int) (t : NdArray K) : Except String (NdArray K) := do
  let a ← maskAxis axis t.shape.length
  let r := mask.shape.length
  if r = 0 then .error "mask cannot be scalar"
  else if (t.shape.drop a).take r = mask.shape then
    let positions := ((List.range mask.shape.prod).map (unflatIndex mask.shape)).filter fun i => mask.get i
    return ⟨t.shape.take a ++ positions.length :: t.shape.drop (a + r),
      fun idx => t.get (idx.take a ++ positions.getD (idx.getD a 0) [] ++ idx.drop (a + 1))⟩
  else .error "shapes do not match"

/-- Keys of `__getitem__`: a number, or a slice without step. -/
inductive Key
  | at (i : Int)
  | slice (start stop : Option Int)

/-- A bound of a slice, counted from the end if negative, and cut to the dimension. -/
def clampBound (d : Nat) (i : Int) : Nat := if i < 0 then (i + d).toNat else min i.toNat d

/-- The shape for the keys: the dimensions are those of the slices. -/
def itemShape : List Key → List Nat → Except String (List Nat)
  | [], s => .ok s
  | _ :: _, [] => .error "too many indices"
  | .at i :: ks, d :: ds =>
    match normAxis d i with
    | .ok _ => itemShape ks ds
    | .error e => .error e
  | .slice lo hi :: ks, d :: ds =>
    match itemShape ks ds with
    | .ok r => .ok ((clampBound d (hi.getD d) - clampBound d (lo.getD 0)) :: r)
    | .error e => .error e

def itemSource : List Key → List Nat → List Nat → List Nat
  | [], _, idx => idx
  | _ :: _, [], idx => idx
  | .at i :: ks, d :: ds, idx => (if i < 0 then (i + d).toNat else i.toNat) :: itemSource ks ds idx
  | .slice lo _ :: ks, d :: ds, idx => (clampBound d (lo.getD 0) + idx.headD 0) :: itemSource ks ds idx.tail

/-- Indexing and slicing. -/
def getItem (keys : List Key) (t : NdArray K) : Except String (NdArray K) :=
  match itemShape keys t.shape with
  | .ok s => .ok ⟨s, fun idx => t.get (itemSource keys t.shape idx)⟩
  | .error e => .error e

end MoveOps

/-- A `DateTensor`, `date_tensor.py` L64-109: the four tensors. -/
structure DateTensorNd where
  ordinals : NdArray Int
  years : NdArray Int
  months : NdArray Int
  days : NdArray Int

/-- `_apply_sequence_to_tensor_op` of `date_tensor.py`, L398-404. -/
def DateTensorNd.applySequence (op : List (NdArray Int) → Except String (NdArray Int)) (ts : List DateTensorNd) : Except String DateTensorNd := do
  let o ← op (ts.map fun t => t.ordinals)
  let y ← op (ts.map fun t => t.years)
  let m ← op (ts.map fun t => t.months)
  let d ← op (ts.map fun t => t.days)
  return ⟨o, y, m, d⟩

/-- `_apply_op` of `date_tensor.py`, L406-410. -/
def DateTensorNd.applyOp (op : NdArray Int → Except String (NdArray Int)) (t : DateTensorNd) : Except String DateTensorNd := do
  let o ← op t.ordinals
  let y ← op t.years
  let m ← op t.months
  let d ← op t.days
  return ⟨o, y, m, d⟩

/-- A `PeriodTensor`, `period_tensors.py` L54-77. -/
structure PeriodTensorNd where
  quantity : NdArray Int
  type : PeriodType

namespace PeriodTensorNd

/-- `days`, `weeks`, `months`, `years`, L26-51. -/
def ofDays (n : NdArray Int) : PeriodTensorNd := ⟨n, .DAY⟩
def ofWeeks (n : NdArray Int) : PeriodTensorNd := ⟨n, .WEEK⟩
def ofMonths (n : NdArray Int) : PeriodTensorNd := ⟨n, .MONTH⟩
def ofYears (n : NdArray Int) : PeriodTensorNd := ⟨n, .YEAR⟩

/-- `__mul__`, L87-90. -/
def mul (p : PeriodTensorNd) (multiplier : NdArray Int) : Except String PeriodTensorNd := do
  let q ← NdArray.map2 (· * ·) p.quantity multiplier
  return ⟨q, p.type⟩

/-- `__add__`, L92-97. -/
def add (p other : PeriodTensorNd) : Except String PeriodTensorNd :=
  if other.type ≠ p.type then .error "Mixing different period types is not supported"
  else do
    let q ← NdArray.map2 (· + ·) p.quantity other.quantity
    return ⟨q, p.type⟩

/-- `__sub__`, L99-104. -/
def sub (p other : PeriodTensorNd) : Except String PeriodTensorNd :=
  if other.type ≠ p.type then .error "Mixing different period types is not supported"
  else do
    let q ← NdArray.map2 (· - ·) p.quantity other.quantity
    return ⟨q, p.type⟩

/-- `_apply_sequence_to_tensor_op`, L114-120. -/
def applySequence (op : List (NdArray Int) → Except String (NdArray Int)) (ts : List PeriodTensorNd) : Except String PeriodTensorNd := do
  let q ← op (ts.map fun t => t.quantity)
  match ts with
  | [] => .error "list index out of range"
  | t :: rest => if rest.all fun u => u.type = t.type then return ⟨q, t.type⟩ else .error "Combined PeriodTensors must have the same PeriodType"

/-- `_apply_op`, L122-124. -/
def applyOp (op : NdArray Int → Except String (NdArray Int)) (t : PeriodTensorNd) : Except String PeriodTensorNd := do
  let q ← op t.quantity
  return ⟨q, t.type⟩

end PeriodTensorNd

end Model
