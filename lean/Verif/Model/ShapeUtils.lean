import Verif.Model.NdArray

/-!
# Model of `tf_quant_finance/utils/shape_utils.py`

Static and dynamic shapes are both lists of dimensions. The arguments are tensors; the code reads the shape of the first one without converting it, so that lists fail.
-/

namespace Model

/-- The loop of `common_shape`, L104-114. -/
def commonShapeFrom : List Nat → List (List Nat) → Except String (List Nat)
  | shape, [] => .ok shape
  | shape, s :: rest =>
    match broadcastShape shape s with
    | some r => commonShapeFrom r rest
    | none => .error "Shapes are incompatible"

/-- `common_shape`, L63-114; without arguments it returns `None`. -/
def commonShape : List (List Nat) → Except String (Option (List Nat))
  | [] => .ok none
  | s :: rest => (commonShapeFrom s rest).map some

/-- `tf.broadcast_to`. -/
def broadcastTo {K : Type} (x : NdArray K) (shape : List Nat) : Except String (NdArray K) :=
  if broadcastShape x.shape shape = some shape then .ok ⟨shape, fun idx => x.get (broadcastIndex x.shape idx)⟩
  else .error "Incompatible shapes"

/-- `broadcast_tensors`, L117-150; without arguments the tuple is empty. -/
def broadcastTensors {K : Type} (args : List (NdArray K)) : Except String (List (NdArray K)) := do
  let shape ← commonShape (args.map NdArray.shape)
  args.mapM fun x => broadcastTo x (shape.getD [])

/-- `l[:-d]` of Python; `-0` is `0`. -/
def sliceBefore (l : List Nat) (d : Nat) : List Nat := if d = 0 then [] else l.take (l.length - d)

/-- `l[-d:]` of Python. -/
def sliceAfter (l : List Nat) (d : Nat) : List Nat := if d = 0 then l else l.drop (l.length - d)

/-- `broadcast_common_batch_shape`, L153-221. -/
def broadcastCommonBatchShape {K : Type} (args : List (NdArray K)) (eventRanks : Option (List Nat)) : Except String (List (NdArray K)) :=
  let ranks := eventRanks.getD (List.replicate args.length 1)
  if ranks.length ≠ args.length then .error "`args` and `event_dims` should be of the same length"
  else do
    let common ← commonShape ((List.zip args ranks).map fun p => sliceBefore p.1.shape p.2)
    (List.zip args ranks).mapM fun p => broadcastTo p.1 (common.getD [] ++ sliceAfter p.1.shape p.2)

end Model
