import Mathlib.Order.Defs.LinearOrder
import Mathlib.Algebra.Order.Ring.Int
import Verif.Model.DateTensor

/-!
# Model of `tf_quant_finance/math/pad.py`

A tensor of shape `batch_shape + [n]` is the list of its rows (the batch dimensions flattened).  Entries are
elements of a linear order `K`; the only arithmetic of the code is `tf.reduce_min(t) - 1`, which is a parameter
`sub1 : K → K`, so that the effect of rounding (or integer wrap-around) in this subtraction can be stated.
-/

namespace Model

section
variable {K : Type} [LinearOrder K]

/-- The argument `pad_values` (L120-134 `_prepare_pad_values`): not given, one scalar for all tensors, or for each
tensor one value per row (already broadcast to the batch shape). -/
inductive PadValues (K : Type) where
  | default
  | scalar (v : K)
  | perTensor (vs : List (List K))

/-- `_prepare_pad_values` L120-134: for each tensor the pad value of each row.  `none`: the last element of an
empty row is asked for. -/
def preparePadValues (p : PadValues K) (tensors : List (List (List K))) : Option (List (List K)) :=
  match p with
  | .default => tensors.mapM (fun t => t.mapM (fun row => row.getLast?))
  | .scalar v => some (tensors.map (fun t => t.map (fun _ => v)))
  | .perTensor vs => some vs

/-- `tf.reduce_min` of a non-empty tensor. -/
def reduceMin (t : List (List K)) : Option K :=
  match t.flatten with
  | [] => none
  | a :: l => some (l.foldl min a)

/-- L76-83 for one row: pad with the constant `c`, then replace everything that is not above `c`. -/
def padRow (c : K) (maxSize : Nat) (v : K) (row : List K) : List K :=
  (row ++ List.replicate (maxSize - row.length) c).map (fun a => if a > c then a else v)

/-- L75-84 for one tensor. -/
def padTensor (sub1 : K → K) (maxSize : Nat) (vs : List K) (t : List (List K)) : Option (List (List K)) :=
  match reduceMin t with
  | none => none
  | some m => some (List.zipWith (padRow (sub1 m) maxSize) vs t)

/-- `tf.shape(t)[-1]`. -/
def innerSize (t : List (List K)) : Nat := (t.head?.map List.length).getD 0

/-- L20-85 `pad_tensors`.  `none` stands for the cases not modelled (a tensor without elements). -/
def padTensors (sub1 : K → K) (p : PadValues K) (tensors : List (List (List K))) :
    Option (List (List (List K))) := do
  let maxSize := (tensors.map innerSize).foldl max 0
  let vs ← preparePadValues p tensors
  (vs.zip tensors).mapM (fun q => padTensor sub1 maxSize q.1 q.2)

end

/-- L88-117 `pad_date_tensors`. -/
def padDateTensors (ts : List (List (List DateT))) : Except String (List (List (List DateT))) := do
  match padTensors (fun m : Int => m - 1) .default (ts.map (List.map (List.map DateT.ordinal))) with
  | none => .error "empty tensor"
  | some ps => ps.mapM (fun t => t.mapM (fun row => row.mapM (fun o => fromOrdinals o)))

end Model
