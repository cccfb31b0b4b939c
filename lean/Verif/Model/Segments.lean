import Mathlib.Algebra.Group.Defs
import Mathlib.Algebra.Field.Defs

/-!
# Model of `tf_quant_finance/math/diff_ops.py`, `math/segment_ops.py` and the yield/forward conversions of
`rates/analytics/forwards.py`

Rank 1 tensors are lists; the entries are elements of an additive commutative group (a field for the
rates): no rounding.
-/

namespace Model

section
variable {G : Type} [AddCommGroup G]

/-- `diff_ops.py` L22-88 `diff` of a rank 1 tensor, `order` positive. -/
def diff (x : List G) (order : Nat) (exclusive : Bool) : List G :=
  -- `x[:-order]`, `x[order:]`
  let x0 := x.take (x.length - order)
  let x1 := x.drop order
  let exclusiveDiff := List.zipWith (fun a b => a - b) x1 x0
  if exclusive then exclusiveDiff else x.take order ++ exclusiveDiff

/-- `segment_ops.py` L89-90 `has_segment_changed`. -/
def hasSegmentChanged (ids : List Int) : List Bool :=
  false :: List.zipWith (fun a b => decide (a - b ≠ 0)) ids.tail ids.dropLast

/-- L92 `segment_start_index`: `tf.where(has_segment_changed)`. -/
def segmentStarts (ids : List Int) : List Nat :=
  (List.range ids.length).filter (fun i => (hasSegmentChanged ids).getD i false)

/-- L93-104: `fix_indices` (the indices `p, ..., p+order-1` that are before the end of the segment starting
at `p`). -/
def fixIndices (ids : List Int) (order : Nat) : List Nat :=
  let starts := segmentStarts ids
  let ends := starts.tail ++ [ids.length]
  (starts.zip ends).flatMap (fun q => ((List.range order).map (fun k => q.1 + k)).filter (fun i => decide (i < q.2)))

/-- L106-114 `needs_fix`: `scatter_nd` of ones, cast to bool. -/
def needsFix (ids : List Int) (order n : Nat) : List Bool :=
  (List.range n).map (fun i => decide ((fixIndices ids order).count i ≠ 0))

/-- `segment_ops.py` L22-122 `segment_diff`. -/
def segmentDiff (x : List G) (segmentIds : Option (List Int)) (order : Nat) (exclusive : Bool) : List G :=
  let rawDiffs := diff x order exclusive
  match segmentIds with
  | none => rawDiffs
  | some ids =>
    let fix := needsFix ids order x.length
    if ¬ exclusive then
      -- `tf.where(needs_fix, x, raw_diffs)`
      List.zipWith (fun (b : Bool) (p : G × G) => if b then p.1 else p.2) fix (x.zip rawDiffs)
    else
      -- `tf.boolean_mask(raw_diffs, logical_not(needs_fix[order:]))`
      ((rawDiffs.zip (fix.drop order)).filter (fun p => !p.2)).map (fun p => p.1)

/-- `tf.math.cumsum`. -/
def cumsum (x : List G) (exclusive : Bool) : List G := go 0 x
where go (acc : G) : List G → List G
  | [] => []
  | a :: t => (if exclusive then acc else acc + a) :: go (acc + a) t

/-- `segment_ops.py` L184-198: the `tf.scan`; state `(cumsum, prev_segment, prev_value)`. -/
def segmentScan (exclusive : Bool) : G × Int × G → List (G × Int) → List G
  | _, [] => []
  | (cum, prevSegment, prevValue), (value, segment) :: t =>
    let initialValue := if exclusive then 0 else value
    let incValue := if exclusive then cum + prevValue else cum + value
    let next := if prevSegment = segment then incValue else initialValue
    next :: segmentScan exclusive (next, segment, value) t

/-- `segment_ops.py` L125-198 `segment_cumsum` (non-empty `x`). -/
def segmentCumsum (x : List G) (segmentIds : Option (List Int)) (exclusive : Bool) : List G :=
  match segmentIds with
  | none => cumsum x exclusive
  | some ids => segmentScan exclusive (0, -1, 0) (x.zip ids)

end

section
variable {K : Type} [Field K]

/-- `rates/analytics/forwards.py` L21-70 `forward_rates` (one element; `divide_no_nan` is division with
`a / 0 = 0`, which is how division of a Lean field behaves). -/
def forwardRate (dfStart dfEnd daycount : K) : K := (dfStart / dfEnd - 1) / daycount

/-- `rates/analytics/forwards.py` L73-179 `forward_rates_from_yields`.  The division of the code gives NaN
or infinity when two times of a group coincide; the theorems exclude this. -/
def forwardRatesFromYields (yields times : List K) (groups : Option (List Int)) : List K :=
  let rateTimes := List.zipWith (· * ·) yields times
  let diffRateTimes := segmentDiff rateTimes groups 1 false
  let diffTimes := segmentDiff times groups 1 false
  List.zipWith (· / ·) diffRateTimes diffTimes

/-- `rates/analytics/forwards.py` L182-296 `yields_from_forward_rates`. -/
def yieldsFromForwardRates (forwards times : List K) (groups : Option (List Int)) : List K :=
  let intervals := segmentDiff times groups 1 false
  let x := List.zipWith (· * ·) intervals forwards
  let y := segmentCumsum x groups false
  List.zipWith (· / ·) y times

end

end Model
