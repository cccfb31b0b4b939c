import Verif.Model.DigitalNet
import Mathlib.Algebra.Order.Floor.Ring

/-!
# Model of `tf_quant_finance/math/qmc/lattice_rule.py`

Numbers are exact. `tf.math.floormod(x, 1)` is the fractional part. The random shift of `random_scrambling_vectors` is an
argument. An `additive_shift` with fewer than `dim` entries fails to broadcast; it is not modelled (lists of that length are cut).
-/

namespace Model

variable {K : Type} [Field K] [LinearOrder K] [FloorRing K]

/-- `tf.math.floormod(x, 1)`. -/
def floorMod1 (x : K) : K := x - (⌊x⌋ : K)

/-- `lattice_rule_sample`, L99-229, without `validate_args`: one row per sample, one entry per coordinate. -/
def latticeRuleSample (generatingVectors : List Int) (dim numResults : Nat) (sequenceIndices : Option (List Int))
    (additiveShift : Option (List K)) (tent : Bool) : List (List K) :=
  let indices := sequenceIndices.getD ((List.range numResults).map (fun (n : Nat) => (n : Int)))
  let scaled := (generatingVectors.take dim).map (fun (z : Int) => (z : K) / (numResults : K))
  indices.map (fun (n : Int) =>
    let points := scaled.map (fun s => (n : K) * floorMod1 s)
    let points := match additiveShift with
      | none => points
      | some shift => List.zipWith (fun p s => p + s) points (shift.take dim)
    let points := points.map floorMod1
    if tent then points.map tentTransform else points)

end Model
