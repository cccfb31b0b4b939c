import Mathlib.Algebra.Field.Defs

/-!
# Model of `tf_quant_finance/math/random_ops/halton/halton_impl.py`

Indices and digits are floats holding whole numbers in the code; here they are natural numbers.  `max_sizes_by_axes`
(`_MAX_SIZES_BY_AXES`, L419-439 and L530-534, computed with floating-point logarithms) and the primes (`_PRIMES`) are arguments.
The random permutations and the random zero correction are arguments too.
-/

namespace Model

/-- `_get_indices` L378-416. -/
def haltonIndices (numResults : Nat) (sequenceIndices : Option (List Nat)) : List Nat :=
  (sequenceIndices.getD (List.range numResults)).map (· + 1)

/-- L269-287: digit `e` of the place value expansion of `index`, with the digits beyond `maxSizeByAxis` set to 0. -/
def haltonCoeff (radix maxSizeByAxis index e : Nat) : Nat :=
  let mask := maxSizeByAxis ≤ e
  let weight := radix ^ (if mask then 0 else e)
  ((index / weight) * (if mask then 0 else 1)) % radix

/-- L273-277: the weight of digit `e`. -/
def haltonWeight (radix maxSizeByAxis e : Nat) : Nat := radix ^ (if maxSizeByAxis ≤ e then 0 else e)

/-- `_get_permutations` L339-375, flattened (L331): `shuffle i c` is the shuffle of `range(radixes[c])` drawn for digit `i`
of coordinate `c`. -/
def haltonPermutations (numCoeffs : Nat) (radixes : List Nat) (shuffle : Nat → Nat → List Nat) : List Nat :=
  (List.range numCoeffs).flatMap (fun i => (List.range radixes.length).flatMap (fun c => shuffle i c))

/-- `_randomize` L323-336, for one digit. -/
def haltonPermuted (perms radixes : List Nat) (c e coeff : Nat) : Nat :=
  let radixSum := radixes.sum
  let radixOffset := (radixes.take c).sum
  perms.getD (coeff + (radixOffset + e * radixSum)) 0

variable {K : Type} [Field K]

/-- `sample` L222-320 for one index and coordinate; `randomization` is the pair (flat permutations, zero corrections). -/
def haltonValue (radixes sizes : List Nat) (randomization : Option (List Nat × List K)) (index c : Nat) : K :=
  let maxSize := sizes.foldl max 0
  let radix := radixes.getD c 0
  let size := sizes.getD c 0
  match randomization with
  | none => ((List.range maxSize).map (fun e =>
      ((haltonCoeff radix size index e : Nat) : K) / (radix : K) / ((haltonWeight radix size e : Nat) : K))).sum
  | some (perms, zeroCorrection) =>
    ((List.range maxSize).map (fun e =>
      ((haltonPermuted perms radixes c e (haltonCoeff radix size index e) * (if size ≤ e then 0 else 1) : Nat) : K)
        / (radix : K) / ((haltonWeight radix size e : Nat) : K))).sum + zeroCorrection.getD c 0

/-- L310-318: the zero correction of coordinate `c` from a uniform number. -/
def haltonZeroCorrection (radixes sizes : List Nat) (uniform : List K) : List K :=
  (List.range radixes.length).map (fun c => uniform.getD c 0 / ((radixes.getD c 0 : Nat) : K) ^ (sizes.getD c 0))

/-- `sample` L59-320: one row per index, one column per dimension. -/
def haltonSample (radixes sizes : List Nat) (numResults : Nat) (sequenceIndices : Option (List Nat))
    (randomization : Option (List Nat × List K)) : List (List K) :=
  (haltonIndices numResults sequenceIndices).map (fun index =>
    (List.range radixes.length).map (fun c => haltonValue radixes sizes randomization index c))

end Model
