import Verif.Model.NdArray
import Verif.Model.NormalCdf
import Mathlib.Data.List.Sort

/-!
# Model of `tf_quant_finance/math/random_ops`: `multivariate_normal.py`, `uniform.py`, `stateless.py`

The generators of numbers and `tf.linalg.cholesky` are parameters. A call of the pseudo random generator gets a number of its own, as its state changes.
-/

namespace Model

/-- `RandomType`, multivariate_normal.py L27-44. -/
inductive RandomType
  | pseudo
  | stateless
  | halton
  | haltonRandomized
  | sobol
  | pseudoAntithetic
  | statelessAntithetic
deriving DecidableEq

abbrev Seed := List Int

/-- The generators: `normal` and `uniform` (state, seed, shape), the stateless ones (seed, shape), `sobol.sample` (dimension, number of points, skipped points)
and `halton.sample` (dimension, indices, randomized, seed), the last two with shape `[number of points, dimension]`. -/
structure RandomSource where
  normal : Nat → Option Seed → List Nat → NdArray ℝ
  uniform : Nat → Option Seed → List Nat → NdArray ℝ
  statelessNormal : Seed → List Nat → NdArray ℝ
  statelessUniform : Seed → List Nat → NdArray ℝ
  sobol : Nat → Nat → Nat → NdArray ℝ
  halton : Nat → List Nat → Bool → Option Seed → NdArray ℝ

/-- The generators return tensors of the requested shape. -/
structure RandomSource.Valid (src : RandomSource) : Prop where
  normal : ∀ c seed shape, (src.normal c seed shape).shape = shape
  uniform : ∀ c seed shape, (src.uniform c seed shape).shape = shape
  statelessNormal : ∀ seed shape, (src.statelessNormal seed shape).shape = shape
  statelessUniform : ∀ seed shape, (src.statelessUniform seed shape).shape = shape
  sobol : ∀ dim num skip, (src.sobol dim num skip).shape = [num, dim]
  halton : ∀ dim indices r seed, (src.halton dim indices r seed).shape = [indices.length, dim]

/-- `tf.math.erfinv`, the inverse of the error function; at one and minus one it is infinite, which is not modelled. -/
noncomputable def erfinv (x : ℝ) : ℝ := Function.invFun erf x

/-- The scale matrix of `_process_mean_scale`, L429-436. -/
def mvnScale (cholesky : NdArray ℝ → NdArray ℝ) (covariance scale : Option (NdArray ℝ)) : Option (NdArray ℝ) :=
  match scale with
  | some s => some s
  | none => covariance.map cholesky

/-- `batch_shape` of `_process_mean_scale`, L437-450; it includes the dimension. -/
def mvnBatch (mean scale : Option (NdArray ℝ)) : List Nat :=
  match mean with
  | some m => m.shape
  | none => ((scale.map NdArray.shape).getD []).dropLast

/-- The last dimension, L443 and L449. -/
def mvnDim (mean scale : Option (NdArray ℝ)) : Nat :=
  match mean with
  | some m => m.shape.getLastD 0
  | none => ((scale.map NdArray.shape).getD []).getLastD 0

/-- `samples` or `scale_matrix samples`, L267-273 and L421-424. -/
noncomputable def mvnScaled (scale : Option (NdArray ℝ)) (samples : NdArray ℝ) : Except String (NdArray ℝ) :=
  match scale with
  | none => .ok samples
  | some l => NdArray.matvec l samples

/-- `mean + samples` or `mean + scale_matrix samples`, L270-273 and L421-424. -/
noncomputable def mvnAffine (mean scale : Option (NdArray ℝ)) (samples : NdArray ℝ) : Except String (NdArray ℝ) := do
  let x ← mvnScaled scale samples
  match mean with
  | none => return x.map (fun y => 0 + y)
  | some m => NdArray.map2 (· + ·) m x

/-- `_mvnormal_pseudo` L248-273 with the scale matrix in place of the covariance. -/
noncomputable def mvnPseudo (src : RandomSource) (call : Nat) (sample : List Nat) (mean scale : Option (NdArray ℝ)) (stateless : Bool) (seed : Option Seed) :
    Except String (NdArray ℝ) := do
  let shape := sample ++ mvnBatch mean scale
  if stateless then
    match seed with
    | none => .error "`seed` should be specified if the `random_type` is `STATELESS` or `STATELESS_ANTITHETIC`"
    | some s => mvnAffine mean scale (src.statelessNormal s shape)
  else mvnAffine mean scale (src.normal call seed shape)

/-- `_mvnormal_pseudo_antithetic` L276-311. -/
noncomputable def mvnAntithetic (src : RandomSource) (call : Nat) (sample : List Nat) (mean scale : Option (NdArray ℝ)) (stateless : Bool) (seed : Option Seed) :
    Except String (NdArray ℝ) := do
  match sample with
  | [] => .error "index out of bounds"
  | n :: rest =>
    if n % 2 ≠ 0 then .error "First dimension of `sample_shape` should be even for PSEUDO_ANTITHETIC random type"
    let result ← mvnPseudo src call (n / 2 :: rest) mean scale stateless seed
    match mean with
    | none => return result.concat0 (result.map fun y => -y)
    | some m => do
      let reflected ← NdArray.map2 (fun a b => 2 * a - b) m result
      return result.concat0 reflected

/-- The permutation L412-413. -/
def quasiPermutation (sizeSample sizeBatch : Nat) : List Nat :=
  (List.range sizeSample).map (sizeBatch + ·) ++ (List.range sizeBatch).reverse

/-- The rearrangement L369-372 and L407-417 of the points, a tensor of shape `[number, dim]`. -/
def quasiArrange (sample batch : List Nat) (points : NdArray ℝ) : NdArray ℝ :=
  ((points.transpose [1, 0]).reshape (batch.reverse ++ sample)).transpose (quasiPermutation sample.length batch.length)

/-- `_mvnormal_quasi` L356-424; `random_type` is `sobol`, `halton` or `haltonRandomized`. -/
noncomputable def mvnQuasi (src : RandomSource) (sample : List Nat) (mean scale : Option (NdArray ℝ)) (type : RandomType) (seed : Option Seed) (skip : Nat) :
    Except String (NdArray ℝ) :=
  let batch := mvnBatch mean scale
  let dim := mvnDim mean scale
  let num := (batch.reverse ++ sample).prod / dim
  let points := if type = .sobol then src.sobol dim num skip
    else src.halton dim ((List.range num).map (skip + ·)) (decide (type = .haltonRandomized)) seed
  let samples := (quasiArrange sample batch points).map fun p => erfinv ((p - 0.5) * 2) * Real.sqrt 2
  mvnAffine mean scale samples

/-- `multivariate_normal` L47-245. -/
noncomputable def multivariateNormal (src : RandomSource) (cholesky : NdArray ℝ → NdArray ℝ) (call : Nat) (sample : List Nat)
    (mean covariance scale : Option (NdArray ℝ)) (type : Option RandomType) (seed : Option Seed) (skip : Nat := 0) : Except String (NdArray ℝ) :=
  if mean.isNone ∧ covariance.isNone ∧ scale.isNone then .error "At least one of mean, covariance_matrix or scale_matrix must be specified."
  else if covariance.isSome ∧ scale.isSome then .error "Only one of covariance matrix or scale matrix must be specified"
  else
    let l := mvnScale cholesky covariance scale
    match type.getD .pseudo with
    | .pseudo => mvnPseudo src call sample mean l false seed
    | .stateless => mvnPseudo src call sample mean l true seed
    | .pseudoAntithetic => mvnAntithetic src call sample mean l false seed
    | .statelessAntithetic => mvnAntithetic src call sample mean l true seed
    | .sobol => mvnQuasi src sample mean l .sobol none skip
    | .halton => mvnQuasi src sample mean l .halton seed skip
    | .haltonRandomized => mvnQuasi src sample mean l .haltonRandomized seed skip

/-- `uniform`, uniform.py L22-153. -/
def uniformDraws (src : RandomSource) (call dim : Nat) (sample : List Nat) (type : Option RandomType) (seed : Option Seed) (skip : Nat := 0) :
    Except String (NdArray ℝ) :=
  let quasi (t : RandomType) : NdArray ℝ :=
    let num := sample.prod
    let points := if t = .sobol then src.sobol dim num skip
      else src.halton dim ((List.range num).map (skip + ·)) (decide (t = .haltonRandomized)) seed
    points.reshape (sample ++ [dim])
  match type.getD .pseudo with
  | .pseudo => .ok (src.uniform call seed (sample ++ [dim]))
  | .stateless => match seed with
    | none => .error "`seed` must be supplied if the `random_type` is STATELESS."
    | some s => .ok (src.statelessUniform s (sample ++ [dim]))
  | .pseudoAntithetic => .error "At the moment antithetic sampling is not supported for the uniform distribution."
  | .sobol => .ok (quasi .sobol)
  | .halton => .ok (quasi .halton)
  | .haltonRandomized => .ok (quasi .haltonRandomized)
  | .statelessAntithetic => .ok (quasi .statelessAntithetic)

/-- `tf.argsort` with `stable=True` of `n` numbers. -/
def argsortFn {K : Type} [LinearOrder K] (n : Nat) (u : Nat → K) : List Nat := (List.range n).insertionSort (fun i j => u i ≤ u j)

/-- `stateless_random_shuffle`, stateless.py L25-52, of the entries of a list. -/
noncomputable def statelessShuffle {α : Type} (src : RandomSource) (input : List α) (seed : Seed) : List (Option α) :=
  let uniforms := src.statelessUniform seed [input.length]
  (argsortFn input.length fun i => uniforms.get [i]).map fun i => input[i]?

end Model
