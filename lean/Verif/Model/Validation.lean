import Verif.Model.DigitalNet
import Verif.Model.Halton
import Verif.Model.LatticeRule
import Verif.Model.ImpliedVol
import Verif.Model.LinearInterpolation
import Verif.Model.CubicSpline
import Verif.Model.MonotoneConvex
import Verif.Model.VarianceSwaps
import Verif.Model.Brent

/-!
# Model of the checks made with `validate_args=True`

The assertions of a function are a list of conditions with messages; in eager mode they are evaluated in the order of the code and the first that
fails raises. Tensors of whole numbers are `Int`; a tensor whose rank or shape is checked is given by its shape and its entries.
-/

namespace Model

/-- Assertions in the order of the code: the first that fails raises with its message. -/
def assertAll : List (Bool × String) → Except String Unit
  | [] => .ok ()
  | (true, _) :: rest => assertAll rest
  | (false, message) :: _ => .error message

/-- The assertions are made only with `validate_args`. -/
def assertIf (validateArgs : Bool) (checks : List (Bool × String)) : Except String Unit := if validateArgs then assertAll checks else .ok ()

/-- Checks of an argument that may be missing. -/
def optionChecks {α : Type} (o : Option α) (checks : α → List (Bool × String)) : List (Bool × String) := (o.map checks).getD []

/-- `math/random_ops/sobol/sobol_impl.py` L82-111 and `sample`: with `validate_args` the numbers are clipped after the checks. -/
def sobolImplSampleChecked {K : Type} [Field K] (table : List (Nat × List Nat)) (dim numResults skip : Int) (validateArgs : Bool) :
    Except String (List (List K)) := do
  assertIf validateArgs [
    (decide (¬ dim < 1), "Dimension must be greater than zero. Supplied {}"),
    (decide (numResults > 0), "Number of results `num_results` must be greater than zero."),
    (decide (skip > 0), "`skip` must be non-negative."),
    (decide ((2 ^ 31 - 1) - numResults > skip), "Skip too large. Should be smaller than {_MAX_POSITIVE} - num_results")]
  let numResults := if validateArgs then max numResults 1 else numResults
  let skip := if validateArgs then max skip 0 else skip
  pure (sobolImplSample table dim.toNat numResults.toNat skip.toNat)

/-- `math/random_ops/halton/halton_impl.py` L34-35: the largest index for 32 and 64 bits. -/
def haltonMaxIndex (double : Bool) : Int := if double then 2 ^ 53 - 1 else 2 ^ 24 - 1

/-- `halton_impl.py` L210-247 for the given number of results or the given indices. `_get_indices` adds one to the indices. -/
def haltonAssertions (double : Bool) (dim : Int) (numResults : Option Nat) (sequenceIndices : Option (List Nat)) (validateArgs : Bool) :
    Except String Unit := do
  if numResults.isNone == sequenceIndices.isNone then .error "Either `num_results` or `sequence_indices` must be specified but not both." else .ok ()
  let indices := haltonIndices (numResults.getD 0) sequenceIndices
  assertIf validateArgs [
    (indices.all (fun i => decide ((i : Int) ≤ haltonMaxIndex double)), "Maximum sequence index exceeded."),
    (decide (dim ≥ 1), "`dim` should be greater than 1"),
    (decide (dim ≤ 1000), "`dim` should be less or equal than 1000")]

/-- `math/qmc/lattice_rule.py` L83-88: `random_scrambling_vectors`. -/
def scramblingVectorsAssertions (dim : Int) (validateArgs : Bool) : Except String Unit :=
  assertIf validateArgs [(decide (dim > 0), "dim must be positive")]

/-- `lattice_rule.py` L179-193: the shape of `generating_vectors` is given. -/
def latticeAssertions (shape : List Nat) (dim numResults : Int) (validateArgs : Bool) : Except String Unit :=
  assertIf validateArgs [
    (decide (shape.length = 1), "generating_vectors must have rank 1"),
    (decide (dim ≤ (shape.prod : Int)), "dim must not exceed the size of generating_vectors"),
    (decide (numResults > 0), "num_results must be positive")]

/-- `math/qmc/sobol.py` L190-211: `sobol_generating_matrices`. -/
def sobolMatricesAssertions (dim numResults numDigits : Int) (validateArgs : Bool) : Except String Unit :=
  assertIf validateArgs [
    (decide (dim > 0), "dim must be positive"),
    (decide (numResults > 0), "num_results must be positive"),
    (decide (numDigits > 0), "num_digits must be positive"),
    (decide (Nat.clog 2 numResults.toNat < 32), "log2(num_results) must be less than 32")]

/-- `math/qmc/digital_net.py` L189-196: `_random_stateless_uniform`, for `random_digital_shift` (shape `[dim]`) and `random_scrambling_matrices`
(shape `[dim, num_digits]`). -/
def statelessUniformAssertions (shape : List Int) (numDigits : Int) (validateArgs : Bool) : Except String Unit :=
  assertIf validateArgs [
    (shape.all (fun d => decide (d > 0)), "shape must be positive"),
    (decide (numDigits > 0), "num_digits must be positive")]

/-- `digital_net.py` L305-353: `digital_net_sample`; of the tensors only the shapes and of the indices also the values are used. -/
def digitalNetAssertions (matricesShape : List Nat) (numResults numDigits : Int) (sequenceIndices : Option (List Nat × List Int))
    (scramblingShape shiftShape : Option (List Nat)) (validateArgs : Bool) : Except String Unit :=
  assertIf validateArgs (
    [(decide (matricesShape.length = 2), "generating_matrices must have rank 2"),
     (decide (numResults > 0), "num_results must be positive"),
     (decide (numDigits > 0), "num_digits must be positive"),
     (decide (Nat.clog 2 numResults.toNat < 32), "log2(num_results) must be less than 32")] ++
    optionChecks sequenceIndices (fun s => [(decide (s.1.length = 1), "sequence_indices must have rank 1"),
         (s.2.all (fun i => decide (i < numResults)), "values in sequence_indices must be less than num_results")]) ++
    optionChecks scramblingShape (fun s => [(decide (s = matricesShape), "scrambling_matrices must have the same shape as generating_matrices")]) ++
    optionChecks shiftShape (fun s => [(decide (s.length = 1), "digital_shift must have rank 1"),
         (decide (s.prod = matricesShape.headD 0), "digital_shift must have size tf.shape(generating_matrices)[0]")]))

/-- `digital_net.py` L487-496: `scramble_generating_matrices`. -/
def scrambleAssertions (generatingShape scramblingShape : List Nat) (numDigits : Int) (validateArgs : Bool) : Except String Unit :=
  assertIf validateArgs [
    (decide (generatingShape.length = scramblingShape.length), "input matrices must have the same rank"),
    (decide (numDigits > 0), "num_digits must be positive")]

section
variable {K : Type} [Field K] [LinearOrder K]

/-- The differences `x[1:] - x[:-1]`. -/
def consecutive (x : List K) : List K := List.zipWith (fun a b => a - b) (x.drop 1) x.dropLast

/-- `math/interpolation/linear/linear_interpolation.py` L125-138 for one element of the batch, and `interpolate`. -/
def linearInterpolateChecked (x : K) (xData yData : List K) (leftSlope rightSlope : K) (tpu validateArgs : Bool) : Except String K := do
  assertIf validateArgs [
    ((consecutive xData).all (fun d => decide (d ≥ 0)), "x_data is not sorted in non-decreasing order."),
    (decide (xData.length = yData.length), "shapes")]
  pure (linearInterpolate x xData yData leftSlope rightSlope tpu)

/-- `math/interpolation/cubic/cubic_interpolation.py` L149-153, L532-538. -/
def cubicAssertions (xData : List K) (validateArgs : Bool) : Except String Unit :=
  assertIf validateArgs [((consecutive xData).all (fun d => decide (d ≥ 0)), "x_data is not sorted in non-decreasing order.")]

/-- `rates/hagan_west/monotone_convex.py` L176-181. -/
def monotoneConvexAssertions (times intervalTimes : List K) (validateArgs : Bool) : Except String Unit :=
  assertIf validateArgs [
    (times.all (fun t => decide (t ≥ 0)), "times"),
    (intervalTimes.all (fun t => decide (t > 0)), "interval_times")]

/-- `math/root_search/brent.py` L607-628 for a batch of problems with values at the brackets, tolerances and the largest numbers of iterations. -/
def brentAssertions (values absTol relTol funTol : List K) (values' : List K) (maxIterations : List Int) (validateArgs : Bool) : Except String Unit :=
  assertIf validateArgs [
    ((List.zipWith (fun a b => decide (a * b ≤ 0)) values values').all id, "brackets"),
    (absTol.all (fun t => decide (t > 0)), "absolute_root_tolerance"),
    (relTol.all (fun t => decide (t > 0)), "relative_root_tolerance"),
    (funTol.all (fun t => decide (t ≥ 0)), "function_tolerance"),
    (maxIterations.all (fun m => decide (m ≥ 0)), "max_iterations")]

/-- `models/euler_sampling.py` L241-246, L273-278, L302-307: times, grid (if supplied) and the number of draws (if supplied) for a grid of `gridSize`
points. -/
def eulerAssertions (times : List K) (timesGrid : Option (List K)) (tolerance : K) (draws : Option Nat) (gridSize : Nat) (validateArgs : Bool) : Except String Unit :=
  assertIf validateArgs (
    [((List.zipWith (fun a b => decide (a > b + tolerance)) (times.drop 1) times.dropLast).all id, "`times` increments should be greater than tolerance")] ++
    optionChecks timesGrid (fun g => [((List.zipWith (fun a b => decide (a > b + tolerance)) (g.drop 1) g.dropLast).all id, "`times_grid` increments should be greater than tolerance")]) ++
    optionChecks draws (fun n => [(decide ((n : Int) = (gridSize : Int) - 1), "`num_time_steps` should be equal to `tf.shape(normal_draws)[1]`")]))

/-- `models/sabr/sabr_model.py` L328-331: `is_strictly_increasing`. -/
def sabrTimesAssertions (times : List K) (validateArgs : Bool) : Except String Unit :=
  assertIf validateArgs [((consecutive times).all (fun d => decide (d > 0)), "times")]

/-- `models/hull_white/vector_hull_white.py` L687-695: the number of draws for a grid of `gridSize` points. -/
def vectorHullWhiteAssertions (draws gridSize : Nat) (validateArgs : Bool) : Except String Unit :=
  assertIf validateArgs [(decide ((draws : Int) = (gridSize : Int) - 1), "`tf.shape(normal_draws)[1]`")]

end

/-- `black_scholes/implied_vol_approximation.py` L147-188, `_validate_args_control_deps`, for one option. -/
noncomputable def ivAssertions (price forward strike expiry discountFactor : ℝ) (isCall : Option Bool) : Except String Unit :=
  let epsilon : ℝ := 1e-8
  let putLower := max (strike - forward) 0
  let callLower := max (forward - strike) 0
  let lower := match isCall with
    | some c => if c then callLower else putLower
    | none => callLower
  let upper := match isCall with
    | some c => if c then forward else strike
    | none => forward
  let undiscounted := price / discountFactor
  assertAll [
    (decide (expiry ≥ 0), "Expiries positive"),
    (decide (forward > 0), "Forwards positive"),
    (decide (strike > 0), "Strikes positive"),
    (decide (lower ≤ undiscounted), "Price lower bound"),
    (decide (upper ≥ undiscounted), "Price upper bound"),
    (decide (|undiscounted - lower| > epsilon), "Close to lower bound"),
    (decide (|undiscounted - upper| > epsilon), "Close to upper bound")]

/-- `implied_vol` of the approximation with `validate_args`, L112-144. -/
noncomputable def approxImpliedVolChecked (a : IvArgs) (polya : ℝ) (validateArgs : Bool) : Except String ℝ := do
  ivCheck a
  if validateArgs then ivAssertions a.price (ivForward a) a.strike a.expiry (ivDiscountFactor a) a.isCall else .ok ()
  approxImpliedVol a polya

/-- `implied_vol_newton_root.py` L138-185 with `validate_args`: the flag is only passed on when the starting point is computed with the approximation. -/
noncomputable def impliedVolNewtonChecked (a : IvArgs) (initialVolatility : Option ℝ) (rel tolerance : ℝ) (maxIterations : Nat) (validateArgs : Bool) :
    Except String (List (NewtonCell ℝ)) := do
  ivCheck a
  let start ← match initialVolatility with
    | some v => pure v
    | none => if a.isNormal then pure (a.price / (1 / Real.sqrt (2 * Real.pi))) else approxImpliedVolChecked a (2 / Real.pi) validateArgs
  pure (newtonImpliedVol rel tolerance maxIterations [a] [some start])

/-- Broadcasting of two vectors: equal lengths, or one of length one. -/
def broadcastVectors {α β γ : Type} (f : α → β → γ) (a : List α) (b : List β) : Except String (List γ) :=
  if a.length = b.length then .ok (List.zipWith f a b)
  else match a, b with
    | [x], b => .ok (b.map (fun y => f x y))
    | a, [y] => .ok (a.map (fun x => f x y))
    | _, _ => .error "Incompatible shapes"

/-- The prices in `fair_strike` L257-272 for lists whose lengths may differ. -/
noncomputable def replicationPricesBroadcast (strikes volatilities : List ℝ) (expiry rate spot : ℝ) (isCall : Bool) : Except String (List ℝ) := do
  let pairs ← broadcastVectors (fun k v => (k, v)) strikes.dropLast volatilities.dropLast
  pairs.mapM (fun p => optionPrice {
    volatility := p.2
    strike := p.1
    expiry := expiry
    spot := some spot
    discountRate := some rate
    isCall := some isCall })

/-- `black_scholes/variance_swaps.py` L234-288, `fair_strike` for lists whose lengths may differ. The comparisons of the lengths L236-241 are put among
the control dependencies as booleans and assert nothing. -/
noncomputable def fairStrikeBroadcast (putStrikes putVolatilities callStrikes callVolatilities : List ℝ)
    (expiry rate spot reference : ℝ) (validateArgs : Bool) : Except String ℝ := do
  let putWeights ← replicatingWeights putStrikes reference expiry validateArgs
  let callWeights ← replicatingWeights callStrikes reference expiry validateArgs
  let putPrices ← replicationPricesBroadcast putStrikes putVolatilities expiry rate spot false
  let callPrices ← replicationPricesBroadcast callStrikes callVolatilities expiry rate spot true
  let putValues ← broadcastVectors (fun w p => w * p) putWeights putPrices
  let callValues ← broadcastVectors (fun w p => w * p) callWeights callPrices
  let effectiveRate := expiry * rate
  let discountFactor := Real.exp effectiveRate
  let sRatio := spot / reference
  let centrality := 2 / expiry * (effectiveRate - discountFactor * sRatio + 1 + Real.log sRatio)
  pure (discountFactor * (putValues.sum + callValues.sum) + centrality)

end Model
