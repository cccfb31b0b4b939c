import Mathlib.Algebra.Field.Defs
import Mathlib.Algebra.Order.Group.Unbundled.Abs
import Mathlib.Algebra.Order.Ring.Defs

/-!
# Model of `tf_quant_finance/math/root_search/brent.py`

Numbers are elements of an ordered field, so all values are finite and the `is_finite` tests (L244, L466-467) are true.
One root search is one element of the batch; the loop runs on the whole batch.
-/

namespace Model
variable {K : Type} [Field K] [LinearOrder K]

/-- `_BrentSearchState` L63-75. -/
structure BrentState (K : Type) where
  best : K
  vBest : K
  last : K
  vLast : K
  contra : K
  vContra : K
  stepToBest : K
  stepToLast : K
  numIterations : Nat
  finished : Bool

/-- `_BrentSearchParams` L78-86 (for one element). -/
structure BrentParams (K : Type) where
  objective : K → K
  maxIterations : Nat
  absTol : K
  relTol : K
  funTol : K

/-- `_secant_step` L103-126. -/
def secantStep (x1 x2 y1 y2 : K) : K := -y1 * (x1 - x2) / (y1 - y2)

/-- `_quadratic_interpolation_step` L129-153. -/
def quadraticStep (x1 x2 x3 y1 y2 y3 : K) : K :=
  let r2 := (x2 - x1) / (y2 - y1)
  let r3 := (x3 - x1) / (y3 - y1);
  -x1 * ((x3 * r3 - x2 * r2) / (r3 * r2 * (x3 - x2)))

/-- L196-209: use the last estimate as contrapoint when the root lies between the last two estimates. -/
def brentReplaceContra (s : BrentState K) : BrentState K :=
  let c := !s.finished && decide (s.vLast * s.vBest < 0)
  let stepToLast := if c then s.best - s.last else s.stepToLast
  { s with
    contra := if c then s.last else s.contra
    vContra := if c then s.vLast else s.vContra
    stepToLast := stepToLast
    stepToBest := if c then stepToLast else s.stepToBest }

/-- L211-227: swap best estimate and contrapoint. -/
def brentSwap (s : BrentState K) : BrentState K :=
  let c := if s.finished then false else decide (|s.vContra| < |s.vBest|)
  let last := if c then s.best else s.last
  let best := if c then s.contra else s.best
  let contra := if c then last else s.contra
  let vLast := if c then s.vBest else s.vLast
  let vBest := if c then s.vContra else s.vBest
  let vContra := if c then vLast else s.vContra
  { s with last := last, best := best, contra := contra, vLast := vLast, vBest := vBest, vContra := vContra }

/-- L231-233. -/
def rootTolerance (p : BrentParams K) (s : BrentState K) : K := 1 / 2 * (p.absTol + p.relTol * |s.best|)

/-- L234. -/
def bisectionStep (s : BrentState K) : K := 1 / 2 * (s.contra - s.best)

/-- L242-305: stopping test and step. -/
def brentMove (p : BrentParams K) (s : BrentState K) : BrentState K :=
  let rootTol := rootTolerance p s
  let bisection := bisectionStep s
  let finished := s.finished || (decide (p.maxIterations ≤ s.numIterations) || decide (|bisection| < rootTol) ||
    decide (|s.vBest| ≤ p.funTol))
  let computeShort := if finished then false
    else decide (rootTol < |s.stepToLast|) && decide (|s.vBest| < |s.vLast|)
  let short := if computeShort then
      (if s.last = s.contra then secantStep s.best s.last s.vBest s.vLast
       else quadraticStep s.vBest s.vLast s.vContra s.best s.last s.contra)
    else 0
  let useShort := if computeShort then decide (2 * |short| < min (3 * |bisection| - rootTol) |s.stepToLast|) else false
  let stepToLast := if useShort then s.stepToBest else bisection
  let stepToBest := if finished then 0 else if useShort then short else bisection
  let best := s.best + (if finished then 0
    else if rootTol < |stepToBest| then stepToBest else if 0 < bisection then rootTol else -rootTol)
  { best := best
    vBest := if finished then s.vBest else p.objective best
    last := if finished then s.last else s.best
    vLast := if finished then s.vLast else s.vBest
    contra := s.contra
    vContra := s.vContra
    stepToBest := stepToBest
    stepToLast := stepToLast
    numIterations := if finished then s.numIterations else s.numIterations + 1
    finished := finished }

/-- `_brent_loop_body` L173-319. -/
def brentBody (p : BrentParams K) (s : BrentState K) : BrentState K := brentMove p (brentSwap (brentReplaceContra s))

/-- `_prepare_brent_args` L398-488: the initial state. -/
def brentInit (p : BrentParams K) (left right : K) : BrentState K :=
  let vl := p.objective left
  let vr := p.objective right
  let swap := decide (|vl| < |vr|)
  let best := if swap then left else right
  let last := if swap then right else left
  let vBest := if swap then vl else vr
  let vLast := if swap then vr else vl
  { best := best, vBest := vBest, last := last, vLast := vLast, contra := 0, vContra := 0, stepToBest := 0, stepToLast := 0,
    numIterations := 0
    finished := decide (p.maxIterations ≤ 0) || decide (|vBest| ≤ p.funTol) }

/-- L630-637: the loop over the batch, `fuel` being `maximum_iterations`; `stop` is the stopping policy. -/
def brentLoop (stop : List Bool → Bool) : Nat → List (BrentParams K × BrentState K) → List (BrentParams K × BrentState K)
  | 0, l => l
  | fuel + 1, l => if stop (l.map (·.2.finished)) then l
      else brentLoop stop fuel (l.map (fun q => (q.1, brentBody q.1 q.2)))

/-- `BrentResults` L34-52. -/
structure BrentResults (K : Type) where
  estimatedRoot : K
  objectiveAtRoot : K
  numIterations : Nat
  converged : Bool
deriving DecidableEq

/-- L639-646. -/
def brentResult (p : BrentParams K) (s : BrentState K) : BrentResults K :=
  { estimatedRoot := s.best, objectiveAtRoot := s.vBest, numIterations := s.numIterations,
    converged := decide (|s.vBest| ≤ p.funTol) }

/-- `brentq` L649-844 (`_brent` L493-646) on a batch of problems (objective, left bracket, right bracket, tolerances);
`maxIterations` is common. Without `validate_args`. -/
def brentq (stop : List Bool → Bool) (maxIterations : Nat) (problems : List (BrentParams K × K × K)) :
    List (BrentResults K) :=
  (brentLoop stop maxIterations (problems.map (fun q =>
    ({ q.1 with maxIterations := maxIterations },
      brentInit { q.1 with maxIterations := maxIterations } q.2.1 q.2.2)))).map (fun q => brentResult q.1 q.2)

/-- The default stopping policy `tf.reduce_all` (L398). -/
def stopAll (l : List Bool) : Bool := l.all id

end Model
