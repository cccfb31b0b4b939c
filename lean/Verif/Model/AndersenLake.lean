import Verif.Model.VanillaPrices
import Verif.Model.Gauss
import Verif.Model.CubicSpline
import Verif.Model.PrepareGrid

/-!
# Model of `tf_quant_finance/experimental/american_option_pricing`: `common.py`, `exercise_boundary.py`, `andersen_lake.py`

One option per call, over the reals. In a batch the code iterates until all boundaries have converged. `eps` is the machine epsilon of the
type of the arguments. `Except.error` is an exception. With exact numbers `tf.where` selects values that are not a number away.
-/

namespace Model

/-- `tf.math.erfc`. -/
noncomputable def erfc (x : ℝ) : ℝ := 1 - erf x

/-- `standard_normal_cdf`, common.py L11-19. -/
noncomputable def standardNormalCdf (a : ℝ) : ℝ :=
  let x := a / Real.sqrt 2
  let z := |x|
  let y1 := 0.5 + 0.5 * erf x
  let y2 := 0.5 * erfc z
  let y3 := 1 - y2
  if z < Real.sqrt 2 / 2 then y1 else if x > 0 then y3 else y2

/-- Types of the arguments. -/
inductive AmFloat
  | float32
  | float64
  deriving DecidableEq

/-- `tf.where` fails on branches of different types. -/
def whereType (a b : AmFloat) : Except String AmFloat := if a = b then .ok a else .error "cannot compute SelectV2: type mismatch"

/-- The types in `standard_normal_cdf`, common.py L14-19: `x` and `y1` have the type of the argument, `z`, `y2` and `y3` are `float64`. -/
def standardNormalCdfType (a : AmFloat) : Except String AmFloat := do
  let y1 := a
  let y2 := AmFloat.float64
  let y3 := y2
  let inner ← whereType y3 y2
  whereType y1 inner

/-- `d_plus`, common.py L22-28. -/
noncomputable def dPlus (eps tau z r q sigma : ℝ) : ℝ :=
  (Real.log (max z eps) + (r - q + 0.5 * sigma ^ 2) * tau) / (sigma * Real.sqrt tau + eps)

/-- `d_minus`, common.py L31-34. -/
noncomputable def dMinus (eps tau z r q sigma : ℝ) : ℝ := dPlus eps tau z r q sigma - sigma * Real.sqrt tau

/-- `divide_with_positive_denominator`, common.py L37-44. -/
noncomputable def divideWithPositiveDenominator (eps a b : ℝ) : Except String ℝ :=
  if b ≥ 0 then .ok (a / (b + eps)) else .error "Condition x >= y did not hold."

/-- The integrand of `boundary_numerator`, exercise_boundary.py L108-113. The boundary `b` passed by the code is at least `eps` (L334), so
the assertion in the division holds. -/
noncomputable def numeratorFunc (eps tau : ℝ) (b : ℝ → ℝ) (r q sigma u : ℝ) : ℝ :=
  Real.exp (r * u) * standardNormalCdf (dMinus eps (tau - u) (b tau / (b u + eps)) r q sigma)

/-- The integrand of `boundary_denominator`, exercise_boundary.py L212-217. -/
noncomputable def denominatorFunc (eps tau : ℝ) (b : ℝ → ℝ) (r q sigma u : ℝ) : ℝ :=
  Real.exp (q * u) * standardNormalCdf (dPlus eps (tau - u) (b tau / (b u + eps)) r q sigma)

/-- The value of an integration rule, or the exception for an unsupported number of points. -/
def ofRule (numPoints : Nat) (value : Option ℝ) : Except String ℝ :=
  match value with
  | some v => .ok v
  | none => .error s!"Unsupported value for `num_points`: {numPoints}"

/-- `boundary_numerator`, exercise_boundary.py L88-122, at one point of the grid. -/
noncomputable def boundaryNumerator (eps tau : ℝ) (b : ℝ → ℝ) (k r q sigma : ℝ) (numPoints : Nat) : Except String ℝ := do
  let term1 := standardNormalCdf (dMinus eps tau (b tau / k) r q sigma)
  let integral ← ofRule numPoints (gaussLegendre (numeratorFunc eps tau b r q sigma) 0 tau numPoints)
  return term1 + r * integral

/-- `boundary_denominator`, exercise_boundary.py L191-226. -/
noncomputable def boundaryDenominator (eps tau : ℝ) (b : ℝ → ℝ) (k r q sigma : ℝ) (numPoints : Nat) : Except String ℝ := do
  let term1 := standardNormalCdf (dPlus eps tau (b tau / k) r q sigma)
  let integral ← ofRule numPoints (gaussLegendre (denominatorFunc eps tau b r q sigma) 0 tau numPoints)
  return term1 + q * integral

/-- `b_0`, exercise_boundary.py L313-321. -/
noncomputable def initialBoundary (eps k r q : ℝ) : ℝ := k * if |q| < eps then 1 else min 1 (r / q)

/-- The boundary through given points: natural cubic spline, at least `eps`; L327-335 and L361-363. -/
noncomputable def splineBoundary (eps : ℝ) (tauGrid points : List ℝ) : Except String (ℝ → ℝ) :=
  match splineBuild tauGrid points none none none with
  | some coeffs => .ok (fun tau => max (cubicInterpolate tau tauGrid points coeffs) eps)
  | none => .error "The system of the spline cannot be solved."

/-- The new boundary points, exercise_boundary.py L327-343. -/
noncomputable def boundaryIterate (eps : ℝ) (tauGrid : List ℝ) (k r q sigma : ℝ) (numPoints : Nat) (points : List ℝ) : Except String (List ℝ) := do
  let b ← splineBoundary eps tauGrid points
  tauGrid.mapM fun tau => do
    let numerator ← boundaryNumerator eps tau b k r q sigma numPoints
    let denominator ← boundaryDenominator eps tau b k r q sigma numPoints
    divideWithPositiveDenominator eps (k * Real.exp (-(r - q) * tau) * numerator) denominator

/-- `relative_error <= tolerance`, exercise_boundary.py L344-348; the maximum over the points. -/
noncomputable def boundaryConverged (eps tolerance : ℝ) (new current : List ℝ) : Bool :=
  (List.zipWith (fun n c => decide (|n - c| / (|n| + eps) ≤ tolerance)) new current).all id

/-- The loop of `exercise_boundary`, L323-359; `Nat` is the number of iterations left. -/
noncomputable def boundaryLoop (eps tolerance : ℝ) (tauGrid : List ℝ) (k r q sigma : ℝ) (numPoints : Nat) :
    Nat → List ℝ → Except String (Bool × List ℝ)
  | 0, points => .ok (false, points)
  | n + 1, points => do
    let new ← boundaryIterate eps tauGrid k r q sigma numPoints points
    if boundaryConverged eps tolerance new points then return (true, new)
    else boundaryLoop eps tolerance tauGrid k r q sigma numPoints n new

/-- `exercise_boundary`, L296-364. -/
noncomputable def exerciseBoundary (eps tolerance : ℝ) (tauGrid : List ℝ) (k r q sigma : ℝ) (maxIterations numPoints : Nat) :
    Except String (ℝ → ℝ) := do
  let result ← boundaryLoop eps tolerance tauGrid k r q sigma numPoints maxIterations (tauGrid.map fun _ => initialBoundary eps k r q)
  splineBoundary eps tauGrid result.2

/-- The settings of `andersen_lake` L30-38 and the machine epsilon. -/
structure AmSettings where
  eps : ℝ
  gridNumPoints : Nat
  kronrodPoints : Nat
  legendrePoints : Nat
  maxIterations : Nat
  maxDepth : Nat
  toleranceBoundary : ℝ
  toleranceKronrod : ℝ

/-- `func_1`, andersen_lake.py L275-292. -/
noncomputable def premiumFunc1 (eps tau s k r q sigma : ℝ) (b : ℝ → ℝ) (u : ℝ) : ℝ :=
  r * k * Real.exp (-r * (tau - u)) * standardNormalCdf (-dMinus eps (tau - u) (s / (b u + eps)) r q sigma)

/-- `func_2`, andersen_lake.py L304-309. -/
noncomputable def premiumFunc2 (eps tau s r q sigma : ℝ) (b : ℝ → ℝ) (u : ℝ) : ℝ :=
  q * s * Real.exp (-q * (tau - u)) * standardNormalCdf (-dPlus eps (tau - u) (s / (b u + eps)) r q sigma)

/-- The rates used for the boundary, andersen_lake.py L258-263. -/
noncomputable def boundaryRates (eps r q : ℝ) : ℝ × ℝ :=
  (if |r| < eps then (if |q| < eps then 0.1 else r) else r, if |q| < eps then (if |r| < eps then 0.1 else q) else q)

/-- `tau_grid`, andersen_lake.py L252. -/
noncomputable def andersenTauGrid (tau : ℝ) (gridNumPoints : Nat) : List ℝ := tfLinspace (tau / gridNumPoints) tau gridNumPoints

/-- `_andersen_lake`, L223-321. -/
noncomputable def andersenLakeCore (c : AmSettings) (sigma kTemp tau sTemp rTemp qTemp : ℝ) (isCall : Bool) : Except String ℝ := do
  let european ← optionPrice { volatility := sigma, strike := kTemp, expiry := tau, spot := some sTemp, discountRate := some rTemp, dividendRate := some qTemp, isCall := some isCall }
  let k := if isCall then sTemp else kTemp
  let s := if isCall then kTemp else sTemp
  let r := if isCall then qTemp else rTemp
  let q := if isCall then rTemp else qTemp
  let rates := boundaryRates c.eps r q
  let b ← exerciseBoundary c.eps c.toleranceBoundary (andersenTauGrid tau c.gridNumPoints) k rates.1 rates.2 sigma c.maxIterations c.legendrePoints
  let term1 ← ofRule c.kronrodPoints (gaussKronrod (premiumFunc1 c.eps tau s k r q sigma b) 0 tau c.toleranceKronrod c.kronrodPoints c.maxDepth)
  let term2 ← ofRule c.kronrodPoints (gaussKronrod (premiumFunc2 c.eps tau s r q sigma b) 0 tau c.toleranceKronrod c.kronrodPoints c.maxDepth)
  return european + term1 - term2

/-- `andersen_lake`, L159-220; calls by default. -/
noncomputable def andersenLake (c : AmSettings) (a : BsArgs) : Except String ℝ := do
  bsCheck a
  let rate := match a.discountRate, a.discountFactor with
    | some r, _ => r
    | none, some df => -Real.log df / a.expiry
    | none, none => 0
  let dividend := a.dividendRate.getD 0
  let spot := match a.forward with
    | some f => f * Real.exp (-(rate - dividend) * a.expiry)
    | none => a.spot.getD 0
  andersenLakeCore c a.volatility a.strike a.expiry spot rate dividend (a.isCall.getD true)

end Model
