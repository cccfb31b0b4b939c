import Verif.Model.HullWhite

/-!
# Model of `tf_quant_finance/models/hull_white/vector_hull_white.py`: several correlated factors

Constant mean reversions, a piecewise constant volatility for each factor and a piecewise constant correlation matrix, the case which the code samples
without a time step.  Rows of batched tensors are lists, one for each factor; vectors and matrices of fixed size are functions of indices.  The Cholesky
root is an argument.  One path at a time.
-/

namespace Model

/-- The parameters, L139-147.  The correlation matrix has jumps and values of its own. -/
structure VectorHullWhite where
  dim : Nat
  meanReversion : Nat → ℝ
  volJumps : Nat → List ℝ
  volValues : Nat → List ℝ
  discountRate : Nat → ℝ → ℝ
  corr : Option (List ℝ × List (Nat → Nat → ℝ))

/-- A parameter as given by the user: a tensor, a piecewise constant function or another callable, with the shapes that `_input_type` looks at. -/
inductive HwParam where
  | piecewise (jumpsShape : List Nat)
  | callable
  | tensor (shape : List Nat)

/-- `_input_type` L1033-1088: whether Euler sampling is needed and whether the parameter is piecewise constant. -/
def hwInputType (dim : Nat) (isMeanReversion : Bool) : HwParam → Except String (Bool × Bool)
  | .piecewise shape =>
    if shape.length > 2 then .error "Batch rank of `jump_locations` should be `1` for all piecewise constant arguments"
    else if shape.length = 2 ∧ dim ≠ shape.headD 0 then .error "Batch shape of `jump_locations` should be either empty or dim"
    else .ok (isMeanReversion && decide (shape.headD 0 > 0), true)
  | .callable => .ok (true, false)
  | .tensor shape =>
    if shape ≠ [] ∧ shape.getLastD 0 ≠ dim then .error "Length should be the same as `dims`"
    else .ok (false, true)

namespace VectorHullWhite
variable (m : VectorHullWhite)

/-- The jumps of the correlation matrix; a tensor or no matrix has none. -/
def corrJumps : List ℝ := (m.corr.map Prod.fst).getD []

/-- The volatility of a factor at a time, for example L699. -/
noncomputable def volatility (i : Nat) (t : ℝ) : ℝ := piecewiseConstant (m.volJumps i) (m.volValues i) true t

/-- `_jump_locations` of a factor, L820-836.  The mean reversion has no jumps. -/
noncomputable def knots (i : Nat) : List ℝ := (m.volJumps i ++ m.corrJumps).insertionSort (· ≤ ·)

/-- `_jump_values_vol` of a factor, L838-843. -/
noncomputable def jumpValuesVol (i : Nat) : List ℝ := (m.knots i).map (m.volatility i)

/-- `_padded_knots` L852-855. -/
noncomputable def paddedKnots (i : Nat) : List ℝ := 0 :: (m.knots i).dropLast

/-- `y_at_vol_knots` L862-867, L882-889, and `varx_at_vol_knots` L929-936. -/
noncomputable def varianceAtKnots (i : Nat) : List ℝ :=
  0 :: cumsum (List.zipWith (fun (p : ℝ × ℝ) (v : ℝ) => varianceInt p.1 p.2 v (m.meanReversion i)) ((m.paddedKnots i).zip (m.knots i)) (m.jumpValuesVol i)) false

/-- The sum of L871-873 and of L943-945. -/
noncomputable def varianceAt (i : Nat) (t : ℝ) : ℝ :=
  let index := searchLeft (m.knots i) t
  varianceInt ((0 :: m.knots i).getD index 0) t (m.volatility i t) (m.meanReversion i) + (m.varianceAtKnots i).getD index 0

/-- `_compute_yt` L857-874. -/
noncomputable def computeYt (i : Nat) (t : ℝ) : ℝ := Real.exp (-2 * m.meanReversion i * t) * m.varianceAt i t

/-- `ex_at_vol_knots` L891-899. -/
noncomputable def exAtKnots (i : Nat) : List ℝ :=
  0 :: cumsum (List.zipWith (fun (p : ℝ × ℝ) (q : ℝ × ℝ) => exIntegral p.1 p.2 q.1 (m.meanReversion i) q.2)
    ((m.paddedKnots i).zip (m.knots i)) ((m.jumpValuesVol i).zip (m.varianceAtKnots i).dropLast)) false

/-- The sum of L901-904. -/
noncomputable def exAt (i : Nat) (t : ℝ) : ℝ :=
  let index := searchLeft (m.knots i) t
  exIntegral ((0 :: m.knots i).getD index 0) t (m.volatility i t) (m.meanReversion i) ((m.varianceAtKnots i).getD index 0) + (m.exAtKnots i).getD index 0

/-- `_conditional_mean_x` L876-907, from one time of the grid to the next. -/
noncomputable def conditionalMean (i : Nat) (t t' : ℝ) : ℝ := (m.exAt i t' - m.exAt i t) * Real.exp (-m.meanReversion i * t')

/-- `_conditional_variance_x` L925-949, from one time of the grid to the next. -/
noncomputable def conditionalVariance (i : Nat) (t t' : ℝ) : ℝ := (m.varianceAt i t' - m.varianceAt i t) * Real.exp (-2 * m.meanReversion i * t')

/-- `_prepare_grid` L1004-1014 without a supplied grid: zero, the times and the jumps of all parameters. -/
noncomputable def grid (times : List ℝ) : List ℝ :=
  ([0] ++ times ++ (List.range m.dim).flatMap m.volJumps ++ m.corrJumps).insertionSort (· ≤ ·)

/-- The mask L1014, L1026-1029. -/
noncomputable def keepMask (times : List ℝ) : List Bool :=
  (List.range (m.grid times).length).map (fun n => (times.map (fun t => searchLeft (m.grid times) t)).contains n)

/-- The smallest step of a grid, `tf.math.reduce_min(dt)` L702. -/
noncomputable def smallestStep (grid : List ℝ) : ℝ := ((List.zipWith (fun a b : ℝ => a - b) grid.tail grid).min?).getD 0

/-- The correlation matrix at a time, `_get_parameters` L957-979. -/
noncomputable def corrAt (c : List ℝ × List (Nat → Nat → ℝ)) (t : ℝ) : Nat → Nat → ℝ :=
  fun i j => piecewiseConstant c.1 (c.2.map (fun a => a i j)) true t

/-- The draws of the step `n` after L748-749: `corr_matrix_root[n]` times the normals, with the matrices of L700-705. -/
noncomputable def correlated (root : (Nat → Nat → ℝ) → Nat → Nat → ℝ) (grid : List ℝ) (n : Nat) (z : Nat → ℝ) (i : Nat) : ℝ :=
  match m.corr with
  | none => z i
  | some c => ((List.range m.dim).map (fun l => root (corrAt c (grid.getD n 0 + smallestStep grid / 2)) i l * z l)).sum

/-- The body of the sampling loop L738-767, for one factor with its draw. -/
noncomputable def nextState (i : Nat) (t t' x z : ℝ) : ℝ :=
  let vol := Real.sqrt (max (m.conditionalVariance i t t') 0)
  let vol := if vol > 0 then vol else 0
  Real.exp (-m.meanReversion i * (t' - t)) * x + m.conditionalMean i t t' + vol * z

/-- The state after `n` steps, L738-767; `draws n` are the normals of step `n`. -/
noncomputable def state (root : (Nat → Nat → ℝ) → Nat → Nat → ℝ) (grid : List ℝ) (draws : Nat → Nat → ℝ) : Nat → Nat → ℝ
  | 0, _ => 0
  | n + 1, i => m.nextState i (grid.getD n 0) (grid.getD (n + 1) 0) (state root grid draws n i) (m.correlated root grid n (draws n) i)

/-- `_instant_forward_rate_fn` L209-225. -/
noncomputable def instantForwardRate (i : Nat) (t : ℝ) : ℝ := -deriv (fun x => -m.discountRate i x * x) t

/-- `_sample_paths` L641-781 for one path: the rates of all factors at the requested times. -/
noncomputable def samplePath (root : (Nat → Nat → ℝ) → Nat → Nat → ℝ) (times : List ℝ) (draws : Nat → Nat → ℝ) : List (Option (Nat → ℝ)) :=
  let grid := m.grid times
  let rates := (List.range grid.length).map (fun n => fun i => m.state root grid draws n i + m.instantForwardRate i (grid.getD n 0))
  recordLoop times.length (rates.zip (m.keepMask times)) 0 (List.replicate times.length none)

/-- `_bond_reconstitution` L783-814 for a factor. -/
noncomputable def bondReconstitution (i : Nat) (t maturity shortRate y : ℝ) : ℝ :=
  let x := shortRate - m.instantForwardRate i t
  let p0t := Real.exp (-m.discountRate i t * t)
  let p0 := Real.exp (-m.discountRate i maturity * maturity) / p0t
  let g := (1 - Real.exp (-m.meanReversion i * (maturity - t))) / m.meanReversion i
  p0 * Real.exp (-(x * g) - 0.5 * (y * g ^ 2))

/-- `sample_discount_curve_paths` L543-592 for one path: the bond prices of all factors, first by curve time and then by time of the simulation, and
the rates. -/
noncomputable def discountCurvePath (root : (Nat → Nat → ℝ) → Nat → Nat → ℝ) (times curveTimes : List ℝ) (draws : Nat → Nat → ℝ) :
    List (List (Option (Nat → ℝ))) × List (Option (Nat → ℝ)) :=
  let rates := m.samplePath root times draws
  (curveTimes.map (fun tau => List.zipWith (fun t r =>
    r.map (fun r => fun i => m.bondReconstitution i t (t + tau) (r i) (m.computeYt i t))) times rates), rates)

/-- `_vol_fn` L275-289: the volatility times the root of the correlation matrix at the time; without a matrix the identity. -/
noncomputable def volFn (root : (Nat → Nat → ℝ) → Nat → Nat → ℝ) (t : ℝ) (i l : Nat) : ℝ :=
  m.volatility i t * (match m.corr with
    | none => if i = l then 1 else 0
    | some c => root (corrAt c t) i l)

end VectorHullWhite

end Model
