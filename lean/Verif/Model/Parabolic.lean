import Verif.Model.CubicSpline
import Mathlib.Algebra.Order.Floor.Ring

/-!
# Model of `tf_quant_finance/math/pde`: one dimensional steppers and `fd_solvers.py`

One equation per call (the code works on batches), exact numbers. The PDE is `V_t + a (A V)_xx + b (B V)_x + c V = 0`. The callables
that return coefficients are functions of time; what they return is already broadcast to the grid (`_prepare_pde_coeffs`). `none`
is an exception or a zero pivot in the tridiagonal solver. Lists of different length are cut to the shorter one, where TensorFlow
broadcasts or fails; on grids with at least four points all lengths agree.
-/

namespace Model

variable {K : Type} [Field K] [LinearOrder K]

/-- The coefficients `a, b, c, A, B` on the grid at a fixed time. -/
structure PdeCoeffs (K : Type) where
  second : Option (List K)
  first : Option (List K)
  zeroth : Option (List K)
  innerSecond : Option (List K)
  innerFirst : Option (List K)

/-- A boundary condition `alpha V + beta V_n = gamma` at a time; `alpha` and `beta` can be absent. -/
abbrev BoundaryFn (K : Type) := K → Option K × Option K × K

/-- A tridiagonal matrix. The first entry of `lower` and the last entry of `upper` belong to points outside of the matrix. -/
structure Tridiag (K : Type) where
  diag : List K
  upper : List K
  lower : List K

/-- `coord_grid[..., 1:] - coord_grid[..., :-1]`, `parabolic_equation_stepper.py` L180. -/
def gridDeltas (xs : List K) : List K := List.zipWith (fun a b => a - b) (xs.drop 1) xs.dropLast

/-- Multiplication with a slice of a coefficient that may be absent. -/
def scaleBy (slice : List K → List K) (c : Option (List K)) (l : List K) : List K :=
  match c with
  | none => l
  | some c => List.zipWith (fun a b => a * b) l (slice c)

/-- The slices `[1:-1]`, `[2:]`, `[:-2]`. -/
def sliceInner (c : List K) : List K := (c.drop 1).dropLast
def sliceNext (c : List K) : List K := c.drop 2
def slicePrev (c : List K) : List K := c.dropLast.dropLast

/-- The first order term, L254-271. -/
def firstOrderTerm (bd fd sd : List K) (first innerFirst : Option (List K)) : Tridiag K :=
  match first, innerFirst with
  | none, none => ⟨sd.map (fun _ => 0), sd.map (fun _ => 0), sd.map (fun _ => 0)⟩
  | first, innerFirst =>
    let upper := List.zipWith (fun b sf => -b / sf) bd (List.zipWith (fun s f => s * f) sd fd)
    let lower := List.zipWith (fun f sb => f / sb) fd (List.zipWith (fun s b => s * b) sd bd)
    let diag := List.zipWith (fun u l => -u - l) upper lower
    ⟨scaleBy sliceInner innerFirst (scaleBy sliceInner first diag),
     scaleBy sliceNext innerFirst (scaleBy sliceInner first upper),
     scaleBy slicePrev innerFirst (scaleBy sliceInner first lower)⟩

/-- The second order term, L273-290. -/
def secondOrderTerm (bd fd sd : List K) (second innerSecond : Option (List K)) : Tridiag K :=
  match second, innerSecond with
  | none, none => ⟨sd.map (fun _ => 0), sd.map (fun _ => 0), sd.map (fun _ => 0)⟩
  | second, innerSecond =>
    let upper := List.zipWith (fun s f => -2 / (s * f)) sd fd
    let lower := List.zipWith (fun s b => -2 / (s * b)) sd bd
    let diag := List.zipWith (fun u l => -u - l) upper lower
    ⟨scaleBy sliceInner innerSecond (scaleBy sliceInner second diag),
     scaleBy sliceNext innerSecond (scaleBy sliceInner second upper),
     scaleBy slicePrev innerSecond (scaleBy sliceInner second lower)⟩

/-- The matrix for the inner points, L216-294. -/
def innerMatrix (xs : List K) (c : PdeCoeffs K) : Tridiag K :=
  let deltas := gridDeltas xs
  let fd := deltas.drop 1
  let bd := deltas.dropLast
  let sd := List.zipWith (fun f b => f + b) fd bd
  let zeroth := c.zeroth.elim (sd.map (fun _ => (0 : K))) (fun z => (sliceInner z).map (fun v => -v))
  let f := firstOrderTerm bd fd sd c.first c.innerFirst
  let s := secondOrderTerm bd fd sd c.second c.innerSecond
  ⟨List.zipWith (fun a b => a + b) (List.zipWith (fun a b => a + b) zeroth f.diag) s.diag,
   List.zipWith (fun a b => a + b) f.upper s.upper,
   List.zipWith (fun a b => a + b) f.lower s.lower⟩

/-- Entry `k` of `inner_first_order_coeff`, ones if absent (L368-372). -/
def innerCoeffAt (c : PdeCoeffs K) (k : Nat) : K :=
  match c.innerFirst with
  | none => 1
  | some b => b.getD k 0

/-- `extra_first_order_coeff` L373-380 and L413-420. -/
def extraFirstAt (c : PdeCoeffs K) (k : Nat) : K :=
  match c.first, c.innerFirst with
  | none, none => 0
  | none, some _ => 1
  | some b, _ => b.getD k 0

/-- `zeroth_order_coeff` with zero for absent, L329-330. -/
def zerothAt (c : PdeCoeffs K) (k : Nat) : K :=
  match c.zeroth with
  | none => 0
  | some z => z.getD k 0

/-- `_apply_default_lower_boundary` L355-393. It divides by `forward_deltas[..., 0]`, where `forward_deltas` starts with the second
step of the grid. -/
def applyDefaultLower (fd : List K) (c : PdeCoeffs K) (m : Tridiag K) : Tridiag K :=
  let extraUpper := innerCoeffAt c 1 * extraFirstAt c 0 / fd.getD 0 0
  let extraDiag := -innerCoeffAt c 0 * extraFirstAt c 0 / fd.getD 0 0 + zerothAt c 0
  ⟨(-extraDiag) :: m.diag, (-extraUpper) :: m.upper, 0 :: m.lower⟩

/-- `_apply_default_upper_boundary` L396-433, `n` is the number of points. It divides by `backward_deltas[..., -1]`, where
`backward_deltas` ends with the last but one step of the grid. -/
def applyDefaultUpper (n : Nat) (bd : List K) (c : PdeCoeffs K) (m : Tridiag K) : Tridiag K :=
  let b := bd.getD (bd.length - 1) 0
  let extraDiag := innerCoeffAt c (n - 1) * extraFirstAt c (n - 1) / b + zerothAt c (n - 1)
  let extraLower := -innerCoeffAt c (n - 2) * extraFirstAt c (n - 1) / b
  ⟨m.diag ++ [-extraDiag], m.upper ++ [0], m.lower ++ [-extraLower]⟩

/-- `_discretize_boundary_conditions` L616-639: `v0 = xi1 v1 + xi2 v2 + eta`. -/
def discretizeBoundary (dx0 dx1 : K) (bc : Option K × Option K × K) : Option (K × K × K) :=
  match bc with
  | (none, none, _) => none
  | (some alpha, none, gamma) => some (0, 0, gamma / alpha)
  | (alpha, some beta, gamma) =>
    let denom := beta * dx1 * (2 * dx0 + dx1) + alpha.elim 0 (fun a => a * dx0 * dx1 * (dx0 + dx1))
    some (beta * (dx0 + dx1) * (dx0 + dx1) / denom, -beta * dx0 * dx0 / denom, gamma * dx0 * dx1 * (dx0 + dx1) / denom)

/-- `_append_first_and_last`, `_append_first`, `_append_last` L642-661. -/
def appendEnds (first : Option K) (inner : List K) (last : Option K) : List K :=
  first.toList ++ inner ++ last.toList

/-- The inhomogeneous term has the same pattern in all cases, L491-493 and L538-540. -/
def inhomogTerm (first last : K) (diag : List K) : List K :=
  appendEnds (some first) ((sliceInner diag).map (fun _ => 0)) (some last)

/-- The inhomogeneous element of a default or Dirichlet condition, L481-490; `entry` is the matrix entry of the boundary point. -/
def dirichletTerm (entry : K) (b : Option (Option K × Option K × K)) : Option K :=
  b.elim (some 0) (fun b => b.1.map (fun alpha => entry * b.2.2 / alpha))

/-- The corrections of a default or Robin condition, L499-527: diagonal, next diagonal, inhomogeneous element. -/
def robinTerm (entry dx0 dx1 : K) (b : Option (Option K × Option K × K)) : Option (K × K × K) :=
  b.elim (some (0, 0, 0)) (fun b => (discretizeBoundary dx0 dx1 b).map (fun x => (entry * x.1, entry * x.2.1, entry * x.2.2)))

/-- `_apply_robin_boundary_conditions` L436-541. An absent condition is the default. -/
def applyRobin (deltas : List K) (lower upper : Option (BoundaryFn K)) (m : Tridiag K) (t : K) :
    Option (Tridiag K × List K) :=
  match lower, upper with
  | none, none => some (m, m.diag.map (fun _ => 0))
  | lower, upper =>
    let l := lower.map (fun f => f t)
    let u := upper.map (fun f => f t)
    let k := m.diag.length - 1
    if (l.bind (fun b => b.2.1)).isNone ∧ (u.bind (fun b => b.2.1)).isNone then
      (dirichletTerm (m.lower.getD 0 0) l).bind (fun first =>
        (dirichletTerm (m.upper.getD k 0) u).bind (fun last => some (m, inhomogTerm first last m.diag)))
    else
      (robinTerm (m.lower.getD 0 0) (deltas.getD 0 0) (deltas.getD 1 0) l).bind (fun a =>
        (robinTerm (m.upper.getD k 0) (deltas.getD (deltas.length - 1) 0) (deltas.getD (deltas.length - 2) 0) u).bind (fun z =>
          let diag := appendEnds (some (m.diag.getD 0 0 + a.1)) (sliceInner m.diag) (some (m.diag.getD k 0 + z.1))
          some (⟨diag, (m.upper.getD 0 0 + a.2.1) :: m.upper.drop 1, m.lower.dropLast ++ [m.lower.getD k 0 + z.2.1]⟩,
            inhomogTerm a.2.2 z.2.2 diag)))

/-- `_construct_space_discretized_eqn_params` L202-311: matrix `A` and vector `b` of `dv/dt = A v + b`. -/
def equationParams (xs : List K) (lower upper : Option (BoundaryFn K)) (c : K → PdeCoeffs K) (t : K) :
    Option (Tridiag K × List K) :=
  let deltas := gridDeltas xs
  let m := innerMatrix xs (c t)
  let m := if lower.isNone then applyDefaultLower (deltas.drop 1) (c t) m else m
  let m := if upper.isNone then applyDefaultUpper xs.length deltas.dropLast (c t) m else m
  applyRobin deltas lower upper m t

/-- A time marching scheme: values, time, next time, equation parameters. -/
abbrev MarchingScheme (K : Type) := List K → K → K → (K → Option (Tridiag K × List K)) → Option (List K)

/-- `_weighted_scheme_explicit_part`, `weighted_implicit_explicit.py` L169-202. -/
def explicitPart (vec : List K) (m : Tridiag K) (theta t1 t2 : K) : List K :=
  let multiplier := theta * (t2 - t1)
  let diag := m.diag.map (fun d => 1 + multiplier * d)
  let upper := m.upper.map (fun d => multiplier * d)
  let lower := m.lower.map (fun d => multiplier * d)
  let diagPart := List.zipWith (fun d v => d * v) diag vec
  let lowerPart := 0 :: List.zipWith (fun l v => l * v) (lower.drop 1) vec.dropLast
  let upperPart := List.zipWith (fun u v => u * v) upper.dropLast (vec.drop 1) ++ [0]
  List.zipWith (fun a b => a + b) (List.zipWith (fun a b => a + b) lowerPart diagPart) upperPart

/-- `_weighted_scheme_implicit_part` L205-236. -/
def implicitPart (vec : List K) (m : Tridiag K) (theta t1 t2 : K) : Option (List K) :=
  let multiplier := (1 - theta) * (t1 - t2)
  tridiagonalSolve (m.upper.map (fun d => multiplier * d)) (m.diag.map (fun d => 1 + multiplier * d))
    (m.lower.map (fun d => multiplier * d)) vec

/-- `weighted_implicit_explicit_scheme` L90-166. `theta = 0` is fully implicit, `theta = 1` explicit. -/
def weightedScheme (theta : K) : MarchingScheme K := fun values t1 t2 params =>
  if theta < 0 ∨ 1 < theta then none
  else do
    let (m, inhomog) ← params ((t1 + t2) / 2)
    let rhs := if theta = 0 then values else explicitPart values m theta t1 t2
    let rhs := List.zipWith (fun r b => r + b * (t2 - t1)) rhs inhomog
    if theta < 1 then implicitPart rhs m theta t1 t2 else some rhs

/-- `implicit_scheme`, `explicit_scheme`, `crank_nicolson_scheme`. -/
def implicitScheme : MarchingScheme K := weightedScheme 0
def explicitScheme : MarchingScheme K := weightedScheme 1
def crankNicolsonScheme : MarchingScheme K := weightedScheme (1 / 2)

/-- `extrapolation_scheme`, `extrapolation.py` L66-104. -/
def extrapolationScheme : MarchingScheme K := fun values t1 t2 params => do
  let first ← implicitScheme values t1 ((t1 + t2) / 2) params
  let two ← implicitScheme first ((t1 + t2) / 2) t2 params
  let full ← implicitScheme values t1 t2 params
  some (List.zipWith (fun a b => 2 * a - b) two full)

/-- `composite_scheme_step`, `composite_stepper.py` L21-60. -/
def compositeScheme (firstSteps : Nat) (first second : MarchingScheme K) (performed : Nat) : MarchingScheme K :=
  fun values t1 t2 params => if performed < firstSteps then first values t1 t2 params else second values t1 t2 params

/-- The value at a boundary point after a step from the values `v1`, `v2` next to it; nothing for the default condition. -/
def boundaryValue (dx0 dx1 v1 v2 : K) (b : Option (Option K × Option K × K)) : Option (Option K) :=
  b.elim (some none) (fun b => (discretizeBoundary dx0 dx1 b).map (fun x => some (x.1 * v1 + x.2.1 * v2 + x.2.2)))

/-- `_apply_boundary_conditions_after_step` L544-592. -/
def boundaryAfterStep (inner deltas : List K) (lower upper : Option (BoundaryFn K)) (t : K) : Option (List K) :=
  (boundaryValue (deltas.getD 0 0) (deltas.getD 1 0) (inner.getD 0 0) (inner.getD 1 0) (lower.map (fun f => f t))).bind (fun first =>
    (boundaryValue (deltas.getD (deltas.length - 1) 0) (deltas.getD (deltas.length - 2) 0) (inner.getD (inner.length - 1) 0)
      (inner.getD (inner.length - 2) 0) (upper.map (fun f => f t))).bind (fun last => some (appendEnds first inner last)))

/-- `parabolic_equation_step` L21-199. -/
def parabolicStep (time nextTime : K) (xs values : List K) (lower upper : Option (BoundaryFn K)) (c : K → PdeCoeffs K)
    (scheme : MarchingScheme K) : Option (List K) := do
  let inner := if lower.isNone then values else values.drop 1
  let inner := if upper.isNone then inner else inner.dropLast
  let out ← scheme inner time nextTime (equationParams xs lower upper c)
  boundaryAfterStep out (gridDeltas xs) lower upper nextTime

/-! `fd_solvers.py`. The grid and the values on it are one abstract state `G`. -/

/-- `_time_direction_forward_fn` and `_time_direction_backward_fn` L759-766: whether to stop, and the next time. -/
def timeForward (endTime t dt : K) : Bool × K := (decide (endTime ≤ min endTime (t + dt)), min endTime (t + dt))
def timeBackward (endTime t dt : K) : Bool × K := (decide (max endTime (t - dt) ≤ endTime), max endTime (t - dt))

/-- The while loop L677-714: at most `fuel` iterations. -/
def solveLoop {G : Type} (direction : K → K → Bool × K) (timeStep : K → K) (step : K → K → Nat → G → Option G)
    (transform : Option (K → G → G)) : Nat → Bool → K → G → Nat → Option (G × K × Nat)
  | 0, _, t, g, k => some (g, t, k)
  | fuel + 1, stop, t, g, k =>
    if stop then some (g, t, k)
    else do
      let (stop, next) := direction t (timeStep t)
      let g ← step t next k g
      solveLoop direction timeStep step transform fuel stop next (transform.elim g (fun f => f next g)) (k + 1)

/-- `time_step`: a number or a callable. -/
inductive TimeStep (K : Type)
  | const (dt : K)
  | callable (f : K → K) (maximumSteps : Nat)

/-- `_solve` L615-715 with `_get_time_steps_info` L730-756. A callable is used with a bound on the number of iterations; without
`maximum_steps` the code has no bound. -/
def solveWith [FloorRing K] {G : Type} (direction : K → K → K → Bool × K) (startTime endTime : K) (g : G)
    (numSteps : Option Nat) (startStepCount : Nat) (timeStep : Option (TimeStep K)) (step : K → K → Nat → G → Option G)
    (transform : Option (K → G → G)) : Option (G × K × Nat) :=
  let interval := |endTime - startTime|
  match numSteps, timeStep with
  | some n, none => solveLoop (direction endTime) (fun _ => interval / n) step transform n (decide (startTime = endTime))
      startTime g startStepCount
  | none, some (.const dt) => solveLoop (direction endTime) (fun _ => dt) step transform ⌈interval / dt⌉.toNat
      (decide (startTime = endTime)) startTime g startStepCount
  | none, some (.callable f n) => solveLoop (direction endTime) f step transform n (decide (startTime = endTime))
      startTime g startStepCount
  | _, _ => none

/-- `solve_backward` L22-376. -/
def solveBackward [FloorRing K] {G : Type} (startTime endTime : K) (g : G) (numSteps : Option Nat) (startStepCount : Nat)
    (timeStep : Option (TimeStep K)) (step : K → K → Nat → G → Option G) (transform : Option (K → G → G)) :
    Option (G × K × Nat) :=
  solveWith timeBackward startTime (max (min endTime startTime) 0) g numSteps startStepCount timeStep step transform

/-- `solve_forward` L379-612. -/
def solveForward [FloorRing K] {G : Type} (startTime endTime : K) (g : G) (numSteps : Option Nat) (startStepCount : Nat)
    (timeStep : Option (TimeStep K)) (step : K → K → Nat → G → Option G) (transform : Option (K → G → G)) :
    Option (G × K × Nat) :=
  solveWith timeForward startTime (max endTime startTime) g numSteps startStepCount timeStep step transform

end Model
