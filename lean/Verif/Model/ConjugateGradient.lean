import Mathlib.Data.Matrix.Mul
import Mathlib.Data.Real.Sqrt
import Mathlib.Algebra.Module.Pi

/-!
# Model of `tf_quant_finance/math/optimizer/conjugate_gradient.py`

Over the reals, one batch dimension. The members of the batch have their own objectives, which return the value and the gradient. The
line search of TensorFlow Probability is any function of the objective along the line, its value at zero, whether it is to be skipped
and the first step; the shrinkage and expansion parameters are part of it. Numbers of evaluations are not modelled, nor are values
that are not finite. `divide_no_nan` is Lean's division.
-/

namespace Model

/-- The objective of one member: value and gradient. -/
abbrev CgObjective (n : Nat) := (Fin n → ℝ) → ℝ × (Fin n → ℝ)

/-- `ValueAndGradient` L104-115. -/
structure LinePoint (n : Nat) where
  x : ℝ
  f : ℝ
  df : ℝ
  gradient : Fin n → ℝ

/-- `ls_func` L343-350. -/
noncomputable def lineFunction {n : Nat} (objective : CgObjective n) (x d : Fin n → ℝ) (alpha : ℝ) : LinePoint n :=
  let point := x + alpha • d
  ⟨alpha, (objective point).1, dotProduct (objective point).2 d, (objective point).2⟩

/-- `_StepGuessResult` L456-470. -/
structure StepGuess (n : Nat) where
  step : LinePoint n
  canTake : Bool
  mayTerminate : Bool

/-- What `_init_step` gets for one member. -/
structure StepInput (n : Nat) where
  pos : LinePoint n
  prevStep : ℝ
  func : ℝ → LinePoint n

/-- L494-500. -/
noncomputable def firstGuess {n : Nat} (psi1 : ℝ) (m : StepInput n) : StepGuess n :=
  let step := m.func (psi1 * m.prevStep)
  ⟨step, decide (step.f > m.pos.f), false⟩

/-- `q_koef` L507. -/
noncomputable def quadCoefficient {n : Nat} (psi1 : ℝ) (m : StepInput n) : ℝ :=
  let step := (firstGuess psi1 m).step
  step.f - m.pos.f - step.x * m.pos.df

/-- `quad_step_success` L504-508. -/
noncomputable def quadSuccess {n : Nat} (psi1 : ℝ) (quadStep : Bool) (m : StepInput n) : Bool :=
  quadStep && decide ((firstGuess psi1 m).step.f ≤ m.pos.f) && decide (quadCoefficient psi1 m > 0)

/-- L510-523; `anySuccess` is `reduce_any(quad_step_success)`. -/
noncomputable def secondGuess {n : Nat} (psi1 : ℝ) (quadStep anySuccess : Bool) (m : StepInput n) : StepGuess n :=
  let result := firstGuess psi1 m
  let success := quadSuccess psi1 quadStep m
  if anySuccess then
    let newX := if success then -0.5 * (m.pos.df * result.step.x ^ 2 / quadCoefficient psi1 m) else result.step.x
    ⟨m.func newX, result.canTake || success, result.mayTerminate || success⟩
  else result

/-- L525-538; `allTake` is `reduce_all(result.can_take)`. The `can_take` of L526 is the one of L495. -/
noncomputable def thirdGuess {n : Nat} (psi1 psi2 : ℝ) (quadStep anySuccess allTake : Bool) (m : StepInput n) : StepGuess n :=
  let result := secondGuess psi1 quadStep anySuccess m
  if allTake then result
  else
    let newX := if (firstGuess psi1 m).canTake then result.step.x else psi2 * m.prevStep
    ⟨m.func newX, true, result.mayTerminate⟩

/-- `_init_step` L473-540. -/
noncomputable def cgInitStep {n : Nat} (psi1 psi2 : ℝ) (quadStep : Bool) (ms : List (StepInput n)) : List (StepGuess n) :=
  let anySuccess := ms.any (quadSuccess psi1 quadStep)
  let allTake := ms.all (fun m => (secondGuess psi1 quadStep anySuccess m).canTake)
  ms.map (thirdGuess psi1 psi2 quadStep anySuccess allTake)

/-- `ConjugateGradientParams` L118-162, without the parameters of the line search. -/
structure CgParams where
  delta : ℝ := 0.1
  sigma : ℝ := 0.9
  eps : ℝ := 1 / 1000000
  eta : ℝ := 0.4
  psi1 : ℝ := 0.2
  psi2 : ℝ := 2
  quadStep : Bool := true

/-- The fields of the result of `linesearch.hager_zhang` that are used. -/
structure LineResult (n : Nat) where
  left : LinePoint n
  converged : Bool
  failed : Bool

/-- `linesearch.hager_zhang`: function, value at zero, `converged` and value at the initial step. -/
abbrev LineSearch (n : Nat) := (ℝ → LinePoint n) → LinePoint n → Bool → LinePoint n → LineResult n

/-- `_OptimizerState` L82-99 for one member. -/
structure CgMember (n : Nat) where
  converged : Bool
  failed : Bool
  position : Fin n → ℝ
  value : ℝ
  gradient : Fin n → ℝ
  direction : Fin n → ℝ
  prevStep : ℝ

/-- The arguments of `minimize` L165-177. -/
structure CgArgs (n : Nat) where
  tolerance : ℝ := 1 / 100000000
  xTolerance : ℝ := 0
  fTolerance : ℝ := 0
  maxIterations : Nat := 50
  stopping : List Bool → List Bool → Bool
  params : CgParams := {}
  search : LineSearch n

/-- `tfp.optimizer.converged_all`. -/
def convergedAll (converged failed : List Bool) : Bool := (List.zipWith (· || ·) converged failed).all id

/-- L312-325 for one member. -/
noncomputable def cgInitial {n : Nat} (a : CgArgs n) (objective : CgObjective n) (x : Fin n → ℝ) : CgMember n :=
  let g := (objective x).2
  ⟨decide (Real.sqrt (dotProduct g g) < a.tolerance), false, x, (objective x).1, g, -g, 1⟩

/-- L358-361: what `_init_step` gets for a member. -/
noncomputable def cgStepInput {n : Nat} (m : CgObjective n × CgMember n) : StepInput n :=
  ⟨⟨0, m.2.value, dotProduct m.2.gradient m.2.direction, m.2.gradient⟩, m.2.prevStep,
    lineFunction m.1 m.2.position m.2.direction⟩

/-- `wolfe` L366-379. -/
noncomputable def wolfe {n : Nat} (p : CgParams) (zero c : LinePoint n) : Bool :=
  let limit := zero.f + p.eps * |zero.f|
  let curvature := decide (c.df ≥ p.sigma * zero.df)
  let wolfe1 := decide (p.delta * zero.df ≥ (c.f - zero.f) / c.x) && curvature
  let wolfe2 := decide ((2 * p.delta - 1) * zero.df ≥ c.df) && curvature && decide (c.f ≤ limit)
  wolfe1 || wolfe2

/-- `d_kp1` L411-419. -/
noncomputable def cgNextDirection {n : Nat} (eta : ℝ) (d g gNext : Fin n → ℝ) : Fin n → ℝ :=
  let y := gNext - g
  let dy := dotProduct d y
  let b := (dotProduct y gNext - dotProduct y y * dotProduct gNext d / dy) / dy
  let etaK := eta * dotProduct d g / dotProduct d d
  let next := -gNext + max b etaK • d
  next

/-- `_norm_inf(x) <= t`. -/
def normInfLe {n : Nat} (x : Fin n → ℝ) (t : ℝ) : Prop := ∀ i, |x i| ≤ t

/-- `_body` L333-440 for one member with its first step. -/
noncomputable def cgMemberStep {n : Nat} (a : CgArgs n) (objective : CgObjective n) (s : CgMember n) (guess : StepGuess n) :
    CgMember n :=
  open Classical in
  let input := cgStepInput (objective, s)
  let skip := (guess.mayTerminate && wolfe a.params input.pos guess.step) || s.failed || s.converged
  let result := a.search input.func input.pos skip guess.step
  let step := if skip then guess.step.x else result.left.x
  let xNext := s.position + step • s.direction
  let fNext := if skip then guess.step.f else result.left.f
  let gNext := if skip then guess.step.gradient else result.left.gradient
  let gradConverged := decide (normInfLe gNext a.tolerance)
  let xConverged := decide (normInfLe (xNext - s.position) a.xTolerance)
  let fConverged := decide (|fNext - s.value| ≤ a.fTolerance * |s.value|)
  ⟨result.converged && (gradConverged || xConverged || fConverged), result.failed,
    if s.converged then s.position else xNext, if s.converged then s.value else fNext,
    if s.converged then s.gradient else gNext, cgNextDirection a.params.eta s.direction s.gradient gNext, step⟩

/-- `_body` L333-440. -/
noncomputable def cgBody {n : Nat} (a : CgArgs n) (ms : List (CgObjective n × CgMember n)) : List (CgObjective n × CgMember n) :=
  List.zipWith (fun (m : CgObjective n × CgMember n) (g : StepGuess n) => (m.1, cgMemberStep a m.1 m.2 g)) ms
    (cgInitStep a.params.psi1 a.params.psi2 a.params.quadStep (ms.map cgStepInput))

/-- The loop L327-331, L443-445: members and number of iterations. -/
noncomputable def cgLoop {n : Nat} (a : CgArgs n) : Nat → Nat × List (CgObjective n × CgMember n) → Nat × List (CgObjective n × CgMember n)
  | 0, s => s
  | fuel + 1, s =>
    if a.stopping (s.2.map (·.2.converged)) (s.2.map (·.2.failed)) then s else cgLoop a fuel (s.1 + 1, cgBody a s.2)

/-- `minimize` L165-453: number of iterations and the members. -/
noncomputable def cgMinimize {n : Nat} (a : CgArgs n) (starts : List (CgObjective n × (Fin n → ℝ))) :
    Nat × List (CgObjective n × CgMember n) :=
  cgLoop a a.maxIterations (0, starts.map (fun (s : CgObjective n × (Fin n → ℝ)) => (s.1, cgInitial a s.1 s.2)))

end Model
