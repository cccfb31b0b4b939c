import Verif.Model.Parabolic

/-! # `tf_quant_finance/math/pde/steppers/oscillation_damped_crank_nicolson.py` and the step of `composite_stepper.py` -/

namespace Model
variable {K : Type} [Field K] [LinearOrder K]

/-- `composite_scheme_step`, `composite_stepper.py` L21-77, as a step of the solver. -/
def compositeStep (xs : List K) (lower upper : Option (BoundaryFn K)) (c : K → PdeCoeffs K) (firstSteps : Nat) (first second : MarchingScheme K)
    (time nextTime : K) (numStepsPerformed : Nat) (values : List K) : Option (List K) :=
  parabolicStep time nextTime xs values lower upper c (compositeScheme firstSteps first second numStepsPerformed)

/-- `oscillation_damped_crank_nicolson_step`, L20-48. -/
def oscillationDampedStep (extrapolationSteps : Nat) (xs : List K) (lower upper : Option (BoundaryFn K)) (c : K → PdeCoeffs K) :
    K → K → Nat → List K → Option (List K) :=
  compositeStep xs lower upper c extrapolationSteps extrapolationScheme crankNicolsonScheme

end Model
