import Mathlib.Algebra.Field.Defs
import Mathlib.Algebra.Order.Group.Unbundled.Abs
import Mathlib.Algebra.Order.Ring.Defs

/-!
# Model of `tf_quant_finance/math/root_search/newton.py`

A float is an `Option K`: `none` stands for every value that is not finite (NaN and the infinities are collapsed and behave
like NaN: arithmetic on them gives `none`, comparisons are false). `value_and_grad_func` acts on each element of the batch
separately, element `i` having its own function; it may return values that are not finite, and it returns values that are not
finite at a point that is not finite.
-/

namespace Model
variable {K : Type} [Field K] [LinearOrder K]

/-- `value_and_grad_func` at one element. -/
abbrev ValueAndGrad (K : Type) := K → Option K × Option K

/-- Float division: `tf.math.divide`; division by zero is not finite. -/
def fdiv (a b : Option K) : Option K :=
  match a, b with
  | some x, some y => if y = 0 then none else some (x / y)
  | _, _ => none

/-- Float multiplication. -/
def fmul (a b : Option K) : Option K :=
  match a, b with
  | some x, some y => some (x * y)
  | _, _ => none

/-- Float addition. -/
def fadd (a b : Option K) : Option K :=
  match a, b with
  | some x, some y => some (x + y)
  | _, _ => none

/-- Float negation. -/
def fneg (a : Option K) : Option K := a.map (fun x => -x)

/-- Float absolute value. -/
def fabs (a : Option K) : Option K := a.map (fun x => |x|)

/-- Float comparison, false on NaN. -/
def flt (a b : Option K) : Bool :=
  match a, b with
  | some x, some y => decide (x < y)
  | _, _ => false

/-- One element of the loop state: position, `converged` and `failed` flags. -/
structure NewtonCell (K : Type) where
  parameter : Option K
  converged : Bool
  failed : Bool
deriving DecidableEq

/-- Element-wise part of `_updater` L118-132. -/
def newtonCellUpdate (rel tol : K) (f : ValueAndGrad K) (c : NewtonCell K) : NewtonCell K :=
  let vg : Option K × Option K := match c.parameter with
    | some x => f x
    | none => (none, none)
  let delta := fdiv vg.1 vg.2
  let converged := flt (fabs delta) (fadd (fmul (some rel) (fabs vg.1)) (some tol))
  let mask : K := if converged then 0 else 1
  let increment := fmul (fneg (some mask)) delta
  let updated := fadd c.parameter increment
  { parameter := updated
    converged := converged
    failed := updated.isNone }

/-- `_condition` L113-116: some element has neither converged nor failed. -/
def newtonContinue (cells : List (NewtonCell K)) : Bool :=
  !(cells.all (fun c => c.converged || c.failed))

/-- The while loop L138-139: `fuel` is the number of iterations left. -/
def newtonLoop (rel tol : K) (fs : List (ValueAndGrad K)) : Nat → List (NewtonCell K) → List (NewtonCell K)
  | 0, cells => cells
  | fuel + 1, cells =>
    if newtonContinue cells then newtonLoop rel tol fs fuel (List.zipWith (newtonCellUpdate rel tol) fs cells) else cells

/-- `root_finder` L23-139 on a batch of functions and starting points, with both tolerances given. -/
def rootFinder (rel tol : K) (maxIterations : Nat) (fs : List (ValueAndGrad K)) (x0 : List (Option K)) :
    List (NewtonCell K) :=
  newtonLoop rel tol fs maxIterations (x0.map (fun x => ⟨x, false, x.isNone⟩))

end Model
