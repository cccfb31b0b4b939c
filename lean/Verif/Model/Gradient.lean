import Mathlib.Analysis.Calculus.FDeriv.Basic
import Mathlib.Analysis.Calculus.FDeriv.Pi
import Mathlib.Analysis.Normed.Module.FiniteDimension

/-!
# Model of `tf_quant_finance/math/gradient.py` and `math/jacobian.py`

A tensor is the function of its indices. `tf.GradientTape.gradient` and `tf.gradients` are the exact derivatives, weighted with the output gradients and summed; both have the
same meaning, so that the choice between them has no counterpart. Tensors that are not connected, for which TensorFlow returns `None` or zeros, are not told from those with
derivative zero.
-/

namespace Model
open scoped BigOperators

variable {ι κ β : Type} [Fintype ι] [DecidableEq ι] [Fintype κ] [DecidableEq κ] [Fintype β] [DecidableEq β]

/-- `tape.gradient(y, x, output_gradients=w)` for `y = f(x)`. -/
noncomputable def reverseGradient (f : (ι → ℝ) → κ → ℝ) (x : ι → ℝ) (w : κ → ℝ) : ι → ℝ :=
  fun j => ∑ i, w i * fderiv ℝ (fun z => f z i) x (Pi.single j 1)

/-- `fwd_gradient`, gradient.py L97-119. -/
noncomputable def fwdGradient (f : (ι → ℝ) → κ → ℝ) (x : ι → ℝ) (inputGradients : Option (ι → ℝ)) : κ → ℝ :=
  let w : κ → ℝ := fun _ => 1
  let g : (κ → ℝ) → ι → ℝ := fun w => reverseGradient f x w
  reverseGradient g w (inputGradients.getD fun _ => 1)

/-- `gradients`, L122-175, with respect to a list of tensors: one gradient each. -/
noncomputable def gradientsMany {n : Nat} {η : Fin n → Type} [∀ k, Fintype (η k)] [∀ k, DecidableEq (η k)] (f : (∀ k, η k → ℝ) → κ → ℝ) (xs : ∀ k, η k → ℝ) (w : Option (κ → ℝ)) :
    ∀ k, η k → ℝ :=
  fun k => reverseGradient (fun z => f (Function.update xs k z)) (xs k) (w.getD fun _ => 1)

/-- `gradients`, L122-175, with respect to one tensor: a list of one, of which the first gradient is returned. -/
noncomputable def gradientsOne (f : (ι → ℝ) → κ → ℝ) (x : ι → ℝ) (w : Option (κ → ℝ)) : ι → ℝ :=
  gradientsMany (n := 1) (η := fun _ => ι) (fun xs => f (xs 0)) (fun _ => x) w 0

/-- `value_and_gradient`, L178-233. -/
noncomputable def valueAndGradientMany {n : Nat} {η : Fin n → Type} [∀ k, Fintype (η k)] [∀ k, DecidableEq (η k)] (f : (∀ k, η k → ℝ) → κ → ℝ) (xs : ∀ k, η k → ℝ)
    (w : Option (κ → ℝ)) : (κ → ℝ) × (∀ k, η k → ℝ) := (f xs, gradientsMany f xs w)

noncomputable def valueAndGradientOne (f : (ι → ℝ) → κ → ℝ) (x : ι → ℝ) (w : Option (κ → ℝ)) : (κ → ℝ) × (ι → ℝ) := (f x, gradientsOne f x w)

/-- `make_val_and_grad_fn`, L236-264. -/
noncomputable def makeValAndGradFn (f : (ι → ℝ) → κ → ℝ) : (ι → ℝ) → (κ → ℝ) × (ι → ℝ) := fun x => valueAndGradientOne f x none

/-- `tape.batch_jacobian`: for each entry of the result the gradient of the sum over the batch. -/
noncomputable def batchJacobian (f : (β × ι → ℝ) → β × κ → ℝ) (x : β × ι → ℝ) : β → κ → ι → ℝ :=
  fun b i j => reverseGradient (fun z (b' : β) => f z (b', i)) x (fun _ => 1) (b, j)

/-- `jacobian`, jacobian.py L42-60, and `value_and_jacobian`, L94-108, of a batch. -/
noncomputable def valueAndJacobianBatch (f : (β × ι → ℝ) → β × κ → ℝ) (x : β × ι → ℝ) : (β × κ → ℝ) × (β → κ → ι → ℝ) := (f x, batchJacobian f x)

/-- The same of a vector, which is given a batch of one, L111-116. -/
noncomputable def valueAndJacobianVector (f : (Fin 1 × ι → ℝ) → Fin 1 × κ → ℝ) (x : ι → ℝ) : (κ → ℝ) × (κ → ι → ℝ) :=
  let z : Fin 1 × ι → ℝ := fun p => x p.2
  (fun i => f z (0, i), batchJacobian f z 0)

end Model
