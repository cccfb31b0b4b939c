import Verif.Model.Gradient
import Mathlib.Analysis.Calculus.FDeriv.Linear
import Mathlib.Analysis.Calculus.FDeriv.Comp
import Mathlib.Analysis.Calculus.FDeriv.Add
import Mathlib.Analysis.Calculus.FDeriv.Mul
import Mathlib.Analysis.Calculus.Deriv.Comp
import Mathlib.Analysis.Calculus.Deriv.Add
import Mathlib.Analysis.Calculus.Deriv.Mul
import Mathlib.Analysis.Calculus.Deriv.Pow
import Mathlib.Analysis.Calculus.Deriv.Pi
import Mathlib.Analysis.Calculus.Deriv.Prod

/-! # C109: gradients and jacobians -/

namespace Props
open Model
open scoped BigOperators

variable {ι κ β : Type} [Fintype ι] [DecidableEq ι] [Fintype κ] [DecidableEq κ] [Fintype β] [DecidableEq β]

namespace Gradient

theorem linear_sum (L : (ι → ℝ) →L[ℝ] ℝ) (u : ι → ℝ) : ∑ j, u j * L (Pi.single j 1) = L u := by
  conv_rhs => rw [show u = ∑ j, u j • (Pi.single j (1 : ℝ) : ι → ℝ) from (pi_eq_sum_univ' u)]
  rw [map_sum]
  refine Finset.sum_congr rfl fun j _ => ?_
  rw [map_smul, smul_eq_mul]

theorem reverse_fderiv (f : (ι → ℝ) → κ → ℝ) (x : ι → ℝ) (w0 : κ → ℝ) (j : ι) (i : κ) :
    fderiv ℝ (fun w => reverseGradient f x w j) w0 (Pi.single i 1) = fderiv ℝ (fun z => f z i) x (Pi.single j 1) := by
  have h : HasFDerivAt (fun w : κ → ℝ => reverseGradient f x w j)
      (∑ k, (fderiv ℝ (fun z => f z k) x (Pi.single j 1)) • (ContinuousLinearMap.proj k : (κ → ℝ) →L[ℝ] ℝ)) w0 := by
    unfold reverseGradient
    refine HasFDerivAt.fun_sum fun k _ => ?_
    have := (ContinuousLinearMap.proj k : (κ → ℝ) →L[ℝ] ℝ).hasFDerivAt (x := w0)
    exact this.mul_const _
  rw [h.fderiv, ContinuousLinearMap.sum_apply]
  rw [Finset.sum_eq_single i]
  · simp
  · intro k _ hk
    simp [Pi.single_apply, hk]
  · simp

end Gradient

/-- **C109.** Two passes of reverse mode give the derivative in the direction of the input gradients, which is the sum of the partial derivatives by default. -/
theorem C109_forward (f : (ι → ℝ) → κ → ℝ) (x : ι → ℝ) (u : Option (ι → ℝ)) (i : κ) :
    fwdGradient f x u i = fderiv ℝ (fun z => f z i) x (u.getD fun _ => 1) ∧
    (DifferentiableAt ℝ (fun z => f z i) x → HasDerivAt (fun t : ℝ => f (fun j => x j + t * u.getD (fun _ => 1) j) i) (fwdGradient f x u i) 0) := by
  have h : fwdGradient f x u i = fderiv ℝ (fun z => f z i) x (u.getD fun _ => 1) := by
    unfold fwdGradient
    rw [reverseGradient]
    rw [← Gradient.linear_sum]
    exact Finset.sum_congr rfl fun j _ => by rw [Gradient.reverse_fderiv]
  refine ⟨h, fun hd => ?_⟩
  rw [h]
  obtain ⟨v, hv⟩ : ∃ v : ι → ℝ, v = u.getD fun _ => 1 := ⟨_, rfl⟩
  rw [← hv]
  have hline : HasDerivAt (fun t : ℝ => (fun j => x j + t * v j : ι → ℝ)) v 0 := by
    refine hasDerivAt_pi.2 fun j => ?_
    have := ((hasDerivAt_id (0 : ℝ)).mul_const (v j)).const_add (x j)
    rwa [one_mul] at this
  have hx : (fun j => x j + 0 * v j) = x := by
    funext j
    ring
  have hf := hd.hasFDerivAt
  rw [← hx] at hf
  have := hf.comp_hasDerivAt (0 : ℝ) hline
  rw [hx] at this
  exact this

/-- **C109.** For a function that acts on the entries one by one, the forward gradient is its derivative in each entry, and so on for the second derivative. -/
theorem C109_elementwise (φ : ℝ → ℝ) (x : ι → ℝ) (i : ι) :
    fwdGradient (fun z j => φ (z j)) x none i = deriv φ (x i) ∧
    fwdGradient (fun z => fwdGradient (fun y j => φ (y j)) z none) x none i = deriv (deriv φ) (x i) := by
  have key : ∀ (ψ : ℝ → ℝ) (x : ι → ℝ) (i : ι), fwdGradient (fun z j => ψ (z j)) x none i = deriv ψ (x i) := by
    intro ψ x i
    rw [(C109_forward _ x none i).1]
    dsimp only [Option.getD_none]
    by_cases hd : DifferentiableAt ℝ ψ (x i)
    · have h1 : HasFDerivAt (fun z : ι → ℝ => z i) (ContinuousLinearMap.proj i : (ι → ℝ) →L[ℝ] ℝ) x := (ContinuousLinearMap.proj i : (ι → ℝ) →L[ℝ] ℝ).hasFDerivAt
      have h2 := hd.hasDerivAt.comp_hasFDerivAt x h1
      rw [show (fun z : ι → ℝ => ψ (z i)) = ψ ∘ fun z : ι → ℝ => z i from rfl, h2.fderiv]
      simp
    · have hn : ¬ DifferentiableAt ℝ (fun z : ι → ℝ => ψ (z i)) x := by
        intro hc
        refine hd ?_
        have h1 : DifferentiableAt ℝ (fun t : ℝ => (Function.update x i t : ι → ℝ)) (x i) := by
          refine differentiableAt_pi.2 fun j => ?_
          by_cases hj : j = i
          · subst hj
            simp
          · simp [Function.update_of_ne hj]
        have h2 : DifferentiableAt ℝ (fun z : ι → ℝ => ψ (z i)) (Function.update x i (x i)) := by rwa [Function.update_eq_self]
        have h3 := h2.comp (x i) h1
        have e : ((fun z : ι → ℝ => ψ (z i)) ∘ fun t : ℝ => (Function.update x i t : ι → ℝ)) = ψ := by
          funext t
          simp
        rwa [e] at h3
      rw [fderiv_zero_of_not_differentiableAt hn, deriv_zero_of_not_differentiableAt hd]
      rfl
  refine ⟨key φ x i, ?_⟩
  have e : (fun z => fwdGradient (fun y j => φ (y j)) z none) = fun (z : ι → ℝ) j => deriv φ (z j) := by
    funext z j
    exact key φ z j
  rw [e]
  exact key (deriv φ) x i

/-- **C109.** The gradients with respect to a list of tensors are, one for each tensor, the partial derivatives of the sum of the values weighted with the output gradients. -/
theorem C109_gradients {n : Nat} {η : Fin n → Type} [∀ k, Fintype (η k)] [∀ k, DecidableEq (η k)] (f : (∀ k, η k → ℝ) → κ → ℝ) (xs : ∀ k, η k → ℝ) (w : Option (κ → ℝ))
    (hf : ∀ i, DifferentiableAt ℝ (fun z => f z i) xs) (k : Fin n) (j : η k) :
    HasDerivAt (fun t : ℝ => ∑ i, w.getD (fun _ => 1) i * f (Function.update xs k (Function.update (xs k) j t)) i) (gradientsMany f xs w k j) (xs k j) ∧
    (valueAndGradientMany f xs w).1 = f xs ∧ (valueAndGradientMany f xs w).2 = gradientsMany f xs w := by
  refine ⟨?_, rfl, rfl⟩
  unfold gradientsMany reverseGradient
  refine HasDerivAt.fun_sum fun i _ => ?_
  refine HasDerivAt.const_mul _ ?_
  have h1 : HasFDerivAt (fun z : η k → ℝ => (Function.update xs k z : ∀ k, η k → ℝ)) (ContinuousLinearMap.pi (Pi.single k (ContinuousLinearMap.id ℝ (η k → ℝ)))) (xs k) :=
    hasFDerivAt_update xs (xs k)
  have h2 : DifferentiableAt ℝ (fun z : η k → ℝ => f (Function.update xs k z) i) (xs k) := by
    have : DifferentiableAt ℝ (fun z => f z i) (Function.update xs k (xs k)) := by
      rw [Function.update_eq_self]
      exact hf i
    exact this.comp (xs k) h1.differentiableAt
  have h3 : HasDerivAt (fun t : ℝ => (Function.update (xs k) j t : η k → ℝ)) (Pi.single j 1) (xs k j) := hasDerivAt_update (xs k) j (xs k j)
  have h4 : HasFDerivAt (fun z : η k → ℝ => f (Function.update xs k z) i) (fderiv ℝ (fun z : η k → ℝ => f (Function.update xs k z) i) (xs k)) (Function.update (xs k) j (xs k j)) := by
    rw [Function.update_eq_self]
    exact h2.hasFDerivAt
  exact h4.comp_hasDerivAt (xs k j) h3

/-- **C109.** For one tensor the gradient is that of the list of one, and `make_val_and_grad_fn` returns the value with it. -/
theorem C109_one (f : (ι → ℝ) → κ → ℝ) (x : ι → ℝ) (w : Option (κ → ℝ)) :
    gradientsOne f x w = reverseGradient f x (w.getD fun _ => 1) ∧ valueAndGradientOne f x w = (f x, gradientsOne f x w) ∧
    makeValAndGradFn f x = (f x, reverseGradient f x fun _ => 1) := by
  have h : ∀ w, gradientsOne f x w = reverseGradient f x (w.getD fun _ => 1) := by
    intro w
    unfold gradientsOne gradientsMany
    simp
  refine ⟨h w, rfl, ?_⟩
  unfold makeValAndGradFn valueAndGradientOne
  rw [h none]
  rfl

/-- **C109.** For a function that acts on the rows of the batch one by one, the result is the jacobian of each row; the value is that of the function. A vector is a batch of one. -/
theorem C109_jacobian (φ : β → (ι → ℝ) → κ → ℝ) (x : β × ι → ℝ) (b : β) (i : κ) (j : ι) (hd : DifferentiableAt ℝ (fun z => φ b z i) fun l => x (b, l)) :
    (valueAndJacobianBatch (fun z p => φ p.1 (fun l => z (p.1, l)) p.2) x).1 (b, i) = φ b (fun l => x (b, l)) i ∧
    (valueAndJacobianBatch (fun z p => φ p.1 (fun l => z (p.1, l)) p.2) x).2 b i j = fderiv ℝ (fun z => φ b z i) (fun l => x (b, l)) (Pi.single j 1) := by
  refine ⟨rfl, ?_⟩
  show reverseGradient (fun z (b' : β) => φ b' (fun l => z (b', l)) i) x (fun _ => 1) (b, j) = _
  unfold reverseGradient
  have hrow : ∀ b', HasFDerivAt (fun z : β × ι → ℝ => (fun l => z (b', l) : ι → ℝ)) (ContinuousLinearMap.pi fun l => (ContinuousLinearMap.proj (b', l) : (β × ι → ℝ) →L[ℝ] ℝ)) x := by
    intro b'
    exact (ContinuousLinearMap.pi fun l => (ContinuousLinearMap.proj (b', l) : (β × ι → ℝ) →L[ℝ] ℝ)).hasFDerivAt
  rw [Finset.sum_eq_single b]
  · have := hd.hasFDerivAt.comp x (hrow b)
    rw [one_mul, show (fun z : β × ι → ℝ => φ b (fun l => z (b, l)) i) = (fun z => φ b z i) ∘ fun z : β × ι → ℝ => (fun l => z (b, l) : ι → ℝ) from rfl, this.fderiv,
      ContinuousLinearMap.comp_apply]
    congr 1
    funext l
    show (Pi.single (b, j) (1 : ℝ) : β × ι → ℝ) (b, l) = (Pi.single j (1 : ℝ) : ι → ℝ) l
    by_cases h : l = j
    · subst h
      simp
    · rw [Pi.single_eq_of_ne h, Pi.single_eq_of_ne]
      simpa using h
  · intro b' _ hb
    rw [one_mul]
    by_cases hdb : DifferentiableAt ℝ (fun z : β × ι → ℝ => φ b' (fun l => z (b', l)) i) x
    · have hline : HasDerivAt (fun t : ℝ => (x + t • (Pi.single (b, j) (1 : ℝ) : β × ι → ℝ))) (Pi.single (b, j) (1 : ℝ)) 0 := by
        have := ((hasDerivAt_id (0 : ℝ)).smul_const (Pi.single (b, j) (1 : ℝ) : β × ι → ℝ)).const_add x
        rwa [one_smul] at this
      have hx : x + (0 : ℝ) • (Pi.single (b, j) (1 : ℝ) : β × ι → ℝ) = x := by simp
      have hfd := hdb.hasFDerivAt
      rw [← hx] at hfd
      have hc := hfd.comp_hasDerivAt (0 : ℝ) hline
      rw [hx] at hc
      have e : ((fun z : β × ι → ℝ => φ b' (fun l => z (b', l)) i) ∘ fun t : ℝ => (x + t • (Pi.single (b, j) (1 : ℝ) : β × ι → ℝ))) = fun _ => φ b' (fun l => x (b', l)) i := by
        funext t
        dsimp only [Function.comp]
        congr 1
        funext l
        show x (b', l) + t * (Pi.single (b, j) (1 : ℝ) : β × ι → ℝ) (b', l) = _
        rw [Pi.single_eq_of_ne (by simp [hb]), mul_zero, add_zero]
      rw [e] at hc
      exact hc.unique (hasDerivAt_const _ _)
    · rw [fderiv_zero_of_not_differentiableAt hdb]
      rfl
  · simp

/-- **C109.** The jacobian of a vector is that of its row. -/
theorem C109_jacobian_vector (φ : (ι → ℝ) → κ → ℝ) (x : ι → ℝ) (i : κ) (j : ι) (hd : DifferentiableAt ℝ (fun z => φ z i) x) :
    (valueAndJacobianVector (fun z p => φ (fun l => z (p.1, l)) p.2) x).1 i = φ x i ∧
    (valueAndJacobianVector (fun z p => φ (fun l => z (p.1, l)) p.2) x).2 i j = fderiv ℝ (fun z => φ z i) x (Pi.single j 1) := by
  exact ⟨rfl, (C109_jacobian (β := Fin 1) (fun _ => φ) (fun p => x p.2) 0 i j hd).2⟩

/-- **Deviation.** The function may be any according to the documentation, but for one that mixes the rows the derivatives of all rows of the result are added: of the
exchange of two rows, in which no row of the result depends on the same row of the argument, the jacobian is one. -/
theorem C109_jacobian_deviates (x : Fin 2 × Fin 1 → ℝ) :
    (valueAndJacobianBatch (β := Fin 2) (ι := Fin 1) (κ := Fin 1) (fun z p => z (1 - p.1, p.2)) x).2 0 0 0 = 1 ∧
    fderiv ℝ (fun z : Fin 2 × Fin 1 → ℝ => z (1 - 0, 0)) x (Pi.single (0, 0) 1) = 0 := by
  have h : ∀ p : Fin 2 × Fin 1, fderiv ℝ (fun z : Fin 2 × Fin 1 → ℝ => z p) x = (ContinuousLinearMap.proj p : (Fin 2 × Fin 1 → ℝ) →L[ℝ] ℝ) := by
    intro p
    exact (ContinuousLinearMap.proj p : (Fin 2 × Fin 1 → ℝ) →L[ℝ] ℝ).fderiv
  constructor
  · show reverseGradient (fun (z : Fin 2 × Fin 1 → ℝ) (b' : Fin 2) => z (1 - b', 0)) x (fun _ => 1) (0, 0) = 1
    unfold reverseGradient
    rw [Fin.sum_univ_two, h, h]
    simp
  · rw [h]
    simp

/-- The example of the documentation: powers of two numbers. -/
example : fwdGradient (fun (t : Fin 2 → ℝ) (p : Fin 3 × Fin 2) => t p.2 ^ (p.1.val + 1)) ![1, 2] none (2, 1) = 12 := by
  rw [(C109_forward _ _ none (2, 1)).1]
  have h1 : HasFDerivAt (fun z : Fin 2 → ℝ => z 1) (ContinuousLinearMap.proj 1 : (Fin 2 → ℝ) →L[ℝ] ℝ) ![1, 2] := (ContinuousLinearMap.proj 1 : (Fin 2 → ℝ) →L[ℝ] ℝ).hasFDerivAt
  have h2 := (hasDerivAt_pow 3 ((![1, 2] : Fin 2 → ℝ) 1)).comp_hasFDerivAt (![1, 2] : Fin 2 → ℝ) h1
  have h3 : HasFDerivAt (fun z : Fin 2 → ℝ => z 1 ^ ((2 : Fin 3).val + 1)) _ ![1, 2] := h2
  rw [h3.fderiv]
  norm_num

/-- The gradient of the sum of squares, and the jacobian of a product. -/
example : (makeValAndGradFn (fun (z : Fin 2 → ℝ) (_ : Fin 1) => z 0 * z 0 + z 1 * z 1) ![3, 5]).2 1 = 10 := by
  rw [(C109_one _ _ none).2.2]
  have h0 : HasFDerivAt (fun z : Fin 2 → ℝ => z 0) (ContinuousLinearMap.proj 0 : (Fin 2 → ℝ) →L[ℝ] ℝ) ![3, 5] := (ContinuousLinearMap.proj 0 : (Fin 2 → ℝ) →L[ℝ] ℝ).hasFDerivAt
  have h1 : HasFDerivAt (fun z : Fin 2 → ℝ => z 1) (ContinuousLinearMap.proj 1 : (Fin 2 → ℝ) →L[ℝ] ℝ) ![3, 5] := (ContinuousLinearMap.proj 1 : (Fin 2 → ℝ) →L[ℝ] ℝ).hasFDerivAt
  have h2 : HasFDerivAt (fun z : Fin 2 → ℝ => z 0 * z 0 + z 1 * z 1) _ ![3, 5] := (h0.mul h0).add (h1.mul h1)
  simp only [reverseGradient, Finset.univ_unique, Finset.sum_singleton, h2.fderiv]
  norm_num

example : (valueAndJacobianVector (ι := Fin 2) (κ := Fin 1) (fun z p => z (p.1, 0) * z (p.1, 1)) ![3, 5]).2 0 0 = 5 := by
  have h0 : HasFDerivAt (fun z : Fin 2 → ℝ => z 0) (ContinuousLinearMap.proj 0 : (Fin 2 → ℝ) →L[ℝ] ℝ) ![3, 5] := (ContinuousLinearMap.proj 0 : (Fin 2 → ℝ) →L[ℝ] ℝ).hasFDerivAt
  have h1 : HasFDerivAt (fun z : Fin 2 → ℝ => z 1) (ContinuousLinearMap.proj 1 : (Fin 2 → ℝ) →L[ℝ] ℝ) ![3, 5] := (ContinuousLinearMap.proj 1 : (Fin 2 → ℝ) →L[ℝ] ℝ).hasFDerivAt
  have h2 : HasFDerivAt (fun z : Fin 2 → ℝ => z 0 * z 1) _ ![3, 5] := h0.mul h1
  rw [(C109_jacobian_vector (fun (z : Fin 2 → ℝ) (_ : Fin 1) => z 0 * z 1) ![3, 5] 0 0 h2.differentiableAt).2, h2.fderiv]
  simp

end Props
