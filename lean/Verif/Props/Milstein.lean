import Verif.Props.Sampling
import Verif.Spec.Normal
import Mathlib.Analysis.Calculus.Deriv.Basic
import Mathlib.Probability.Distributions.Gaussian.Real
import Mathlib.Probability.Moments.Variance

/-! # C59: the Milstein step -/

namespace Lemmas
open Model Spec MeasureTheory ProbabilityTheory
open scoped BigOperators

/-- The expectation of a polynomial of degree two in a standard normal variable. -/
theorem normalExpectation_quadratic (p q r : ℝ) : normalExpectation 0 1 (fun z => p + q * z + r * z ^ 2) = p + r := by
  unfold normalExpectation
  have hone : Real.toNNReal ((1 : ℝ) ^ 2) = 1 := by simp
  rw [hone]
  have hL : MemLp (id : ℝ → ℝ) 2 (gaussianReal 0 1) := memLp_id_gaussianReal 2
  have h1 : Integrable (fun z : ℝ => z) (gaussianReal 0 1) := hL.integrable (by norm_num)
  have h2 : Integrable (fun z : ℝ => z ^ 2) (gaussianReal 0 1) := hL.integrable_sq
  have hm : ∫ z, z ∂(gaussianReal 0 1) = 0 := integral_id_gaussianReal
  have hv : ∫ z, z ^ 2 ∂(gaussianReal 0 1) = 1 := by
    have h3 := variance_of_integral_eq_zero (X := (id : ℝ → ℝ)) (μ := gaussianReal 0 1) hL.aemeasurable hm
    rw [variance_id_gaussianReal] at h3
    simpa using h3.symm
  have hI : ∫ z, (p + q * z + r * z ^ 2) ∂(gaussianReal 0 1) = ∫ z, (p + q * z) ∂(gaussianReal 0 1) + ∫ z, r * z ^ 2 ∂(gaussianReal 0 1) :=
    integral_add ((integrable_const p).add (h1.const_mul q)) (h2.const_mul r)
  have hI' : ∫ z, (p + q * z) ∂(gaussianReal 0 1) = ∫ _, p ∂(gaussianReal 0 1) + ∫ z, q * z ∂(gaussianReal 0 1) :=
    integral_add (integrable_const p) (h1.const_mul q)
  show ∫ z, (p + q * z + r * z ^ 2) ∂(gaussianReal 0 1) = p + r
  rw [hI, hI', integral_const_mul, integral_const_mul, hm, hv]
  simp

end Lemmas

namespace Props
open Model Spec Lemmas
open scoped BigOperators

/-- C59: in one dimension the step is the Milstein step. -/
theorem C59_one_dim (a b : ℝ → ℝ) (x dt z : ℝ) (J : Fin 1 → Fin 1 → ℝ) (hJ : IsStratonovich (fun _ => z * Real.sqrt dt) J) :
    milstein1d z dt x (a x) (b x) (deriv b x) =
      milsteinStep (fun _ => x) (fun _ => a x) (fun _ _ => b x) (fun _ _ _ => deriv b x) dt (fun _ => z * Real.sqrt dt) J 0 := by
  have h := hJ 0 0
  have h' : J 0 0 = z * Real.sqrt dt * (z * Real.sqrt dt) / 2 := by simp only at h; linarith
  simp only [milstein1d, milsteinStep, Fin.sum_univ_one, h']
  ring

/-- C59: in one dimension the mean of the step is that of the Euler step. -/
theorem C59_one_dim_mean (x dt a b b' : ℝ) (hdt : 0 ≤ dt) : normalExpectation 0 1 (fun z => milstein1d z dt x a b b') = x + dt * a := by
  have h : (fun z => milstein1d z dt x a b b') = fun z => (x + dt * a - b * b' * dt / 2) + (b * Real.sqrt dt) * z + (b * b' * dt / 2) * z ^ 2 := by
    funext z
    have hs : Real.sqrt dt * Real.sqrt dt = dt := Real.mul_self_sqrt hdt
    simp only [milstein1d]
    linear_combination b * b' * z ^ 2 / 2 * hs
  rw [h, normalExpectation_quadratic]
  ring

/-- C59: in several dimensions the step is the Milstein step if the volatility does not depend on the state. Missing: other volatilities, see
`C59_diagonal`, `C59_contraction` and `C59_symmetric`. -/
theorem C59_constant_partial {d p : Nat} (z : Fin d → ℝ) (dt : ℝ) (x drift : Fin d → ℝ) (vol : Matrix (Fin d) (Fin d) ℝ)
    (mu zeta eta : Fin d → Fin (p + 1) → ℝ) (J : Fin d → Fin d → ℝ) (k : Fin d) :
    milsteinNd z dt x drift vol (fun _ => 0) mu zeta eta k =
      milsteinStep x drift vol (fun _ _ _ => 0) dt (fun j => z j * Real.sqrt dt) J k := by
  simp only [milsteinNd, stratonovichDriftUpdate, milsteinHot, milsteinStep, Matrix.mulVec, dotProduct, Matrix.mul_apply, Matrix.of_apply, Matrix.zero_apply]
  simp
  ring

/-- C59 (deviation): the correction of the drift lacks the factor one half. If each state has its own Wiener process and a volatility that depends on
this state only, the step is the Milstein step minus half of the product of volatility and derivative times the time step. -/
theorem C59_diagonal {d p : Nat} (z : Fin d → ℝ) (dt : ℝ) (x drift b b' : Fin d → ℝ) (mu zeta eta : Fin d → Fin (p + 1) → ℝ) (J : Fin d → Fin d → ℝ)
    (hJ : IsStratonovich (fun j => z j * Real.sqrt dt) J) (k : Fin d) :
    milsteinNd z dt x drift (Matrix.of fun i j => if i = j then b i else 0) (fun i => Matrix.of fun k j => if i = k ∧ k = j then b' k else 0) mu zeta eta k =
      milsteinStep x drift (fun i j => if i = j then b i else 0) (fun i k j => if i = k ∧ k = j then b' k else 0) dt (fun j => z j * Real.sqrt dt) J k -
        dt * (b k * b' k / 2) := by
  have h := hJ k k
  have h' : J k k = z k * Real.sqrt dt * (z k * Real.sqrt dt) / 2 := by simp only at h; linarith
  have e1 : ∀ i j : Fin d, (if i = k ∧ k = j then b' k else 0) * (if i = j then b i else 0) = if i = k then (if j = k then b' k * b k else 0) else 0 := by
    intro i j
    by_cases h1 : i = k <;> by_cases h2 : j = k
    · subst h1; subst h2; simp
    · subst h1; simp [h2, Ne.symm h2]
    · subst h2; simp [h1]
    · simp [h1]
  have e2 : ∀ i j m : Fin d, (if i = k ∧ k = m then b' k else 0) * (if m = j then b m else 0) =
      if m = k then (if i = k then (if j = k then b' k * b k else 0) else 0) else 0 := by
    intro i j m
    by_cases h1 : i = k <;> by_cases h2 : j = k <;> by_cases h3 : m = k
    all_goals simp_all [eq_comm]
  have e3 : ∀ i j₁ j₂ : Fin d, (if i = j₁ then b i else 0) * (if i = k ∧ k = j₂ then b' k else 0) =
      if i = k then (if j₁ = k then (if j₂ = k then b' k * b k else 0) else 0) else 0 := by
    intro i j₁ j₂
    by_cases h1 : i = k <;> by_cases h2 : j₁ = k <;> by_cases h3 : j₂ = k
    all_goals simp_all [eq_comm, mul_comm]
  have d1 : stratonovichDriftUpdate (Matrix.of fun i j => if i = j then b i else 0) (fun i => Matrix.of fun k j => if i = k ∧ k = j then b' k else 0) k = b' k * b k := by
    unfold stratonovichDriftUpdate
    simp only [Matrix.of_apply, e1]
    simp
  have d2 : milsteinHot (Matrix.of fun i j => if i = j then b i else 0) (fun i => Matrix.of fun k j => if i = k ∧ k = j then b' k else 0) dt (fun j => z j * Real.sqrt dt) mu zeta eta k =
      b' k * b k * (z k * Real.sqrt dt * (z k * Real.sqrt dt) / 2) := by
    simp only [milsteinHot, Matrix.mul_apply, Matrix.of_apply, e2]
    simp only [Finset.sum_ite_eq', Finset.mem_univ, if_true, ite_mul, zero_mul]
    simp
  have d3 : (∑ j, ∑ i, (if i = j then b i else 0) * (if i = k ∧ k = j then b' k else 0)) = b' k * b k := by
    rw [Finset.sum_comm]
    simp only [e3]
    simp
  have d4 : ∑ j₁, ∑ j₂, (∑ i, (if i = j₁ then b i else 0) * (if i = k ∧ k = j₂ then b' k else 0)) * J j₁ j₂ = b' k * b k * J k k := by
    simp only [e3]
    simp only [Finset.sum_ite_eq', Finset.mem_univ, if_true, ite_mul, zero_mul]
    rw [Finset.sum_eq_single k (fun j _ hj => by simp [hj]) (by simp), Finset.sum_eq_single k (fun j _ hj => by simp [hj]) (by simp)]
    simp
  simp only [milsteinNd, milsteinStep, d1, d2, d3, d4, h', Matrix.mulVec, dotProduct, Matrix.of_apply]
  ring

/-- C59 (deviation): so the mean of the step is too low by half of the product of volatility and derivative times the time step, where
`C59_one_dim_mean` has no such term. -/
theorem C59_diagonal_mean {d p : Nat} (z : Fin d → ℝ) (dt : ℝ) (hdt : 0 ≤ dt) (x drift b b' : Fin d → ℝ) (mu zeta eta : Fin d → Fin (p + 1) → ℝ) (k : Fin d) :
    normalExpectation 0 1 (fun zk => milsteinNd (Function.update z k zk) dt x drift (Matrix.of fun i j => if i = j then b i else 0)
      (fun i => Matrix.of fun k j => if i = k ∧ k = j then b' k else 0) mu zeta eta k) = x k + dt * drift k - dt * (b k * b' k / 2) := by
  have h : (fun zk => milsteinNd (Function.update z k zk) dt x drift (Matrix.of fun i j => if i = j then b i else 0)
      (fun i => Matrix.of fun k j => if i = k ∧ k = j then b' k else 0) mu zeta eta k) =
      fun zk => (x k + dt * drift k - b k * b' k * dt) + (b k * Real.sqrt dt) * zk + (b k * b' k * dt / 2) * zk ^ 2 := by
    funext zk
    rw [C59_diagonal _ _ _ _ _ _ _ _ _ (fun i j => Function.update z k zk i * Real.sqrt dt * (Function.update z k zk j * Real.sqrt dt) / 2)
      (by intro i j; ring)]
    have hs : Real.sqrt dt * Real.sqrt dt = dt := Real.mul_self_sqrt hdt
    have e3 : ∀ i j₁ j₂ : Fin d, (if i = j₁ then b i else 0) * (if i = k ∧ k = j₂ then b' k else 0) =
        if i = k then (if j₁ = k then (if j₂ = k then b' k * b k else 0) else 0) else 0 := by
      intro i j₁ j₂
      by_cases h1 : i = k <;> by_cases h2 : j₁ = k <;> by_cases h3 : j₂ = k
      all_goals simp_all [eq_comm, mul_comm]
    have d3 : (∑ j, ∑ i, (if i = j then b i else 0) * (if i = k ∧ k = j then b' k else 0)) = b' k * b k := by
      rw [Finset.sum_comm]
      simp only [e3]
      simp
    simp only [milsteinStep, d3]
    simp only [e3]
    simp only [Finset.sum_ite_eq', Finset.mem_univ, if_true, ite_mul, zero_mul, Finset.sum_ite_eq]
    rw [Finset.sum_eq_single (f := fun j₁ => ∑ _, _) k (fun j _ hj => by simp [hj]) (by simp), Finset.sum_eq_single k (fun j _ hj => by simp [hj]) (by simp)]
    simp only [if_true, Function.update_self]
    linear_combination b k * b' k * zk ^ 2 / 2 * hs
  rw [h, normalExpectation_quadratic]
  ring

/-- C59 (deviation): the symmetric part of the multiple integrals is scaled by the time step once too often. -/
theorem C59_symmetric {d p : Nat} (dt : ℝ) (dw : Fin d → ℝ) (mu zeta eta : Fin d → Fin (p + 1) → ℝ) (i j : Fin d) :
    stratonovichIntegral dt dw mu zeta eta i j + stratonovichIntegral dt dw mu zeta eta j i = dt * (dw i * dw j) := by
  unfold stratonovichIntegral
  have h : (∑ r : Fin (p + 1), (zeta j r * (Real.sqrt 2 * (dw i / Real.sqrt dt) + eta i r) - (Real.sqrt 2 * (dw j / Real.sqrt dt) + eta j r) * zeta i r) *
        (1 / ((r : ℝ) + 1))) =
      -∑ r : Fin (p + 1), (zeta i r * (Real.sqrt 2 * (dw j / Real.sqrt dt) + eta j r) - (Real.sqrt 2 * (dw i / Real.sqrt dt) + eta i r) * zeta j r) *
        (1 / ((r : ℝ) + 1)) := by
    rw [← Finset.sum_neg_distrib]
    apply Finset.sum_congr rfl
    intro r _
    ring
  simp only
  rw [h]
  ring

/-- C59 (deviation): the derivatives of the volatility are contracted with the wrong index. Even with the right multiple integrals the terms of higher
order are wrong. The witness is the SABR model with exponent 0, volatility of volatility 1 and correlation 3/5 at volatility 1. -/
theorem C59_contraction : ∃ (vol : Matrix (Fin 2) (Fin 2) ℝ) (gradVol : Fin 2 → Matrix (Fin 2) (Fin 2) ℝ) (dw : Fin 2 → ℝ)
    (mu zeta eta : Fin 2 → Fin 1 → ℝ) (J : Fin 2 → Fin 2 → ℝ), (J = fun i j => stratonovichIntegral 1 dw mu zeta eta i j) ∧ IsStratonovich dw J ∧
      milsteinHot vol gradVol 1 dw mu zeta eta 0 ≠ ∑ j₁, ∑ j₂, (∑ i, vol i j₁ * gradVol i 0 j₂) * J j₁ j₂ := by
  refine ⟨!![4 / 5, 3 / 5; 0, 1], ![0, !![4 / 5, 3 / 5; 0, 1]], fun _ => 1, fun _ _ => 0, fun _ _ => 0, fun _ _ => 0, _, rfl, ?_, ?_⟩
  · intro i j
    simp only
    rw [C59_symmetric]
    ring
  · have hJ : ∀ i j : Fin 2, stratonovichIntegral (p := 0) 1 (fun _ => 1) (fun _ _ => 0) (fun _ _ => 0) (fun _ _ => 0) i j = 1 / 2 := by
      intro i j
      simp [stratonovichIntegral]
    simp only [milsteinHot, hJ, Matrix.mul_apply, Matrix.of_apply, Fin.sum_univ_two]
    simp
    norm_num

/-- A step of geometric Brownian motion with volatility 1. -/
example : milstein1d 2 1 1 0 1 1 = 9 / 2 := by
  simp [milstein1d]
  norm_num

/-- Two such processes in one call: the same draws give a result that is lower by 1/2 in each component. -/
example (mu zeta eta : Fin 2 → Fin 1 → ℝ) (k : Fin 2) : milsteinNd (fun _ => 2) 1 (fun _ => 1) (fun _ => 0) (Matrix.of fun i j => if i = j then 1 else 0)
    (fun i => Matrix.of fun k j => if i = k ∧ k = j then 1 else 0) mu zeta eta k = 4 := by
  have h := C59_diagonal (fun _ => 2) 1 (fun _ => 1) (fun _ => 0) (fun _ => 1) (fun _ => 1) mu zeta eta (fun _ _ => 2)
    (by intro i j; simp; norm_num) k
  rw [h]
  fin_cases k <;> simp [milsteinStep, Fin.sum_univ_two] <;> norm_num

end Props
