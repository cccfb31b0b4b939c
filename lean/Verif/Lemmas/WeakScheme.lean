import Verif.Model.Sampling
import Mathlib.Analysis.Calculus.MeanValue
import Mathlib.Analysis.Calculus.Deriv.Comp
import Mathlib.Analysis.Calculus.Deriv.Pow
import Mathlib.Analysis.Calculus.FDeriv.Pi
import Mathlib.Analysis.Calculus.Deriv.Prod
import Mathlib.MeasureTheory.Integral.Prod
import Mathlib.MeasureTheory.Integral.Pi
import Mathlib.MeasureTheory.Constructions.BorelSpace.Basic

/-! # Weak convergence of one step schemes -/

namespace Spec
open Set MeasureTheory
open scoped BigOperators

/-- A solution of the backward equation `∂u/∂t + ∑ b_i ∂u/∂x_i + 1/2 ∑ a_ij ∂²u/∂x_i∂x_j = 0` up to the time `T`, with its derivatives, which grow at most like a
power of the state. -/
structure BackwardSolution {d : ℕ} (b : ℝ → (Fin d → ℝ) → Fin d → ℝ) (a : ℝ → (Fin d → ℝ) → Matrix (Fin d) (Fin d) ℝ) (T : ℝ) (u : ℝ → (Fin d → ℝ) → ℝ) where
  ut : ℝ → (Fin d → ℝ) → ℝ
  utt : ℝ → (Fin d → ℝ) → ℝ
  u1 : Fin d → ℝ → (Fin d → ℝ) → ℝ
  u2 : Fin d → Fin d → ℝ → (Fin d → ℝ) → ℝ
  u3 : Fin d → Fin d → Fin d → ℝ → (Fin d → ℝ) → ℝ
  time1 : ∀ x, ∀ t ∈ Icc 0 T, HasDerivWithinAt (fun s => u s x) (ut t x) (Icc 0 T) t
  time2 : ∀ x, ∀ t ∈ Icc 0 T, HasDerivWithinAt (fun s => ut s x) (utt t x) (Icc 0 T) t
  space1 : ∀ t ∈ Icc 0 T, ∀ x, HasFDerivAt (u t) (∑ i, u1 i t x • ContinuousLinearMap.proj (R := ℝ) (φ := fun _ : Fin d => ℝ) i) x
  space2 : ∀ i, ∀ t ∈ Icc 0 T, ∀ x, HasFDerivAt (u1 i t) (∑ j, u2 i j t x • ContinuousLinearMap.proj (R := ℝ) (φ := fun _ : Fin d => ℝ) j) x
  space3 : ∀ i j, ∀ t ∈ Icc 0 T, ∀ x, HasFDerivAt (u2 i j t) (∑ k, u3 i j k t x • ContinuousLinearMap.proj (R := ℝ) (φ := fun _ : Fin d => ℝ) k) x
  C : ℝ
  m : ℕ
  bound0 : ∀ t ∈ Icc 0 T, ∀ x, |u t x| ≤ C * (1 + ‖x‖) ^ m
  boundt : ∀ t ∈ Icc 0 T, ∀ x, |utt t x| ≤ C * (1 + ‖x‖) ^ m
  bound2 : ∀ i j, ∀ t ∈ Icc 0 T, ∀ x, |u2 i j t x| ≤ C * (1 + ‖x‖) ^ m
  bound3 : ∀ i j k, ∀ t ∈ Icc 0 T, ∀ x, |u3 i j k t x| ≤ C * (1 + ‖x‖) ^ m
  equation : ∀ t ∈ Icc 0 T, ∀ x, ut t x + ∑ i, b t x i * u1 i t x + 1 / 2 * ∑ i, ∑ j, a t x i j * u2 i j t x = 0

end Spec

namespace Lemmas
open Model Spec Set MeasureTheory
open scoped BigOperators

/-- A step whose first two moments agree with those of the process up to the first order in the length of the step. -/
structure WeakStep {d : ℕ} {Z : Type} [MeasurableSpace Z] (ν : Measure Z) (step : ℝ → ℝ → (Fin d → ℝ) → Z → Fin d → ℝ) (b : ℝ → (Fin d → ℝ) → Fin d → ℝ)
    (a : ℝ → (Fin d → ℝ) → Matrix (Fin d) (Fin d) ℝ) (T : ℝ) where
  w : ℝ → (Fin d → ℝ) → Z → Fin d → ℝ
  c : ℝ → (Fin d → ℝ) → Z → Fin d → ℝ
  Y : Z → ℝ
  K : ℝ
  K0 : 0 ≤ K
  Y1 : ∀ z, 1 ≤ Y z
  Ymeas : Measurable Y
  Yint : ∀ n : ℕ, Integrable (fun z => Y z ^ n) ν
  wmeas : ∀ t, Measurable (fun p : (Fin d → ℝ) × Z => w t p.1 p.2)
  cmeas : ∀ t, Measurable (fun p : (Fin d → ℝ) × Z => c t p.1 p.2)
  form : ∀ t dt x z, 0 ≤ dt → step t dt x z = fun i => x i + Real.sqrt dt * w t x z i + dt * c t x z i
  wbound : ∀ t ∈ Icc 0 T, ∀ x z i, |w t x z i| ≤ K * (1 + ‖x‖) * Y z
  cbound : ∀ t ∈ Icc 0 T, ∀ x z i, |c t x z i| ≤ K * (1 + ‖x‖) * Y z
  wmean : ∀ t ∈ Icc 0 T, ∀ x i, ∫ z, w t x z i ∂ν = 0
  wcov : ∀ t ∈ Icc 0 T, ∀ x i j, ∫ z, w t x z i * w t x z j ∂ν = a t x i j
  cmean : ∀ t ∈ Icc 0 T, ∀ x i, ∫ z, c t x z i ∂ν = b t x i

/-! ## Taylor's formula -/

theorem primitive_bound (f f' : ℝ → ℝ) (S M : ℝ) (k : ℕ) (h0 : f 0 = 0) (hd : ∀ s ∈ Icc 0 S, HasDerivWithinAt f (f' s) (Icc 0 S) s)
    (hb : ∀ s ∈ Icc 0 S, |f' s| ≤ M * s ^ k) : ∀ s ∈ Icc 0 S, |f s| ≤ M * s ^ (k + 1) / (k + 1) := by
  intro s hs
  have hk : (k + 1 : ℝ) ≠ 0 := by positivity
  have h := image_norm_le_of_norm_deriv_right_le_deriv_boundary (f := f) (f' := f') (a := 0) (b := S) (fun x hx => (hd x hx).continuousWithinAt)
    (fun x hx => ((hd x ⟨hx.1, hx.2.le⟩).mono_of_mem_nhdsWithin (Icc_mem_nhdsGE_of_mem hx)))
    (B := fun x => M * x ^ (k + 1) / (k + 1)) (B' := fun x => M * x ^ k) (by simp [h0])
    (fun x => by
      have := ((hasDerivAt_pow (k + 1) x).const_mul M).div_const (k + 1 : ℝ)
      refine this.congr_deriv ?_
      push_cast
      field_simp)
    (fun x hx => by rw [Real.norm_eq_abs]; exact hb x ⟨hx.1, hx.2.le⟩) hs
  rwa [Real.norm_eq_abs] at h

/-- Taylor's formula of the second order. -/
theorem taylor_second (f f1 f2 : ℝ → ℝ) (S M : ℝ) (hS : 0 ≤ S) (h1 : ∀ s ∈ Icc 0 S, HasDerivWithinAt f (f1 s) (Icc 0 S) s)
    (h2 : ∀ s ∈ Icc 0 S, HasDerivWithinAt f1 (f2 s) (Icc 0 S) s) (hb : ∀ s ∈ Icc 0 S, |f2 s| ≤ M) :
    |f S - f 0 - S * f1 0| ≤ M * S ^ 2 / 2 := by
  have r1 := primitive_bound (fun s => f1 s - f1 0) f2 S M 0 (by simp) (fun s hs => (h2 s hs).sub_const _) (fun s hs => by simpa using hb s hs)
  have r2 := primitive_bound (fun s => f s - f 0 - s * f1 0) (fun s => f1 s - f1 0) S M 1 (by simp)
    (fun s hs => (((h1 s hs).sub_const _).sub ((hasDerivWithinAt_id s _).mul_const (f1 0))).congr_deriv (by simp))
    (fun s hs => by simpa using r1 s hs) S ⟨hS, le_rfl⟩
  norm_num at r2
  exact r2

/-- Taylor's formula of the third order. -/
theorem taylor_third (f f1 f2 f3 : ℝ → ℝ) (S M : ℝ) (hS : 0 ≤ S) (h1 : ∀ s ∈ Icc 0 S, HasDerivWithinAt f (f1 s) (Icc 0 S) s)
    (h2 : ∀ s ∈ Icc 0 S, HasDerivWithinAt f1 (f2 s) (Icc 0 S) s) (h3 : ∀ s ∈ Icc 0 S, HasDerivWithinAt f2 (f3 s) (Icc 0 S) s) (hb : ∀ s ∈ Icc 0 S, |f3 s| ≤ M) :
    |f S - f 0 - S * f1 0 - S ^ 2 / 2 * f2 0| ≤ M * S ^ 3 / 6 := by
  have r0 := primitive_bound (fun s => f2 s - f2 0) f3 S M 0 (by simp) (fun s hs => (h3 s hs).sub_const _) (fun s hs => by simpa using hb s hs)
  have r1 := primitive_bound (fun s => f1 s - f1 0 - s * f2 0) (fun s => f2 s - f2 0) S M 1 (by simp)
    (fun s hs => (((h2 s hs).sub_const _).sub ((hasDerivWithinAt_id s _).mul_const (f2 0))).congr_deriv (by simp)) (fun s hs => by simpa using r0 s hs)
  have r2 := primitive_bound (fun s => f s - f 0 - s * f1 0 - s ^ 2 / 2 * f2 0) (fun s => f1 s - f1 0 - s * f2 0) S (M / 2) 2 (by simp)
    (fun s hs => by
      have e1 := ((h1 s hs).sub_const (f 0)).sub ((hasDerivWithinAt_id s (Icc 0 S)).mul_const (f1 0))
      have e2 := ((((hasDerivAt_pow 2 s).div_const 2).mul_const (f2 0))).hasDerivWithinAt (s := Icc 0 S)
      refine (e1.sub e2).congr_deriv ?_
      simp)
    (fun s hs => by
      have := r1 s hs
      norm_num at this
      rw [div_mul_eq_mul_div]
      exact this) S ⟨hS, le_rfl⟩
  refine r2.trans (le_of_eq ?_)
  push_cast
  ring

variable {d : ℕ}

/-- The curve from the state to the next state. -/
def curve (x w c : Fin d → ℝ) (s : ℝ) (i : Fin d) : ℝ := x i + s * w i + s ^ 2 * c i

theorem curve_deriv (x w c : Fin d → ℝ) (s : ℝ) : HasDerivAt (curve x w c) (fun i => w i + 2 * s * c i) s := by
  rw [hasDerivAt_pi]
  intro i
  have h := (((hasDerivAt_id s).mul_const (w i)).const_add (x i)).add ((hasDerivAt_pow 2 s).mul_const (c i))
  refine h.congr_deriv ?_
  simp

theorem along_curve (g : (Fin d → ℝ) → ℝ) (g1 : Fin d → (Fin d → ℝ) → ℝ)
    (hg : ∀ x, HasFDerivAt g (∑ i, g1 i x • ContinuousLinearMap.proj (R := ℝ) (φ := fun _ : Fin d => ℝ) i) x) (x w c : Fin d → ℝ) (s : ℝ) :
    HasDerivAt (fun s => g (curve x w c s)) (∑ i, g1 i (curve x w c s) * (w i + 2 * s * c i)) s := by
  have h := (hg (curve x w c s)).comp_hasDerivAt s (curve_deriv x w c s)
  refine h.congr_deriv ?_
  simp

theorem slope_deriv (w c : Fin d → ℝ) (s : ℝ) (i : Fin d) : HasDerivAt (fun s : ℝ => w i + 2 * s * c i) (2 * c i) s := by
  have h := (((hasDerivAt_id s).const_mul 2).mul_const (c i)).const_add (w i)
  refine h.congr_deriv ?_
  simp

/-- The expansion of a function along a step. -/
theorem curve_expansion (g : (Fin d → ℝ) → ℝ) (g1 : Fin d → (Fin d → ℝ) → ℝ) (g2 : Fin d → Fin d → (Fin d → ℝ) → ℝ) (g3 : Fin d → Fin d → Fin d → (Fin d → ℝ) → ℝ)
    (h1 : ∀ x, HasFDerivAt g (∑ i, g1 i x • ContinuousLinearMap.proj (R := ℝ) (φ := fun _ : Fin d => ℝ) i) x)
    (h2 : ∀ i x, HasFDerivAt (g1 i) (∑ j, g2 i j x • ContinuousLinearMap.proj (R := ℝ) (φ := fun _ : Fin d => ℝ) j) x)
    (h3 : ∀ i j x, HasFDerivAt (g2 i j) (∑ k, g3 i j k x • ContinuousLinearMap.proj (R := ℝ) (φ := fun _ : Fin d => ℝ) k) x)
    (C R : ℝ) (m : ℕ) (hC : 0 ≤ C) (hb2 : ∀ i j x, |g2 i j x| ≤ C * (1 + ‖x‖) ^ m) (hb3 : ∀ i j k x, |g3 i j k x| ≤ C * (1 + ‖x‖) ^ m)
    (x w c : Fin d → ℝ) (S : ℝ) (hS : 0 ≤ S) (hR1 : 1 ≤ R) (hγ : ∀ s ∈ Icc 0 S, 1 + ‖curve x w c s‖ ≤ R) (hγ' : ∀ s ∈ Icc 0 S, ∀ i, |w i + 2 * s * c i| ≤ R)
    (hc : ∀ i, |2 * c i| ≤ R) :
    |g (curve x w c S) - g x - S * ∑ i, g1 i x * w i - S ^ 2 / 2 * (∑ i, g1 i x * (2 * c i) + ∑ i, ∑ j, g2 i j x * w i * w j)| ≤
      C * (3 * d ^ 2 + d ^ 3) * R ^ (m + 3) * S ^ 3 / 6 := by
  have hx : curve x w c 0 = x := by funext i; simp [curve]
  have t := taylor_third (fun s => g (curve x w c s)) (fun s => ∑ i, g1 i (curve x w c s) * (w i + 2 * s * c i))
    (fun s => ∑ i, ((∑ j, g2 i j (curve x w c s) * (w j + 2 * s * c j)) * (w i + 2 * s * c i) + g1 i (curve x w c s) * (2 * c i)))
    (fun s => ∑ i, (((∑ j, ((∑ k, g3 i j k (curve x w c s) * (w k + 2 * s * c k)) * (w j + 2 * s * c j) + g2 i j (curve x w c s) * (2 * c j))) * (w i + 2 * s * c i) +
        (∑ j, g2 i j (curve x w c s) * (w j + 2 * s * c j)) * (2 * c i)) + (∑ j, g2 i j (curve x w c s) * (w j + 2 * s * c j)) * (2 * c i)))
    S (C * (3 * d ^ 2 + d ^ 3) * R ^ (m + 3)) hS
    (fun s _ => (along_curve g g1 h1 x w c s).hasDerivWithinAt)
    (fun s _ => by
      refine HasDerivAt.hasDerivWithinAt ?_
      have := HasDerivAt.fun_sum (u := Finset.univ) fun i _ => (along_curve (g1 i) (g2 i) (h2 i) x w c s).mul (slope_deriv w c s i)
      exact this)
    (fun s _ => by
      refine HasDerivAt.hasDerivWithinAt ?_
      have e : ∀ i, HasDerivAt (fun s => ∑ j, g2 i j (curve x w c s) * (w j + 2 * s * c j))
          (∑ j, ((∑ k, g3 i j k (curve x w c s) * (w k + 2 * s * c k)) * (w j + 2 * s * c j) + g2 i j (curve x w c s) * (2 * c j))) s := fun i =>
        HasDerivAt.fun_sum (u := Finset.univ) fun j _ => (along_curve (g2 i j) (g3 i j) (h3 i j) x w c s).mul (slope_deriv w c s j)
      have := HasDerivAt.fun_sum (u := Finset.univ) fun i _ => ((e i).mul (slope_deriv w c s i)).add ((along_curve (g1 i) (g2 i) (h2 i) x w c s).mul_const (2 * c i))
      exact this)
    (fun s hs => by
      have hR0 : 0 ≤ R := by linarith
      set G := C * R ^ m with hG
      have hG0 : 0 ≤ G := by positivity
      have g2b : ∀ i j, |g2 i j (curve x w c s)| ≤ G := fun i j => (hb2 i j _).trans
        (mul_le_mul_of_nonneg_left (pow_le_pow_left₀ (by positivity) (hγ s hs) m) hC)
      have g3b : ∀ i j k, |g3 i j k (curve x w c s)| ≤ G := fun i j k => (hb3 i j k _).trans
        (mul_le_mul_of_nonneg_left (pow_le_pow_left₀ (by positivity) (hγ s hs) m) hC)
      have hv := hγ' s hs
      have b1 : ∀ i, |∑ j, g2 i j (curve x w c s) * (w j + 2 * s * c j)| ≤ d * (G * R) := fun i => by
        refine (Finset.abs_sum_le_sum_abs _ _).trans ?_
        refine (Finset.sum_le_card_nsmul _ _ (G * R) fun j _ => ?_).trans (by simp)
        rw [abs_mul]
        exact mul_le_mul (g2b i j) (hv j) (abs_nonneg _) hG0
      have b2 : ∀ i j, |∑ k, g3 i j k (curve x w c s) * (w k + 2 * s * c k)| ≤ d * (G * R) := fun i j => by
        refine (Finset.abs_sum_le_sum_abs _ _).trans ?_
        refine (Finset.sum_le_card_nsmul _ _ (G * R) fun k _ => ?_).trans (by simp)
        rw [abs_mul]
        exact mul_le_mul (g3b i j k) (hv k) (abs_nonneg _) hG0
      have b3 : ∀ i, |∑ j, ((∑ k, g3 i j k (curve x w c s) * (w k + 2 * s * c k)) * (w j + 2 * s * c j) + g2 i j (curve x w c s) * (2 * c j))| ≤
          d * (d * (G * R) * R + G * R) := fun i => by
        refine (Finset.abs_sum_le_sum_abs _ _).trans ?_
        refine (Finset.sum_le_card_nsmul _ _ (d * (G * R) * R + G * R) fun j _ => ?_).trans (by simp [mul_add])
        refine (abs_add_le _ _).trans ?_
        rw [abs_mul, abs_mul (g2 i j _)]
        exact add_le_add (mul_le_mul (b2 i j) (hv j) (abs_nonneg _) (by positivity)) (mul_le_mul (g2b i j) (hc j) (abs_nonneg _) hG0)
      refine (Finset.abs_sum_le_sum_abs _ _).trans ?_
      refine (Finset.sum_le_card_nsmul _ _ (d * (d * (G * R) * R + G * R) * R + d * (G * R) * R + d * (G * R) * R) fun i _ => ?_).trans ?_
      · refine (abs_add_le _ _).trans (add_le_add ((abs_add_le _ _).trans (add_le_add ?_ ?_)) ?_)
        · rw [abs_mul]
          exact mul_le_mul (b3 i) (hv i) (abs_nonneg _) (by positivity)
        · rw [abs_mul]
          exact mul_le_mul (b1 i) (hc i) (abs_nonneg _) (by positivity)
        · rw [abs_mul]
          exact mul_le_mul (b1 i) (hc i) (abs_nonneg _) (by positivity)
      · simp only [Finset.card_univ, Fintype.card_fin, nsmul_eq_mul]
        have e1 : (d : ℝ) * (d * (d * (G * R) * R + G * R) * R + d * (G * R) * R + d * (G * R) * R) = G * d ^ 3 * R ^ 3 + 3 * (G * d ^ 2 * R ^ 2) := by ring
        have e2 : C * (3 * d ^ 2 + d ^ 3) * R ^ (m + 3) = G * d ^ 3 * R ^ 3 + 3 * (G * d ^ 2 * R ^ 3) := by rw [hG, pow_add]; ring
        rw [e1, e2]
        have : R ^ 2 ≤ R ^ 3 := pow_le_pow_right₀ hR1 (by norm_num)
        have := mul_le_mul_of_nonneg_left this (show 0 ≤ G * d ^ 2 by positivity)
        linarith)
  simp only [hx] at t
  refine le_trans (le_of_eq ?_) t
  congr 1
  simp only [mul_zero, zero_mul, add_zero, Finset.sum_add_distrib, Finset.sum_mul]
  congr 1
  rw [add_comm]
  congr 2
  refine Finset.sum_congr rfl fun i _ => Finset.sum_congr rfl fun j _ => ?_
  ring

/-! ## One step -/

section Step
variable {Z : Type} [MeasurableSpace Z] {ν : Measure Z} {step : ℝ → ℝ → (Fin d → ℝ) → Z → Fin d → ℝ} {b : ℝ → (Fin d → ℝ) → Fin d → ℝ}
  {a : ℝ → (Fin d → ℝ) → Matrix (Fin d) (Fin d) ℝ} {T : ℝ}

/-- A bound for everything that occurs along a step. -/
noncomputable def WeakStep.radius (p : WeakStep ν step b a T) (x : Fin d → ℝ) (z : Z) : ℝ := (1 + 2 * p.K + 2 * Real.sqrt T * p.K + T * p.K) * (1 + ‖x‖) * p.Y z

theorem step_radius (p : WeakStep ν step b a T) (t : ℝ) (ht : t ∈ Icc 0 T) (x : Fin d → ℝ) (z : Z) (S : ℝ) (hS : S ≤ Real.sqrt T) :
    1 ≤ p.radius x z ∧ (∀ s ∈ Icc 0 S, 1 + ‖curve x (p.w t x z) (p.c t x z) s‖ ≤ p.radius x z) ∧
    (∀ s ∈ Icc 0 S, ∀ i, |p.w t x z i + 2 * s * p.c t x z i| ≤ p.radius x z) ∧ ∀ i, |2 * p.c t x z i| ≤ p.radius x z := by
  have hT : 0 ≤ T := ht.1.trans ht.2
  have hK := p.K0
  have hY := p.Y1 z
  have hx := norm_nonneg x
  set X := (1 + ‖x‖) * p.Y z with hX
  have hX1 : 1 + ‖x‖ ≤ X := by rw [hX]; nlinarith
  have hτ := Real.sqrt_nonneg T
  have hτ2 := Real.sq_sqrt hT
  set τ := Real.sqrt T
  have hr : p.radius x z = X + 2 * (p.K * X) + 2 * τ * (p.K * X) + T * (p.K * X) := by
    rw [WeakStep.radius, hX]; ring
  have hKX : 0 ≤ p.K * X := mul_nonneg hK (by linarith)
  have hw : ∀ i, |p.w t x z i| ≤ p.K * X := fun i => (p.wbound t ht x z i).trans (le_of_eq (by rw [hX]; ring))
  have hc : ∀ i, |p.c t x z i| ≤ p.K * X := fun i => (p.cbound t ht x z i).trans (le_of_eq (by rw [hX]; ring))
  have q1 : 0 ≤ τ * (p.K * X) := mul_nonneg hτ hKX
  have q2 : 0 ≤ T * (p.K * X) := mul_nonneg hT hKX
  rw [hr]
  refine ⟨by linarith, fun s hs => ?_, fun s hs i => ?_, fun i => ?_⟩
  · have hsτ : s ≤ τ := hs.2.trans hS
    have hs2 : s ^ 2 ≤ T := by rw [← hτ2]; exact pow_le_pow_left₀ hs.1 hsτ 2
    have : ‖curve x (p.w t x z) (p.c t x z) s‖ ≤ ‖x‖ + τ * (p.K * X) + T * (p.K * X) := by
      rw [pi_norm_le_iff_of_nonneg (by positivity)]
      intro i
      rw [Real.norm_eq_abs, curve]
      refine (abs_add_le _ _).trans (add_le_add ((abs_add_le _ _).trans (add_le_add ?_ ?_)) ?_)
      · rw [← Real.norm_eq_abs]; exact norm_le_pi_norm x i
      · rw [abs_mul, abs_of_nonneg hs.1]
        exact mul_le_mul hsτ (hw i) (abs_nonneg _) hτ
      · rw [abs_mul, abs_of_nonneg (sq_nonneg s)]
        exact mul_le_mul hs2 (hc i) (abs_nonneg _) hT
    linarith
  · have hsτ : s ≤ τ := hs.2.trans hS
    refine (abs_add_le _ _).trans ?_
    rw [abs_mul, abs_of_nonneg (by linarith [hs.1] : (0 : ℝ) ≤ 2 * s)]
    have h1 := hw i
    have h2 : 2 * s * |p.c t x z i| ≤ 2 * τ * (p.K * X) := mul_le_mul (by linarith) (hc i) (abs_nonneg _) (by linarith)
    linarith
  · rw [abs_mul, abs_of_pos (by norm_num : (0 : ℝ) < 2)]
    have := hc i
    linarith

theorem WeakStep.measurable (p : WeakStep ν step b a T) (t dt : ℝ) (hdt : 0 ≤ dt) : Measurable (fun q : (Fin d → ℝ) × Z => step t dt q.1 q.2) := by
  have e : (fun q : (Fin d → ℝ) × Z => step t dt q.1 q.2) = fun q i => q.1 i + Real.sqrt dt * p.w t q.1 q.2 i + dt * p.c t q.1 q.2 i := by
    funext q
    rw [p.form t dt q.1 q.2 hdt]
  rw [e]
  refine measurable_pi_lambda _ fun i => ?_
  have h1 := (measurable_pi_apply i).comp (p.wmeas t)
  have h2 := (measurable_pi_apply i).comp (p.cmeas t)
  have h3 : Measurable (fun q : (Fin d → ℝ) × Z => q.1 i) := (measurable_pi_apply i).comp measurable_fst
  exact (h3.add (h1.const_mul _)).add (h2.const_mul _)

theorem step_curve (p : WeakStep ν step b a T) (t dt : ℝ) (hdt : 0 ≤ dt) (x : Fin d → ℝ) (z : Z) : step t dt x z = curve x (p.w t x z) (p.c t x z) (Real.sqrt dt) := by
  rw [p.form t dt x z hdt]
  funext i
  rw [curve, Real.sq_sqrt hdt]

theorem radius_pow (p : WeakStep ν step b a T) (x : Fin d → ℝ) (n : ℕ) :
    Integrable (fun z => p.radius x z ^ n) ν ∧ ∫ z, p.radius x z ^ n ∂ν = ((1 + 2 * p.K + 2 * Real.sqrt T * p.K + T * p.K) * (1 + ‖x‖)) ^ n * ∫ z, p.Y z ^ n ∂ν := by
  have e : (fun z => p.radius x z ^ n) = fun z => ((1 + 2 * p.K + 2 * Real.sqrt T * p.K + T * p.K) * (1 + ‖x‖)) ^ n * p.Y z ^ n := by
    funext z
    rw [WeakStep.radius, mul_pow]
  rw [e]
  exact ⟨(p.Yint n).const_mul _, integral_const_mul _ _⟩

/-- A function that grows with the powers of the state. -/
def lyapunov (n : ℕ) (x : Fin d → ℝ) : ℝ := 1 + ∑ i, x i ^ n

theorem lyapunov_ge (n : ℕ) (hn : Even n) (x : Fin d → ℝ) : (1 + ‖x‖) ^ n ≤ 2 ^ n * lyapunov n x := by
  have h0 : ∀ i, 0 ≤ x i ^ n := fun i => hn.pow_nonneg _
  have hmax : ‖x‖ ^ n ≤ lyapunov n x := by
    unfold lyapunov
    rcases isEmpty_or_nonempty (Fin d) with he | he
    · have : ‖x‖ = 0 := by rw [norm_eq_zero]; exact Subsingleton.elim _ _
      rw [this]
      have h1 : (0 : ℝ) ^ n ≤ 1 := pow_le_one₀ le_rfl zero_le_one
      have := Finset.sum_nonneg fun i (_ : i ∈ Finset.univ) => h0 i
      linarith
    · obtain ⟨i, _, hi⟩ := Finset.exists_mem_eq_sup Finset.univ Finset.univ_nonempty (fun i => ‖x i‖₊)
      have h2 : ‖x‖ = |x i| := by rw [Pi.norm_def, hi]; simp
      rw [h2, hn.pow_abs]
      have := Finset.single_le_sum (f := fun i => x i ^ n) (fun i _ => h0 i) (Finset.mem_univ i)
      linarith
  have h1 : 1 ≤ lyapunov n x := by
    have := Finset.sum_nonneg fun i (_ : i ∈ Finset.univ) => h0 i
    unfold lyapunov
    linarith
  rcases le_total ‖x‖ 1 with h | h
  · calc (1 + ‖x‖) ^ n ≤ 2 ^ n := pow_le_pow_left₀ (by positivity) (by linarith) n
      _ ≤ 2 ^ n * lyapunov n x := le_mul_of_one_le_right (by positivity) h1
  · calc (1 + ‖x‖) ^ n ≤ (2 * ‖x‖) ^ n := pow_le_pow_left₀ (by positivity) (by linarith) n
      _ = 2 ^ n * ‖x‖ ^ n := mul_pow _ _ _
      _ ≤ 2 ^ n * lyapunov n x := mul_le_mul_of_nonneg_left hmax (by positivity)

theorem lyapunov_one (n : ℕ) (hn : Even n) (x : Fin d → ℝ) : 1 ≤ lyapunov n x := by
  have := Finset.sum_nonneg fun i (_ : i ∈ Finset.univ) => hn.pow_nonneg (x i)
  unfold lyapunov
  linarith

theorem lyapunov_pow (n k : ℕ) (hn : Even n) (hk : k ≤ n) (x : Fin d → ℝ) : (1 + ‖x‖) ^ k ≤ 2 ^ n * lyapunov n x :=
  (pow_le_pow_right₀ (by linarith [norm_nonneg x]) hk).trans (lyapunov_ge n hn x)

/-- The expansion of a power of a coordinate along a step. -/
theorem power_expansion (n : ℕ) (x w c S R : ℝ) (hS : 0 ≤ S) (hγ : ∀ s ∈ Icc 0 S, |x + s * w + s ^ 2 * c| ≤ R) (hγ' : ∀ s ∈ Icc 0 S, |w + 2 * s * c| ≤ R)
    (hc : |2 * c| ≤ R) : |(x + S * w + S ^ 2 * c) ^ (n + 2) - x ^ (n + 2) - S * ((n + 2) * x ^ (n + 1) * w)| ≤ (n + 2) ^ 2 * R ^ (n + 2) * S ^ 2 / 2 := by
  have hd : ∀ s : ℝ, HasDerivAt (fun s => x + s * w + s ^ 2 * c) (w + 2 * s * c) s := fun s => by
    have h := (((hasDerivAt_id s).mul_const w).const_add x).add ((hasDerivAt_pow 2 s).mul_const c)
    refine h.congr_deriv ?_
    simp
  have hd' : ∀ s : ℝ, HasDerivAt (fun s : ℝ => w + 2 * s * c) (2 * c) s := fun s => by
    have h := (((hasDerivAt_id s).const_mul 2).mul_const c).const_add w
    refine h.congr_deriv ?_
    simp
  have hR : 0 ≤ R := (abs_nonneg _).trans hc
  have t := taylor_second (fun s => (x + s * w + s ^ 2 * c) ^ (n + 2)) (fun s => (n + 2) * (x + s * w + s ^ 2 * c) ^ (n + 1) * (w + 2 * s * c))
    (fun s => (n + 2) * ((n + 1) * (x + s * w + s ^ 2 * c) ^ n * (w + 2 * s * c)) * (w + 2 * s * c) + (n + 2) * (x + s * w + s ^ 2 * c) ^ (n + 1) * (2 * c))
    S ((n + 2) ^ 2 * R ^ (n + 2)) hS
    (fun s _ => by
      have h := (hd s).pow (n + 2)
      refine (h.congr_deriv ?_).hasDerivWithinAt
      push_cast
      rfl)
    (fun s _ => by
      have h := (((hd s).pow (n + 1)).const_mul ((n : ℝ) + 2)).mul (hd' s)
      refine (h.congr_deriv ?_).hasDerivWithinAt
      push_cast
      simp)
    (fun s hs => by
      have h1 := hγ s hs
      have h2 := hγ' s hs
      refine (abs_add_le _ _).trans ?_
      simp only [abs_mul, abs_pow]
      rw [abs_of_nonneg (by positivity : (0 : ℝ) ≤ n + 2), abs_of_nonneg (by positivity : (0 : ℝ) ≤ n + 1)]
      rw [abs_mul] at hc
      have e1 : ((n : ℝ) + 2) * ((n + 1) * |x + s * w + s ^ 2 * c| ^ n * |w + 2 * s * c|) * |w + 2 * s * c| ≤ (n + 2) * ((n + 1) * R ^ n * R) * R := by gcongr
      have e2 : ((n : ℝ) + 2) * |x + s * w + s ^ 2 * c| ^ (n + 1) * (|2| * |c|) ≤ (n + 2) * R ^ (n + 1) * R := by gcongr
      refine (add_le_add e1 e2).trans (le_of_eq ?_)
      ring)
  simpa using t

/-- The growth rate of the moments. -/
noncomputable def WeakStep.rate (p : WeakStep ν step b a T) (n : ℕ) : ℝ :=
  d * ((n : ℝ) ^ 2 * ((1 + 2 * p.K + 2 * Real.sqrt T * p.K + T * p.K) ^ n * 2 ^ n * ∫ z, p.Y z ^ n ∂ν) / 2)

theorem WeakStep.rate_nonneg (p : WeakStep ν step b a T) (hT : 0 ≤ T) (n : ℕ) : 0 ≤ p.rate n := by
  have h1 : 0 ≤ ∫ z, p.Y z ^ n ∂ν := integral_nonneg fun z => pow_nonneg (by linarith [p.Y1 z]) n
  have hK := p.K0
  have h2 := Real.sqrt_nonneg T
  unfold WeakStep.rate
  positivity

theorem WeakStep.wint (p : WeakStep ν step b a T) (t : ℝ) (ht : t ∈ Icc 0 T) (x : Fin d → ℝ) (i : Fin d) : Integrable (fun z => p.w t x z i) ν := by
  have hm : Measurable (fun z => p.w t x z i) := (measurable_pi_apply i).comp ((p.wmeas t).comp (measurable_const.prodMk measurable_id))
  have := (p.Yint 1).const_mul (p.K * (1 + ‖x‖))
  refine this.mono' hm.aestronglyMeasurable (Filter.Eventually.of_forall fun z => ?_)
  rw [Real.norm_eq_abs]
  simpa using p.wbound t ht x z i

theorem WeakStep.cint (p : WeakStep ν step b a T) (t : ℝ) (ht : t ∈ Icc 0 T) (x : Fin d → ℝ) (i : Fin d) : Integrable (fun z => p.c t x z i) ν := by
  have hm : Measurable (fun z => p.c t x z i) := (measurable_pi_apply i).comp ((p.cmeas t).comp (measurable_const.prodMk measurable_id))
  have := (p.Yint 1).const_mul (p.K * (1 + ‖x‖))
  refine this.mono' hm.aestronglyMeasurable (Filter.Eventually.of_forall fun z => ?_)
  rw [Real.norm_eq_abs]
  simpa using p.cbound t ht x z i

theorem WeakStep.wwint (p : WeakStep ν step b a T) (t : ℝ) (ht : t ∈ Icc 0 T) (x : Fin d → ℝ) (i j : Fin d) :
    Integrable (fun z => p.w t x z i * p.w t x z j) ν := by
  have hm : ∀ i, Measurable (fun z => p.w t x z i) := fun i => (measurable_pi_apply i).comp ((p.wmeas t).comp (measurable_const.prodMk measurable_id))
  have := (p.Yint 2).const_mul ((p.K * (1 + ‖x‖)) ^ 2)
  refine this.mono' ((hm i).mul (hm j)).aestronglyMeasurable (Filter.Eventually.of_forall fun z => ?_)
  rw [Real.norm_eq_abs, abs_mul]
  refine (mul_le_mul (p.wbound t ht x z i) (p.wbound t ht x z j) (abs_nonneg _) ((abs_nonneg _).trans (p.wbound t ht x z i))).trans (le_of_eq ?_)
  ring

variable [IsProbabilityMeasure ν]

/-- The moments grow at most exponentially. -/
theorem moment_step (p : WeakStep ν step b a T) (n : ℕ) (t dt : ℝ) (ht : t ∈ Icc 0 T) (hdt : 0 ≤ dt) (hdT : dt ≤ T) (x : Fin d → ℝ) (hn : Even n) :
    Integrable (fun z => lyapunov (n + 2) (step t dt x z)) ν ∧
    ∫ z, lyapunov (n + 2) (step t dt x z) ∂ν ≤ (1 + p.rate (n + 2) * dt) * lyapunov (n + 2) x := by
  have hn2 : Even (n + 2) := hn.add (by decide)
  set S := Real.sqrt dt with hSdef
  have hS2 : S ^ 2 = dt := Real.sq_sqrt hdt
  have hST : S ≤ Real.sqrt T := Real.sqrt_le_sqrt hdT
  have hpt : ∀ i z, |step t dt x z i ^ (n + 2) - x i ^ (n + 2) - S * ((n + 2) * x i ^ (n + 1) * p.w t x z i)| ≤ (n + 2) ^ 2 * p.radius x z ^ (n + 2) * S ^ 2 / 2 := by
    intro i z
    obtain ⟨_, r1, r2, r3⟩ := step_radius p t ht x z S hST
    have e : step t dt x z i = x i + S * p.w t x z i + S ^ 2 * p.c t x z i := by rw [p.form t dt x z hdt, hS2]
    rw [e]
    refine power_expansion n (x i) (p.w t x z i) (p.c t x z i) S (p.radius x z) (Real.sqrt_nonneg _) (fun s hs => ?_) (fun s hs => r2 s hs i) (r3 i)
    have h1 := norm_le_pi_norm (curve x (p.w t x z) (p.c t x z) s) i
    rw [Real.norm_eq_abs] at h1
    have h2 := r1 s hs
    exact h1.trans (by linarith)
  have hsm : ∀ i, Measurable (fun z => step t dt x z i) := fun i =>
    (measurable_pi_apply i).comp ((p.measurable t dt hdt).comp (measurable_const.prodMk measurable_id))
  obtain ⟨hri, hrv⟩ := radius_pow p x (n + 2)
  have hlin : ∀ i, Integrable (fun z => x i ^ (n + 2) + S * ((n + 2) * x i ^ (n + 1) * p.w t x z i)) ν := fun i =>
    (integrable_const _).add (((p.wint t ht x i).const_mul _).const_mul _)
  have hrem : Integrable (fun z => ((n : ℝ) + 2) ^ 2 * p.radius x z ^ (n + 2) * S ^ 2 / 2) ν := ((hri.const_mul _).mul_const _).div_const _
  have hint : ∀ i, Integrable (fun z => step t dt x z i ^ (n + 2)) ν := by
    intro i
    have h1 : Integrable (fun z => step t dt x z i ^ (n + 2) - (x i ^ (n + 2) + S * ((n + 2) * x i ^ (n + 1) * p.w t x z i))) ν := by
      refine hrem.mono' (((hsm i).pow_const _).aestronglyMeasurable.sub (hlin i).aestronglyMeasurable) (Filter.Eventually.of_forall fun z => ?_)
      rw [Real.norm_eq_abs, ← sub_sub]
      exact hpt i z
    refine (h1.add (hlin i)).congr (Filter.Eventually.of_forall fun z => ?_)
    simp only [Pi.add_apply, sub_add_cancel]
  have hval : ∀ i, ∫ z, step t dt x z i ^ (n + 2) ∂ν ≤ x i ^ (n + 2) + dt * ((n + 2 : ℕ) ^ 2 * ((1 + 2 * p.K + 2 * Real.sqrt T * p.K + T * p.K) ^ (n + 2) * 2 ^ (n + 2) *
      ∫ z, p.Y z ^ (n + 2) ∂ν) / 2) * lyapunov (n + 2) x := by
    intro i
    have h1 : ∫ z, step t dt x z i ^ (n + 2) ∂ν ≤ ∫ z, ((x i ^ (n + 2) + S * ((n + 2) * x i ^ (n + 1) * p.w t x z i)) +
        ((n : ℝ) + 2) ^ 2 * p.radius x z ^ (n + 2) * S ^ 2 / 2) ∂ν := by
      refine integral_mono (hint i) ((hlin i).add hrem) fun z => ?_
      have := (abs_le.1 (hpt i z)).2
      beta_reduce
      linarith
    rw [integral_add (hlin i) hrem, integral_add (integrable_const _) (((p.wint t ht x i).const_mul _).const_mul _), integral_const_mul, integral_const_mul,
      p.wmean t ht x i, integral_div, integral_mul_const, integral_const_mul, hrv, hS2] at h1
    simp only [integral_const, probReal_univ, smul_eq_mul, one_mul, mul_zero, add_zero] at h1
    refine h1.trans ?_
    have hl := lyapunov_ge (n + 2) hn2 x
    have hY : 0 ≤ ∫ z, p.Y z ^ (n + 2) ∂ν := integral_nonneg fun z => pow_nonneg (by linarith [p.Y1 z]) _
    have hK := p.K0
    have hT : 0 ≤ T := hdt.trans hdT
    have hτ := Real.sqrt_nonneg T
    set B := 1 + 2 * p.K + 2 * Real.sqrt T * p.K + T * p.K with hB
    have hB0 : 0 ≤ B := by positivity
    have h3 := mul_le_mul_of_nonneg_left hl (show 0 ≤ dt * (((n : ℝ) + 2) ^ 2 * (B ^ (n + 2) * ∫ z, p.Y z ^ (n + 2) ∂ν) / 2) by positivity)
    rw [mul_pow]
    push_cast
    linarith
  have hsum : ∀ z, lyapunov (n + 2) (step t dt x z) = 1 + ∑ i, step t dt x z i ^ (n + 2) := fun z => rfl
  simp_rw [hsum]
  have hsi : Integrable (fun z => ∑ i, step t dt x z i ^ (n + 2)) ν := integrable_finsetSum _ fun i _ => hint i
  refine ⟨(integrable_const _).add hsi, ?_⟩
  rw [integral_add (integrable_const _) hsi, integral_finsetSum _ fun i _ => hint i]
  simp only [integral_const, probReal_univ, smul_eq_mul, one_mul]
  have := Finset.sum_le_sum fun i (_ : i ∈ Finset.univ) => hval i
  rw [Finset.sum_add_distrib, Finset.sum_const, Finset.card_univ, Fintype.card_fin, nsmul_eq_mul] at this
  rw [WeakStep.rate]
  have e : lyapunov (n + 2) x = 1 + ∑ i, x i ^ (n + 2) := rfl
  rw [add_mul, one_mul]
  rw [e] at this ⊢
  refine (add_le_add_right this 1).trans (le_of_eq ?_)
  ring

theorem BackwardSolution.C_nonneg {u : ℝ → (Fin d → ℝ) → ℝ} (s : BackwardSolution b a T u) (hT : 0 ≤ T) : 0 ≤ s.C := by
  have := s.bound0 0 ⟨le_rfl, hT⟩ 0
  simp only [norm_zero, add_zero, one_pow, mul_one] at this
  exact (abs_nonneg _).trans this

theorem BackwardSolution.continuous {u : ℝ → (Fin d → ℝ) → ℝ} (s : BackwardSolution b a T u) (t : ℝ) (ht : t ∈ Icc 0 T) : Continuous (u t) :=
  continuous_iff_continuousAt.2 fun x => (s.space1 t ht x).continuousAt

/-- The change of the solution with time. -/
theorem time_expansion {u : ℝ → (Fin d → ℝ) → ℝ} (s : BackwardSolution b a T u) (t dt : ℝ) (ht : t ∈ Icc 0 T) (hdt : 0 ≤ dt) (h0 : 0 ≤ t - dt) (x : Fin d → ℝ) :
    |u (t - dt) x - u t x + dt * s.ut t x| ≤ s.C * (1 + ‖x‖) ^ s.m * dt ^ 2 / 2 := by
  have hmaps : MapsTo (fun r : ℝ => t - r) (Icc 0 dt) (Icc 0 T) := fun r hr => ⟨by linarith [hr.2], by linarith [hr.1, ht.2]⟩
  have hsub : ∀ r : ℝ, HasDerivWithinAt (fun r : ℝ => t - r) (-1) (Icc 0 dt) r := fun r => ((hasDerivAt_id r).const_sub t).hasDerivWithinAt
  have h := taylor_second (fun r => u (t - r) x) (fun r => -s.ut (t - r) x) (fun r => s.utt (t - r) x) dt (s.C * (1 + ‖x‖) ^ s.m) hdt
    (fun r hr => ((s.time1 x (t - r) (hmaps hr)).comp r (hsub r) hmaps).congr_deriv (by ring))
    (fun r hr => ((s.time2 x (t - r) (hmaps hr)).comp r (hsub r) hmaps).neg.congr_deriv (by ring))
    (fun r hr => s.boundt _ (hmaps hr) x)
  simp only [sub_zero] at h
  refine le_trans (le_of_eq ?_) h
  congr 1
  ring

/-- The constant of the error of a step. -/
noncomputable def WeakStep.errorConst (p : WeakStep ν step b a T) (C : ℝ) (m n : ℕ) : ℝ :=
  C * (3 * d ^ 2 + d ^ 3) * ((1 + 2 * p.K + 2 * Real.sqrt T * p.K + T * p.K) ^ (m + 3) * ∫ z, p.Y z ^ (m + 3) ∂ν) / 6 * 2 ^ n + C * Real.sqrt T / 2 * 2 ^ n

omit [IsProbabilityMeasure ν] in
theorem WeakStep.errorConst_nonneg (p : WeakStep ν step b a T) (hT : 0 ≤ T) (C : ℝ) (hC : 0 ≤ C) (m n : ℕ) : 0 ≤ p.errorConst C m n := by
  have h1 : 0 ≤ ∫ z, p.Y z ^ (m + 3) ∂ν := integral_nonneg fun z => pow_nonneg (by linarith [p.Y1 z]) _
  have hK := p.K0
  have h2 := Real.sqrt_nonneg T
  unfold WeakStep.errorConst
  positivity

theorem solution_integrable {u : ℝ → (Fin d → ℝ) → ℝ} (s : BackwardSolution b a T u) (p : WeakStep ν step b a T) (n : ℕ) (hn : Even n) (hmn : s.m ≤ n + 2) (t dt : ℝ)
    (ht : t ∈ Icc 0 T) (hdt : 0 ≤ dt) (hdT : dt ≤ T) (x : Fin d → ℝ) : Integrable (fun z => u t (step t dt x z)) ν := by
  have hsm : Measurable (fun z => step t dt x z) := (p.measurable t dt hdt).comp (measurable_const.prodMk measurable_id)
  have hC := BackwardSolution.C_nonneg s (ht.1.trans ht.2)
  refine ((moment_step p n t dt ht hdt hdT x hn).1.const_mul (s.C * 2 ^ (n + 2))).mono'
    ((BackwardSolution.continuous s t ⟨ht.1, ht.2⟩).measurable.comp hsm).aestronglyMeasurable (Filter.Eventually.of_forall fun z => ?_)
  rw [Real.norm_eq_abs, mul_assoc]
  exact (s.bound0 t ⟨ht.1, ht.2⟩ _).trans (mul_le_mul_of_nonneg_left (lyapunov_pow (n + 2) s.m (hn.add (by decide)) hmn _) hC)

/-- The error of one step. -/
theorem error_step {u : ℝ → (Fin d → ℝ) → ℝ} (s : BackwardSolution b a T u) (p : WeakStep ν step b a T) (n : ℕ) (hn : Even n) (hmn : s.m + 3 ≤ n + 2) (t dt : ℝ)
    (ht : t ∈ Icc 0 T) (hdt : 0 ≤ dt) (h0 : 0 ≤ t - dt) (x : Fin d → ℝ) :
    |∫ z, u t (step t dt x z) ∂ν - u (t - dt) x| ≤ p.errorConst s.C s.m (n + 2) * (dt * Real.sqrt dt) * lyapunov (n + 2) x := by
  have hT : 0 ≤ T := ht.1.trans ht.2
  have ht' : t ∈ Icc 0 T := ⟨ht.1, ht.2⟩
  have hdT : dt ≤ T := by linarith [ht.2]
  have hC := BackwardSolution.C_nonneg s hT
  set S := Real.sqrt dt with hSdef
  have hS0 : 0 ≤ S := Real.sqrt_nonneg _
  have hS2 : S ^ 2 = dt := Real.sq_sqrt hdt
  have hST : S ≤ Real.sqrt T := Real.sqrt_le_sqrt hdT
  have hui := solution_integrable s p n hn (by omega) t dt ht hdt hdT x
  have hpt : ∀ z, |u t (step t dt x z) - u t x - S * ∑ i, s.u1 i t x * p.w t x z i - S ^ 2 / 2 * (∑ i, s.u1 i t x * (2 * p.c t x z i) +
      ∑ i, ∑ j, s.u2 i j t x * p.w t x z i * p.w t x z j)| ≤ s.C * (3 * d ^ 2 + d ^ 3) * p.radius x z ^ (s.m + 3) * S ^ 3 / 6 := by
    intro z
    obtain ⟨r0, r1, r2, r3⟩ := step_radius p t ht x z S hST
    rw [step_curve p t dt hdt x z]
    exact curve_expansion (u t) (fun i => s.u1 i t) (fun i j => s.u2 i j t) (fun i j k => s.u3 i j k t) (s.space1 t ht') (fun i => s.space2 i t ht')
      (fun i j => s.space3 i j t ht') s.C (p.radius x z) s.m hC (fun i j => s.bound2 i j t ht') (fun i j k => s.bound3 i j k t ht') x (p.w t x z) (p.c t x z) S hS0 r0 r1 r2 r3
  have i1 : Integrable (fun z => ∑ i, s.u1 i t x * p.w t x z i) ν := integrable_finsetSum _ fun i _ => (p.wint t ht x i).const_mul _
  have i2 : Integrable (fun z => ∑ i, s.u1 i t x * (2 * p.c t x z i)) ν := integrable_finsetSum _ fun i _ => ((p.cint t ht x i).const_mul _).const_mul _
  have i3' : ∀ i j, Integrable (fun z => s.u2 i j t x * p.w t x z i * p.w t x z j) ν := fun i j => by
    simp_rw [mul_assoc]
    exact (p.wwint t ht x i j).const_mul _
  have i3 : Integrable (fun z => ∑ i, ∑ j, s.u2 i j t x * p.w t x z i * p.w t x z j) ν := integrable_finsetSum _ fun i _ => integrable_finsetSum _ fun j _ => i3' i j
  have v1 : ∫ z, ∑ i, s.u1 i t x * p.w t x z i ∂ν = 0 := by
    rw [integral_finsetSum _ fun i _ => (p.wint t ht x i).const_mul _]
    refine Finset.sum_eq_zero fun i _ => ?_
    rw [integral_const_mul, p.wmean t ht x i, mul_zero]
  have v2 : ∫ z, ∑ i, s.u1 i t x * (2 * p.c t x z i) ∂ν = 2 * ∑ i, b t x i * s.u1 i t x := by
    rw [integral_finsetSum _ fun i _ => ((p.cint t ht x i).const_mul _).const_mul _, Finset.mul_sum]
    refine Finset.sum_congr rfl fun i _ => ?_
    rw [integral_const_mul, integral_const_mul, p.cmean t ht x i]
    ring
  have v3 : ∫ z, ∑ i, ∑ j, s.u2 i j t x * p.w t x z i * p.w t x z j ∂ν = ∑ i, ∑ j, a t x i j * s.u2 i j t x := by
    rw [integral_finsetSum _ fun i _ => integrable_finsetSum _ fun j _ => i3' i j]
    refine Finset.sum_congr rfl fun i _ => ?_
    rw [integral_finsetSum _ fun j _ => i3' i j]
    refine Finset.sum_congr rfl fun j _ => ?_
    simp_rw [mul_assoc]
    rw [integral_const_mul, p.wcov t ht x i j, mul_comm]
  have i23 : Integrable (fun z => ∑ i, s.u1 i t x * (2 * p.c t x z i) + ∑ i, ∑ j, s.u2 i j t x * p.w t x z i * p.w t x z j) ν := i2.add i3
  have i4 : Integrable (fun z => u t (step t dt x z) - u t x) ν := hui.sub (integrable_const _)
  have i5 : Integrable (fun z => u t (step t dt x z) - u t x - S * ∑ i, s.u1 i t x * p.w t x z i) ν := i4.sub (i1.const_mul _)
  have hmean : ∫ z, (u t (step t dt x z) - u t x - S * ∑ i, s.u1 i t x * p.w t x z i - S ^ 2 / 2 * (∑ i, s.u1 i t x * (2 * p.c t x z i) +
      ∑ i, ∑ j, s.u2 i j t x * p.w t x z i * p.w t x z j)) ∂ν = ∫ z, u t (step t dt x z) ∂ν - u t x + dt * s.ut t x := by
    rw [integral_sub i5 (i23.const_mul _), integral_sub i4 (i1.const_mul _), integral_sub hui (integrable_const _), integral_const_mul, integral_const_mul,
      integral_add i2 i3, v1, v2, v3, hS2]
    simp only [integral_const, probReal_univ, smul_eq_mul, one_mul, mul_zero, sub_zero]
    have := s.equation t ht x
    linear_combination (-dt) * this
  obtain ⟨hri, hrv⟩ := radius_pow p x (s.m + 3)
  have hrem : Integrable (fun z => s.C * (3 * d ^ 2 + d ^ 3) * p.radius x z ^ (s.m + 3) * S ^ 3 / 6) ν := ((hri.const_mul _).mul_const _).div_const _
  have e1 : |∫ z, u t (step t dt x z) ∂ν - u t x + dt * s.ut t x| ≤ s.C * (3 * d ^ 2 + d ^ 3) * ((((1 + 2 * p.K + 2 * Real.sqrt T * p.K + T * p.K) * (1 + ‖x‖)) ^ (s.m + 3)) *
      ∫ z, p.Y z ^ (s.m + 3) ∂ν) * S ^ 3 / 6 := by
    rw [← hmean]
    refine (abs_integral_le_integral_abs).trans ?_
    refine (integral_mono ?_ hrem hpt).trans (le_of_eq ?_)
    · exact (i5.sub (i23.const_mul _)).abs
    · rw [integral_div, integral_mul_const, integral_const_mul, hrv]
  have e2 := time_expansion s t dt ht' hdt h0 x
  have e3 : |∫ z, u t (step t dt x z) ∂ν - u (t - dt) x| ≤ |∫ z, u t (step t dt x z) ∂ν - u t x + dt * s.ut t x| + |u (t - dt) x - u t x + dt * s.ut t x| := by
    refine le_trans (le_of_eq ?_) (abs_sub _ _)
    congr 1
    ring
  refine e3.trans ((add_le_add e1 e2).trans ?_)
  have hl1 := lyapunov_pow (n + 2) (s.m + 3) (hn.add (by decide)) hmn x
  have hl2 := lyapunov_pow (n + 2) s.m (hn.add (by decide)) (by omega) x
  have hS3 : S ^ 3 = dt * S := by rw [← hS2]; ring
  have hd2 : dt ^ 2 ≤ Real.sqrt T * (dt * S) := by
    calc dt ^ 2 = S * (dt * S) := by rw [← hS2]; ring
      _ ≤ Real.sqrt T * (dt * S) := mul_le_mul_of_nonneg_right hST (mul_nonneg hdt hS0)
  have hY : 0 ≤ ∫ z, p.Y z ^ (s.m + 3) ∂ν := integral_nonneg fun z => pow_nonneg (by linarith [p.Y1 z]) _
  have hK := p.K0
  have hτ := Real.sqrt_nonneg T
  have hv0 : 0 ≤ lyapunov (n + 2) x := by linarith [lyapunov_one (n + 2) (hn.add (by decide)) x]
  unfold WeakStep.errorConst
  set B := 1 + 2 * p.K + 2 * Real.sqrt T * p.K + T * p.K with hB
  have hB0 : 0 ≤ B := by positivity
  have hdS : 0 ≤ dt * S := mul_nonneg hdt hS0
  have f1 := mul_le_mul_of_nonneg_left hl1 (show 0 ≤ s.C * (3 * d ^ 2 + d ^ 3) * (B ^ (s.m + 3) * ∫ z, p.Y z ^ (s.m + 3) ∂ν) / 6 * (dt * S) by positivity)
  have f2 : s.C * (1 + ‖x‖) ^ s.m * dt ^ 2 / 2 ≤ s.C * (2 ^ (n + 2) * lyapunov (n + 2) x) * (Real.sqrt T * (dt * S)) / 2 := by
    gcongr
  rw [mul_pow, hS3]
  refine (add_le_add (le_of_eq ?_) f2).trans ((add_le_add_left f1 _).trans (le_of_eq ?_))
  · ring
  · ring

/-! ## Many steps -/

/-- Integrals over the draws of all steps, first step first. -/
theorem first_draw_lintegral (n : ℕ) (F : Z → (Fin n → Z) → ENNReal) (hF : Measurable (fun q : Z × (Fin n → Z) => F q.1 q.2)) :
    ∫⁻ z : Fin (n + 1) → Z, F (z 0) (fun k => z k.succ) ∂(Measure.pi fun _ => ν) = ∫⁻ z0, ∫⁻ zs, F z0 zs ∂(Measure.pi fun _ => ν) ∂ν := by
  have h := measurePreserving_piFinSuccAbove (fun _ : Fin (n + 1) => ν) 0
  rw [← lintegral_prod (fun q : Z × (Fin n → Z) => F q.1 q.2) hF.aemeasurable]
  exact h.lintegral_comp hF

theorem first_draw_integrable (n : ℕ) (F : Z → (Fin n → Z) → ℝ) :
    Integrable (fun z : Fin (n + 1) → Z => F (z 0) (fun k => z k.succ)) (Measure.pi fun _ => ν) ↔
      Integrable (fun q : Z × (Fin n → Z) => F q.1 q.2) (ν.prod (Measure.pi fun _ => ν)) := by
  have h := measurePreserving_piFinSuccAbove (fun _ : Fin (n + 1) => ν) 0
  exact h.integrable_comp_emb (MeasurableEquiv.measurableEmbedding _) (g := fun q : Z × (Fin n → Z) => F q.1 q.2)

theorem first_draw_integral (n : ℕ) (F : Z → (Fin n → Z) → ℝ) (hF : Integrable (fun q : Z × (Fin n → Z) => F q.1 q.2) (ν.prod (Measure.pi fun _ => ν))) :
    ∫ z : Fin (n + 1) → Z, F (z 0) (fun k => z k.succ) ∂(Measure.pi fun _ => ν) = ∫ z0, ∫ zs, F z0 zs ∂(Measure.pi fun _ => ν) ∂ν := by
  have h := measurePreserving_piFinSuccAbove (fun _ : Fin (n + 1) => ν) 0
  rw [← integral_prod (fun q : Z × (Fin n → Z) => F q.1 q.2) hF]
  exact h.integral_comp' (g := fun q : Z × (Fin n → Z) => F q.1 q.2)

omit [IsProbabilityMeasure ν] in
theorem states_measurable (p : WeakStep ν step b a T) (ts : List ℝ) (t : ℝ) (hs : (t :: ts).Pairwise (· ≤ ·)) (i : ℕ) (hi : i ≤ ts.length) :
    Measurable (fun q : (Fin d → ℝ) × (Fin ts.length → Z) => (schemeStates step t q.1 ts (List.ofFn q.2)).getD i 0) := by
  induction ts generalizing t i with
  | nil =>
    obtain rfl : i = 0 := by simpa using hi
    simp only [schemeStates, List.getD_cons_zero]
    exact measurable_fst
  | cons t' ts ih =>
    have hs' := List.pairwise_cons.1 hs
    have e : ∀ q : (Fin d → ℝ) × (Fin (t' :: ts).length → Z), List.ofFn q.2 = q.2 0 :: List.ofFn (fun k : Fin ts.length => q.2 k.succ) := fun q => List.ofFn_succ
    cases i with
    | zero =>
      simp_rw [e]
      simp only [schemeStates, List.getD_cons_zero]
      exact measurable_fst
    | succ i =>
      simp_rw [e]
      simp only [schemeStates, List.getD_cons_succ]
      have h1 := ih t' hs'.2 i (by simpa using hi)
      have h2 : Measurable (fun q : (Fin d → ℝ) × (Fin (t' :: ts).length → Z) => (step t' (t' - t) q.1 (q.2 0), fun k : Fin ts.length => q.2 k.succ)) := by
        refine Measurable.prodMk ?_ ?_
        · exact (p.measurable t' (t' - t) (sub_nonneg.2 (hs'.1 t' (by simp)))).comp (measurable_fst.prodMk ((measurable_pi_apply 0).comp measurable_snd))
        · exact measurable_pi_lambda _ fun k => (measurable_pi_apply k.succ).comp measurable_snd
      exact h1.comp h2

theorem pairwise_head_le (t : ℝ) (ts : List ℝ) (hs : (t :: ts).Pairwise (· ≤ ·)) (i : ℕ) (hi : i ≤ ts.length) : t ≤ (t :: ts).getD i 0 := by
  cases i with
  | zero => simp
  | succ i =>
    have h : i < ts.length := hi
    rw [List.getD_cons_succ, List.getD_eq_getElem?_getD, List.getElem?_eq_getElem h, Option.getD_some]
    exact (List.pairwise_cons.1 hs).1 _ (List.getElem_mem _)

/-- The moments of the states. -/
theorem states_moment (p : WeakStep ν step b a T) (n : ℕ) (hn : Even n) (ts : List ℝ) (t : ℝ) (ht : 0 ≤ t) (hs : (t :: ts).Pairwise (· ≤ ·)) (i : ℕ)
    (hi : i ≤ ts.length) (hT : (t :: ts).getD i 0 ≤ T) (x : Fin d → ℝ) :
    ∫⁻ z : Fin ts.length → Z, ENNReal.ofReal (lyapunov (n + 2) ((schemeStates step t x ts (List.ofFn z)).getD i 0)) ∂(Measure.pi fun _ => ν) ≤
      ENNReal.ofReal (Real.exp (p.rate (n + 2) * ((t :: ts).getD i 0 - t)) * lyapunov (n + 2) x) := by
  have hev : Even (n + 2) := hn.add (by decide)
  have hlm : Measurable (lyapunov (d := d) (n + 2)) := by
    unfold lyapunov
    exact measurable_const.add (Finset.measurable_sum _ fun i _ => (measurable_pi_apply i).pow_const _)
  induction ts generalizing t i x with
  | nil =>
    obtain rfl : i = 0 := by simpa using hi
    simp [schemeStates]
  | cons t' ts ih =>
    have hs' := List.pairwise_cons.1 hs
    have htt : t ≤ t' := hs'.1 t' (by simp)
    have e : ∀ z : Fin (t' :: ts).length → Z, List.ofFn z = z 0 :: List.ofFn (fun k : Fin ts.length => z k.succ) := fun z => List.ofFn_succ
    cases i with
    | zero =>
      simp_rw [e]
      simp only [schemeStates, List.getD_cons_zero, sub_self, mul_zero, Real.exp_zero, one_mul]
      rw [lintegral_const, measure_univ, mul_one]
    | succ i =>
      simp_rw [e]
      simp only [schemeStates, List.getD_cons_succ]
      rw [List.getD_cons_succ] at hT
      have hi' : i ≤ ts.length := by simpa using hi
      have hmono : t' ≤ (t' :: ts).getD i 0 := by
        cases i with
        | zero => simp
        | succ i =>
          exact pairwise_head_le _ _ hs'.2 (i + 1) (by simpa using hi')
      have ht' : t' ∈ Icc 0 T := ⟨ht.trans htt, hmono.trans hT⟩
      have hdt : 0 ≤ t' - t := sub_nonneg.2 htt
      have hdT : t' - t ≤ T := by linarith [ht'.2]
      have hT0 : 0 ≤ T := hdt.trans hdT
      have hm := (states_measurable p ts t' hs'.2 i hi')
      have hm2 : Measurable (fun q : Z × (Fin ts.length → Z) => ENNReal.ofReal (lyapunov (n + 2) ((schemeStates step t' (step t' (t' - t) x q.1) ts (List.ofFn q.2)).getD i 0))) := by
        refine ENNReal.measurable_ofReal.comp (hlm.comp (hm.comp (Measurable.prodMk ?_ measurable_snd)))
        exact (p.measurable t' (t' - t) hdt).comp (measurable_const.prodMk measurable_fst)
      refine (le_of_eq (first_draw_lintegral ts.length (fun z0 zs => ENNReal.ofReal (lyapunov (n + 2) ((schemeStates step t' (step t' (t' - t) x z0) ts (List.ofFn zs)).getD i 0)))
        hm2)).trans ?_
      refine (lintegral_mono fun z0 => ih t' ht'.1 hs'.2 i hi' hT (step t' (t' - t) x z0)).trans ?_
      obtain ⟨m1, m2⟩ := moment_step p n t' (t' - t) ht' hdt hdT x hn
      have h0 : ∀ z0, 0 ≤ Real.exp (p.rate (n + 2) * ((t' :: ts).getD i 0 - t')) * lyapunov (n + 2) (step t' (t' - t) x z0) := fun z0 =>
        mul_nonneg (Real.exp_pos _).le (by linarith [lyapunov_one (n + 2) hev (step t' (t' - t) x z0)])
      rw [← ofReal_integral_eq_lintegral_ofReal (m1.const_mul _) (Filter.Eventually.of_forall h0), integral_const_mul]
      refine ENNReal.ofReal_le_ofReal ?_
      have hexp : 1 + p.rate (n + 2) * (t' - t) ≤ Real.exp (p.rate (n + 2) * (t' - t)) := by linarith [Real.add_one_le_exp (p.rate (n + 2) * (t' - t))]
      have hl0 : 0 ≤ lyapunov (n + 2) x := by linarith [lyapunov_one (n + 2) hev x]
      calc _ ≤ Real.exp (p.rate (n + 2) * ((t' :: ts).getD i 0 - t')) * (Real.exp (p.rate (n + 2) * (t' - t)) * lyapunov (n + 2) x) :=
            mul_le_mul_of_nonneg_left (m2.trans (mul_le_mul_of_nonneg_right hexp hl0)) (Real.exp_pos _).le
        _ = _ := by rw [← mul_assoc, ← Real.exp_add]; congr 2; ring

theorem solution_states {u : ℝ → (Fin d → ℝ) → ℝ} (s : BackwardSolution b a T u) (p : WeakStep ν step b a T) (n : ℕ) (hn : Even n) (hmn : s.m + 3 ≤ n + 2) (ts : List ℝ) (t : ℝ)
    (ht : 0 ≤ t) (hs : (t :: ts).Pairwise (· ≤ ·)) (i : ℕ) (hi : i ≤ ts.length) (hT : (t :: ts).getD i 0 ≤ T) (h0 : 0 ≤ (t :: ts).getD i 0)
    (x : Fin d → ℝ) :
    Integrable (fun z : Fin ts.length → Z => u ((t :: ts).getD i 0) ((schemeStates step t x ts (List.ofFn z)).getD i 0)) (Measure.pi fun _ => ν) := by
  have hev : Even (n + 2) := hn.add (by decide)
  have hlm : Measurable (lyapunov (d := d) (n + 2)) := by
    unfold lyapunov
    exact measurable_const.add (Finset.measurable_sum _ fun i _ => (measurable_pi_apply i).pow_const _)
  have hC := BackwardSolution.C_nonneg s (h0.trans hT)
  have hm : Measurable (fun z : Fin ts.length → Z => (schemeStates step t x ts (List.ofFn z)).getD i 0) :=
    (states_measurable p ts t hs i hi).comp (measurable_const.prodMk measurable_id)
  have hV : Integrable (fun z : Fin ts.length → Z => lyapunov (n + 2) ((schemeStates step t x ts (List.ofFn z)).getD i 0)) (Measure.pi fun _ => ν) := by
    refine ⟨(hlm.comp hm).aestronglyMeasurable, ?_⟩
    rw [hasFiniteIntegral_iff_ofReal (Filter.Eventually.of_forall fun z => by
      have := lyapunov_one (n + 2) hev ((schemeStates step t x ts (List.ofFn z)).getD i 0)
      simp only [Pi.zero_apply]
      linarith)]
    exact (states_moment p n hn ts t ht hs i hi hT x).trans_lt ENNReal.ofReal_lt_top
  refine (hV.const_mul (s.C * 2 ^ (n + 2))).mono' ((BackwardSolution.continuous s _ ⟨h0, hT⟩).measurable.comp hm).aestronglyMeasurable (Filter.Eventually.of_forall fun z => ?_)
  rw [Real.norm_eq_abs, mul_assoc]
  exact (s.bound0 _ ⟨h0, hT⟩ _).trans (mul_le_mul_of_nonneg_left (lyapunov_pow (n + 2) s.m hev (by omega) _) hC)

/-- The error on a grid. -/
theorem grid_error {u : ℝ → (Fin d → ℝ) → ℝ} (s : BackwardSolution b a T u) (p : WeakStep ν step b a T) (n : ℕ) (hn : Even n) (hmn : s.m + 3 ≤ n + 2) (δ : ℝ) (ts : List ℝ) (t : ℝ)
    (ht : 0 ≤ t) (hs : (t :: ts).Pairwise (· ≤ ·)) (i : ℕ) (hi : i ≤ ts.length) (hT : (t :: ts).getD i 0 ≤ T)
    (hstep : ∀ q < i, (t :: ts).getD (q + 1) 0 - (t :: ts).getD q 0 ≤ δ) (x : Fin d → ℝ) :
    |∫ z : Fin ts.length → Z, u ((t :: ts).getD i 0) ((schemeStates step t x ts (List.ofFn z)).getD i 0) ∂(Measure.pi fun _ => ν) - u t x| ≤
      p.errorConst s.C s.m (n + 2) * Real.sqrt δ * ((t :: ts).getD i 0 - t) * Real.exp (p.rate (n + 2) * ((t :: ts).getD i 0 - t)) * lyapunov (n + 2) x := by
  have hev : Even (n + 2) := hn.add (by decide)
  induction ts generalizing t i x with
  | nil =>
    obtain rfl : i = 0 := by simpa using hi
    simp [schemeStates]
  | cons t' ts ih =>
    have hs' := List.pairwise_cons.1 hs
    have htt : t ≤ t' := hs'.1 t' (by simp)
    have e : ∀ z : Fin (t' :: ts).length → Z, List.ofFn z = z 0 :: List.ofFn (fun k : Fin ts.length => z k.succ) := fun z => List.ofFn_succ
    cases i with
    | zero =>
      simp_rw [e]
      simp only [schemeStates, List.getD_cons_zero, sub_self, mul_zero, Real.exp_zero, zero_mul]
      rw [integral_const, probReal_univ, one_smul, sub_self, abs_zero]
    | succ i =>
      have hfull := solution_states s p n hn hmn (t' :: ts) t ht hs (i + 1) hi hT
        (ht.trans (pairwise_head_le _ _ hs (i + 1) (by simpa using hi))) x
      simp_rw [e] at hfull ⊢
      simp only [schemeStates, List.getD_cons_succ] at hfull ⊢
      rw [List.getD_cons_succ] at hT
      have hi' : i ≤ ts.length := by simpa using hi
      have hmono : t' ≤ (t' :: ts).getD i 0 := by
        cases i with
        | zero => simp
        | succ i =>
          exact pairwise_head_le _ _ hs'.2 (i + 1) (by simpa using hi')
      have ht' : t' ∈ Icc 0 T := ⟨ht.trans htt, hmono.trans hT⟩
      have hdt : 0 ≤ t' - t := sub_nonneg.2 htt
      have hdT : t' - t ≤ T := by linarith [ht'.2]
      have hT0 : 0 ≤ T := hdt.trans hdT
      have hδ1 : t' - t ≤ δ := by simpa using hstep 0 (by omega)
      have hC := BackwardSolution.C_nonneg s hT0
      have hE := p.errorConst_nonneg hT0 s.C hC s.m (n + 2)
      have hrate := p.rate_nonneg hT0 (n + 2)
      set E := p.errorConst s.C s.m (n + 2) with hEdef
      set L := p.rate (n + 2) with hL
      set τ := (t' :: ts).getD i 0 with hτ
      have hprod := (first_draw_integrable ts.length (fun z0 zs => u τ ((schemeStates step t' (step t' (t' - t) x z0) ts (List.ofFn zs)).getD i 0))).1 hfull
      have hsplit := first_draw_integral ts.length (fun z0 zs => u τ ((schemeStates step t' (step t' (t' - t) x z0) ts (List.ofFn zs)).getD i 0)) hprod
      refine le_trans (le_of_eq (congrArg (fun v => |v - u t x|) hsplit)) ?_
      have hin := hprod.integral_prod_left
      have hui := solution_integrable s p n hn (by omega) t' (t' - t) ht' hdt hdT x
      obtain ⟨m1, m2⟩ := moment_step p n t' (t' - t) ht' hdt hdT x hn
      have e1 : |∫ z0, (∫ zs : Fin ts.length → Z, u τ ((schemeStates step t' (step t' (t' - t) x z0) ts (List.ofFn zs)).getD i 0) ∂(Measure.pi fun _ => ν)) ∂ν -
          ∫ z0, u t' (step t' (t' - t) x z0) ∂ν| ≤ E * Real.sqrt δ * (τ - t') * Real.exp (L * (τ - t')) * ((1 + L * (t' - t)) * lyapunov (n + 2) x) := by
        rw [← integral_sub hin hui]
        refine abs_integral_le_integral_abs.trans ?_
        refine (integral_mono (hin.sub hui).abs (m1.const_mul (E * Real.sqrt δ * (τ - t') * Real.exp (L * (τ - t')))) fun z0 => ?_).trans ?_
        · exact ih t' ht'.1 hs'.2 i hi' hT (fun q hq => by simpa using hstep (q + 1) (by omega)) (step t' (t' - t) x z0)
        · rw [integral_const_mul]
          refine mul_le_mul_of_nonneg_left m2 ?_
          have : 0 ≤ τ - t' := sub_nonneg.2 hmono
          positivity
      have e2 := error_step s p n hn hmn t' (t' - t) ht' hdt (by linarith) x
      rw [sub_sub_cancel] at e2
      have hl0 : 0 ≤ lyapunov (n + 2) x := by linarith [lyapunov_one (n + 2) hev x]
      have hexp : 1 + L * (t' - t) ≤ Real.exp (L * (t' - t)) := by linarith [Real.add_one_le_exp (L * (t' - t))]
      have hτt : 0 ≤ τ - t' := sub_nonneg.2 hmono
      have f1 : E * Real.sqrt δ * (τ - t') * Real.exp (L * (τ - t')) * ((1 + L * (t' - t)) * lyapunov (n + 2) x) ≤
          E * Real.sqrt δ * (τ - t') * Real.exp (L * (τ - t)) * lyapunov (n + 2) x := by
        have h1 : Real.exp (L * (τ - t')) * (1 + L * (t' - t)) ≤ Real.exp (L * (τ - t)) := by
          calc _ ≤ Real.exp (L * (τ - t')) * Real.exp (L * (t' - t)) := mul_le_mul_of_nonneg_left hexp (Real.exp_pos _).le
            _ = _ := by rw [← Real.exp_add]; congr 1; ring
        have h2 := mul_le_mul_of_nonneg_left h1 (show 0 ≤ E * Real.sqrt δ * (τ - t') * lyapunov (n + 2) x by positivity)
        linarith
      have f2 : E * ((t' - t) * Real.sqrt (t' - t)) * lyapunov (n + 2) x ≤ E * Real.sqrt δ * (t' - t) * Real.exp (L * (τ - t)) * lyapunov (n + 2) x := by
        have h1 : Real.sqrt (t' - t) ≤ Real.sqrt δ := Real.sqrt_le_sqrt hδ1
        have h2 : 1 ≤ Real.exp (L * (τ - t)) := Real.one_le_exp (mul_nonneg hrate (by linarith))
        have h3 : (t' - t) * Real.sqrt (t' - t) ≤ Real.sqrt δ * (t' - t) * Real.exp (L * (τ - t)) := by
          calc (t' - t) * Real.sqrt (t' - t) ≤ (t' - t) * Real.sqrt δ := mul_le_mul_of_nonneg_left h1 hdt
            _ = Real.sqrt δ * (t' - t) := mul_comm _ _
            _ ≤ _ := le_mul_of_one_le_right (by positivity) h2
        have h4 := mul_le_mul_of_nonneg_left h3 (show 0 ≤ E * lyapunov (n + 2) x by positivity)
        linarith
      refine (abs_sub_le _ (∫ z0, u t' (step t' (t' - t) x z0) ∂ν) _).trans ((add_le_add (e1.trans f1) (e2.trans f2)).trans (le_of_eq ?_))
      ring

end Step

end Lemmas
