import Mathlib.Analysis.Fourier.Inversion
import Mathlib.Analysis.SpecialFunctions.ImproperIntegrals
import Mathlib.MeasureTheory.Integral.Prod
import Mathlib.MeasureTheory.Measure.Lebesgue.Integral
import Mathlib.Analysis.SpecialFunctions.Integrals.Basic

/-! The integrals `∫ cos(uy) / (1 + u²)` and `∫ sin(uy) / (u (1 + u²))` over `u > 0`. -/

namespace Attari

open MeasureTheory Set Real
open scoped FourierTransform

theorem integrable_exp_neg_abs : Integrable (fun x : ℝ => ((Real.exp (-|x|) : ℝ) : ℂ)) := by
  refine Integrable.ofReal (f := fun x : ℝ => Real.exp (-|x|)) ?_
  rw [← integrableOn_univ, ← Iic_union_Ioi (a := (0 : ℝ))]
  refine IntegrableOn.union ?_ ?_
  · refine (integrableOn_exp_mul_Iic (a := 1) one_pos 0).congr_fun ?_ measurableSet_Iic
    intro x hx
    simp only [one_mul]
    rw [abs_of_nonpos hx, neg_neg]
  · refine (integrableOn_exp_mul_Ioi (a := -1) (by norm_num) 0).congr_fun ?_ measurableSet_Ioi
    intro x hx
    simp only
    rw [abs_of_pos hx, neg_one_mul]

theorem fourier_exp_neg_abs (w : ℝ) :
    𝓕 (fun x : ℝ => ((Real.exp (-|x|) : ℝ) : ℂ)) w = ((2 * (1 + (2 * π * w) ^ 2)⁻¹ : ℝ) : ℂ) := by
  rw [Real.fourier_real_eq_integral_exp_smul]
  have hint : Integrable (fun v : ℝ => Complex.exp (↑(-2 * π * v * w) * Complex.I) • ((Real.exp (-|v|) : ℝ) : ℂ)) := by
    refine (integrable_exp_neg_abs).mono ?_ (ae_of_all _ fun x => ?_)
    · exact Continuous.aestronglyMeasurable (by fun_prop)
    · rw [norm_smul, Complex.norm_exp_ofReal_mul_I, one_mul]
  have h1 : ∫ v in Iic (0 : ℝ), Complex.exp (↑(-2 * π * v * w) * Complex.I) • ((Real.exp (-|v|) : ℝ) : ℂ) =
      1 / (1 - (2 * π * w : ℝ) * Complex.I) := by
    have : ∫ v in Iic (0 : ℝ), Complex.exp (↑(-2 * π * v * w) * Complex.I) • ((Real.exp (-|v|) : ℝ) : ℂ) =
        ∫ v : ℝ in Iic (0 : ℝ), Complex.exp ((1 - (2 * π * w : ℝ) * Complex.I) * v) := by
      refine setIntegral_congr_fun measurableSet_Iic fun v hv => ?_
      simp only [smul_eq_mul]
      rw [abs_of_nonpos hv, Complex.ofReal_exp, ← Complex.exp_add]
      congr 1
      push_cast
      ring
    rw [this, integral_exp_mul_complex_Iic (by simp)]
    simp
  have h2 : ∫ v in Ioi (0 : ℝ), Complex.exp (↑(-2 * π * v * w) * Complex.I) • ((Real.exp (-|v|) : ℝ) : ℂ) =
      1 / (1 + (2 * π * w : ℝ) * Complex.I) := by
    have : ∫ v in Ioi (0 : ℝ), Complex.exp (↑(-2 * π * v * w) * Complex.I) • ((Real.exp (-|v|) : ℝ) : ℂ) =
        ∫ v : ℝ in Ioi (0 : ℝ), Complex.exp (-(1 + (2 * π * w : ℝ) * Complex.I) * v) := by
      refine setIntegral_congr_fun measurableSet_Ioi fun v hv => ?_
      simp only [smul_eq_mul]
      rw [abs_of_pos hv, Complex.ofReal_exp, ← Complex.exp_add]
      congr 1
      push_cast
      ring
    rw [this, integral_exp_mul_complex_Ioi (by simp)]
    rw [Complex.ofReal_zero, mul_zero, Complex.exp_zero, neg_div_neg_eq]
  rw [← intervalIntegral.integral_Iic_add_Ioi (b := 0) hint.integrableOn hint.integrableOn, h1, h2]
  have n1 : (1 : ℂ) - (2 * π * w : ℝ) * Complex.I ≠ 0 := by
    intro h0
    have := congrArg Complex.re h0
    simp at this
  have n2 : (1 : ℂ) + (2 * π * w : ℝ) * Complex.I ≠ 0 := by
    intro h0
    have := congrArg Complex.re h0
    simp at this
  have n3 : ((1 : ℂ) + ((2 * π * w : ℝ) : ℂ) ^ 2) ≠ 0 := by
    have : (0 : ℝ) < 1 + (2 * π * w) ^ 2 := by positivity
    exact_mod_cast this.ne'
  generalize 2 * π * w = z at *
  rw [Complex.ofReal_mul, Complex.ofReal_inv, Complex.ofReal_add, Complex.ofReal_pow, Complex.ofReal_one]
  have hI : Complex.I ^ 2 = -1 := Complex.I_sq
  rw [div_add_div _ _ n1 n2, ← div_eq_mul_inv, div_eq_div_iff (mul_ne_zero n1 n2) n3]
  push_cast
  linear_combination 2 * (z : ℂ) ^ 2 * hI

theorem integral_cos (y : ℝ) : ∫ u in Ioi (0 : ℝ), Real.cos (u * y) * (1 + u ^ 2)⁻¹ = π / 2 * Real.exp (-|y|) := by
  have hF : 𝓕 (fun x : ℝ => ((Real.exp (-|x|) : ℝ) : ℂ)) = fun w : ℝ => ((2 * (1 + (2 * π * w) ^ 2)⁻¹ : ℝ) : ℂ) :=
    funext fourier_exp_neg_abs
  have hint : Integrable (fun w : ℝ => 2 * (1 + (2 * π * w) ^ 2)⁻¹) :=
    (integrable_inv_one_add_sq.comp_mul_left' (R := 2 * π) (by positivity)).const_mul 2
  have hinv := Integrable.fourierInv_fourier_eq integrable_exp_neg_abs (by rw [hF]; exact hint.ofReal) (v := y)
    (Continuous.continuousAt (by fun_prop))
  rw [hF, Real.fourierInv_eq'] at hinv
  have hre := congrArg Complex.re hinv
  rw [Complex.ofReal_re] at hre
  have hint2 : Integrable (fun v : ℝ => Complex.exp (↑(2 * π * inner ℝ v y) * Complex.I) • ((2 * (1 + (2 * π * v) ^ 2)⁻¹ : ℝ) : ℂ)) := by
    refine (hint.ofReal (𝕜 := ℂ)).mono ?_ (ae_of_all _ fun x => ?_)
    · have hc : Continuous (fun v : ℝ => Complex.exp (↑(2 * π * inner ℝ v y) * Complex.I)) := by
        have : (fun v : ℝ => Complex.exp (↑(2 * π * inner ℝ v y) * Complex.I)) = fun v : ℝ => Complex.exp (↑(2 * π * (v * y)) * Complex.I) := by
          funext v
          simp [inner, mul_comm]
        rw [this]
        fun_prop
      exact hc.aestronglyMeasurable.smul (hint.ofReal (𝕜 := ℂ)).aestronglyMeasurable
    · rw [norm_smul, Complex.norm_exp_ofReal_mul_I, one_mul]; rfl
  have hre2 : (∫ v : ℝ, Complex.exp (↑(2 * π * inner ℝ v y) * Complex.I) • ((2 * (1 + (2 * π * v) ^ 2)⁻¹ : ℝ) : ℂ)).re =
      ∫ v : ℝ, Real.cos ((2 * π * v) * y) * (2 * (1 + (2 * π * v) ^ 2)⁻¹) := by
    rw [← Complex.reCLM_apply, ← ContinuousLinearMap.integral_comp_comm _ hint2]
    refine integral_congr_ae (ae_of_all _ fun v => ?_)
    simp only [Complex.reCLM_apply, smul_eq_mul, Complex.re_mul_ofReal, Complex.exp_ofReal_mul_I_re]
    congr 2
    simp [inner]
    ring
  rw [hre2, Measure.integral_comp_mul_left (fun u : ℝ => Real.cos (u * y) * (2 * (1 + u ^ 2)⁻¹)) (2 * π)] at hre
  have habs : ∫ u : ℝ, Real.cos (u * y) * (2 * (1 + u ^ 2)⁻¹) = 2 * ∫ u in Ioi (0 : ℝ), Real.cos (u * y) * (2 * (1 + u ^ 2)⁻¹) := by
    rw [← integral_comp_abs]
    refine integral_congr_ae (ae_of_all _ fun v => ?_)
    simp only [sq_abs]
    congr 1
    rcases abs_choice v with h | h
    · rw [h]
    · rw [h, neg_mul, Real.cos_neg]
  rw [habs, abs_of_pos (by positivity), smul_eq_mul] at hre
  have h2 : ∫ u in Ioi (0 : ℝ), Real.cos (u * y) * (2 * (1 + u ^ 2)⁻¹) = 2 * ∫ u in Ioi (0 : ℝ), Real.cos (u * y) * (1 + u ^ 2)⁻¹ := by
    rw [← integral_const_mul]
    refine integral_congr_ae (ae_of_all _ fun v => ?_)
    simp only
    ring
  rw [h2] at hre
  generalize (∫ u in Ioi (0 : ℝ), Real.cos (u * y) * (1 + u ^ 2)⁻¹) = J at *
  rw [← hre]
  have := Real.pi_pos
  field_simp

theorem integrableOn_kernel (y : ℝ) : IntegrableOn (fun u : ℝ => Real.cos (u * y) * (1 + u ^ 2)⁻¹) (Ioi 0) := by
  refine (integrable_inv_one_add_sq.mono ?_ (ae_of_all _ fun u => ?_)).integrableOn
  · exact (Continuous.aestronglyMeasurable (by fun_prop)).mul integrable_inv_one_add_sq.aestronglyMeasurable
  · rw [norm_mul]
    exact mul_le_of_le_one_left (norm_nonneg _) (Real.abs_cos_le_one _)

theorem abs_sin_div_le (u y : ℝ) : |Real.sin (u * y) / u| ≤ |y| := by
  rcases eq_or_ne u 0 with h | h
  · rw [h]; simp
  · rw [abs_div, div_le_iff₀ (abs_pos.mpr h), ← abs_mul, mul_comm y u]
    exact Real.abs_sin_le_abs

theorem integrableOn_kernel_sin (y : ℝ) : IntegrableOn (fun u : ℝ => Real.sin (u * y) / u * (1 + u ^ 2)⁻¹) (Ioi 0) := by
  refine ((integrable_inv_one_add_sq.const_mul |y|).mono ?_ (ae_of_all _ fun u => ?_)).integrableOn
  · refine AEStronglyMeasurable.mul (Measurable.aestronglyMeasurable (by fun_prop)) integrable_inv_one_add_sq.aestronglyMeasurable
  · rw [norm_mul, norm_mul]
    refine mul_le_mul_of_nonneg_right ?_ (norm_nonneg _)
    rw [Real.norm_eq_abs, Real.norm_eq_abs, abs_abs]
    exact abs_sin_div_le u y

theorem integral_sin_nonneg (y : ℝ) (hy : 0 ≤ y) :
    ∫ u in Ioi (0 : ℝ), Real.sin (u * y) / u * (1 + u ^ 2)⁻¹ = π / 2 * (1 - Real.exp (-y)) := by
  have hint : Integrable (Function.uncurry fun (u t : ℝ) => Real.cos (u * t) * (1 + u ^ 2)⁻¹)
      ((volume.restrict (Ioi (0 : ℝ))).prod (volume.restrict (Ioc 0 y))) := by
    have h1 : Integrable (fun z : ℝ × ℝ => (1 + z.1 ^ 2)⁻¹ * (1 : ℝ)) ((volume.restrict (Ioi (0 : ℝ))).prod (volume.restrict (Ioc 0 y))) :=
      Integrable.mul_prod (f := fun u : ℝ => (1 + u ^ 2)⁻¹) (g := fun _ : ℝ => (1 : ℝ)) integrable_inv_one_add_sq.integrableOn
        (integrable_const _)
    refine h1.mono (Measurable.aestronglyMeasurable (by fun_prop)) (ae_of_all _ fun z => ?_)
    obtain ⟨u, t⟩ := z
    simp only [Function.uncurry]
    rw [norm_mul, mul_one]
    exact mul_le_of_le_one_left (norm_nonneg _) (Real.abs_cos_le_one _)
  have e1 : ∫ u in Ioi (0 : ℝ), Real.sin (u * y) / u * (1 + u ^ 2)⁻¹ =
      ∫ u in Ioi (0 : ℝ), ∫ t in Ioc 0 y, Real.cos (u * t) * (1 + u ^ 2)⁻¹ := by
    refine setIntegral_congr_fun measurableSet_Ioi fun u hu => ?_
    have hu0 : u ≠ 0 := (ne_of_gt hu)
    rw [integral_mul_const, ← intervalIntegral.integral_of_le hy]
    congr 1
    rw [intervalIntegral.integral_comp_mul_left _ hu0, _root_.integral_cos]
    simp
    ring
  rw [e1, integral_integral_swap hint]
  have e2 : ∫ t in Ioc 0 y, ∫ u in Ioi (0 : ℝ), Real.cos (u * t) * (1 + u ^ 2)⁻¹ = ∫ t in Ioc 0 y, π / 2 * Real.exp (-t) := by
    refine setIntegral_congr_fun measurableSet_Ioc fun t ht => ?_
    rw [Attari.integral_cos, abs_of_pos ht.1]
  rw [e2, ← intervalIntegral.integral_of_le hy, intervalIntegral.integral_const_mul]
  congr 1
  rw [intervalIntegral.integral_comp_neg (fun t => Real.exp t)]
  simp

/-- The kernel of the formula of Attari. -/
theorem integral_kernel (y : ℝ) :
    ∫ u in Ioi (0 : ℝ), (Real.cos (u * y) + Real.sin (u * y) / u) * (1 + u ^ 2)⁻¹ = π * (min 1 (Real.exp y) - 1 / 2) := by
  have e : ∫ u in Ioi (0 : ℝ), (Real.cos (u * y) + Real.sin (u * y) / u) * (1 + u ^ 2)⁻¹ =
      (∫ u in Ioi (0 : ℝ), Real.cos (u * y) * (1 + u ^ 2)⁻¹) + ∫ u in Ioi (0 : ℝ), Real.sin (u * y) / u * (1 + u ^ 2)⁻¹ := by
    rw [← integral_add (integrableOn_kernel y) (integrableOn_kernel_sin y)]
    refine integral_congr_ae (ae_of_all _ fun u => ?_)
    ring
  rw [e, Attari.integral_cos]
  rcases le_total 0 y with hy | hy
  · rw [integral_sin_nonneg y hy, min_eq_left (Real.one_le_exp hy), abs_of_nonneg hy]
    ring
  · have h1 : ∫ u in Ioi (0 : ℝ), Real.sin (u * y) / u * (1 + u ^ 2)⁻¹ = -∫ u in Ioi (0 : ℝ), Real.sin (u * -y) / u * (1 + u ^ 2)⁻¹ := by
      rw [← integral_neg]
      refine integral_congr_ae (ae_of_all _ fun u => ?_)
      beta_reduce
      rw [mul_neg, Real.sin_neg]
      ring
    rw [h1, integral_sin_nonneg (-y) (by linarith), min_eq_right (Real.exp_le_one_iff.mpr hy), abs_of_nonpos hy, neg_neg]
    ring

/-- The formula of Attari for a law with a first moment. -/
theorem integral_law (law : Measure ℝ) [IsProbabilityMeasure law] (hx : Integrable (fun x : ℝ => x) law) (k : ℝ) :
    Integrable (fun u : ℝ => ∫ x, (Real.cos (u * (x - k)) + Real.sin (u * (x - k)) / u) * (1 + u ^ 2)⁻¹ ∂law) (volume.restrict (Ioi 0)) ∧
    ∫ u in Ioi (0 : ℝ), ∫ x, (Real.cos (u * (x - k)) + Real.sin (u * (x - k)) / u) * (1 + u ^ 2)⁻¹ ∂law =
      π * ((∫ x, min 1 (Real.exp (x - k)) ∂law) - 1 / 2) := by
  have hint : Integrable (Function.uncurry fun (u x : ℝ) => (Real.cos (u * (x - k)) + Real.sin (u * (x - k)) / u) * (1 + u ^ 2)⁻¹)
      ((volume.restrict (Ioi (0 : ℝ))).prod law) := by
    have h1 : Integrable (fun z : ℝ × ℝ => (1 + z.1 ^ 2)⁻¹ * (1 + |z.2 - k|)) ((volume.restrict (Ioi (0 : ℝ))).prod law) :=
      Integrable.mul_prod (f := fun u : ℝ => (1 + u ^ 2)⁻¹) (g := fun x : ℝ => 1 + |x - k|) integrable_inv_one_add_sq.integrableOn
        ((integrable_const _).add (hx.sub (integrable_const _)).abs)
    refine h1.mono (Measurable.aestronglyMeasurable (by fun_prop)) (ae_of_all _ fun z => ?_)
    obtain ⟨u, x⟩ := z
    simp only [Function.uncurry]
    rw [norm_mul, norm_mul, mul_comm]
    refine mul_le_mul_of_nonneg_left ?_ (norm_nonneg _)
    rw [Real.norm_eq_abs, Real.norm_eq_abs, abs_of_nonneg (a := 1 + |x - k|) (by positivity)]
    exact (abs_add_le _ _).trans (add_le_add (Real.abs_cos_le_one _) (abs_sin_div_le u (x - k)))
  refine ⟨hint.integral_prod_left, ?_⟩
  rw [integral_integral_swap hint]
  simp only [integral_kernel]
  rw [integral_const_mul, integral_sub _ (integrable_const _)]
  · simp
  · refine (integrable_const (1 : ℝ)).mono (Measurable.aestronglyMeasurable (by fun_prop)) (ae_of_all _ fun x => ?_)
    rw [Real.norm_eq_abs, abs_of_nonneg (le_min zero_le_one (Real.exp_pos _).le)]
    simp

end Attari
