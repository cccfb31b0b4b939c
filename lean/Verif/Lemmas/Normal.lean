import Verif.Spec.Normal
import Verif.Model.NormalCdf
import Mathlib.MeasureTheory.Integral.IntegralEqImproper
import Mathlib.MeasureTheory.Integral.IntervalIntegral.FundThmCalculus
import Mathlib.Analysis.SpecialFunctions.Gaussian.GaussianIntegral
import Mathlib.Tactic.LinearCombination
import Mathlib.Tactic.Linarith
import Mathlib.Tactic.Ring
import Mathlib.Tactic.FieldSimp
import Mathlib.Tactic.Positivity

/-! Facts about the standard normal distribution function. -/

namespace Lemmas
open Model Spec ProbabilityTheory MeasureTheory Set

/-- Standard normal density. -/
noncomputable def phi (x : ℝ) : ℝ := gaussianPDFReal 0 1 x

theorem phi_eq (x : ℝ) : phi x = (Real.sqrt (2 * Real.pi))⁻¹ * Real.exp (-x ^ 2 / 2) := by
  simp [phi, gaussianPDFReal]

theorem phi_pos (x : ℝ) : 0 < phi x := gaussianPDFReal_pos _ _ _ (by simp)

theorem phi_neg (x : ℝ) : phi (-x) = phi x := by simp [phi_eq]

theorem phi_continuous : Continuous phi := by
  have : phi = fun x => (Real.sqrt (2 * Real.pi))⁻¹ * Real.exp (-x ^ 2 / 2) := funext phi_eq
  rw [this]; fun_prop

theorem phi_integrable : Integrable phi := integrable_gaussianPDFReal 0 1

theorem phi_integral : ∫ x, phi x = 1 := integral_gaussianPDFReal_eq_one 0 (by simp)

theorem normalCdf_eq (x : ℝ) : normalCdf x = ∫ t in Iic x, phi t := by
  unfold normalCdf
  rw [cdf_eq_real, measureReal_def, gaussianReal_apply_eq_integral 0 (by simp), ENNReal.toReal_ofReal]
  · rfl
  · exact setIntegral_nonneg measurableSet_Iic (fun t _ => (phi_pos t).le)

theorem integral_Ioi_phi (x : ℝ) : ∫ t in Ioi x, phi t = normalCdf (-x) := by
  rw [normalCdf_eq]
  have := integral_comp_neg_Iic (-x) phi
  simp only [phi_neg, neg_neg] at this
  exact this.symm

theorem normalCdf_neg (x : ℝ) : normalCdf (-x) = 1 - normalCdf x := by
  rw [← integral_Ioi_phi, normalCdf_eq, ← phi_integral]
  have := integral_add_compl (measurableSet_Iic (a := x)) phi_integrable
  rw [compl_Iic] at this
  linarith

theorem normalCdf_zero : normalCdf 0 = 1 / 2 := by
  have := normalCdf_neg 0
  rw [neg_zero] at this
  linarith

theorem normalCdf_sub (x y : ℝ) : normalCdf y - normalCdf x = ∫ t in x..y, phi t := by
  rw [normalCdf_eq, normalCdf_eq]
  exact intervalIntegral.integral_Iic_sub_Iic phi_integrable.integrableOn phi_integrable.integrableOn

theorem normalCdf_strictMono : StrictMono normalCdf := by
  intro x y hxy
  have h := normalCdf_sub x y
  have : 0 < ∫ t in x..y, phi t :=
    intervalIntegral.intervalIntegral_pos_of_pos (phi_continuous.intervalIntegrable _ _) phi_pos hxy
  linarith

theorem normalCdf_pos (x : ℝ) : 0 < normalCdf x := by
  have h1 : 0 ≤ normalCdf (x - 1) := cdf_nonneg _ _
  have h2 := normalCdf_strictMono (show x - 1 < x by linarith)
  linarith

theorem normalCdf_lt_one (x : ℝ) : normalCdf x < 1 := by
  have := normalCdf_pos (-x)
  rw [normalCdf_neg] at this
  linarith

theorem normalCdf_hasDerivAt (x : ℝ) : HasDerivAt normalCdf (phi x) x := by
  have h : normalCdf = fun y => normalCdf 0 + ∫ t in (0 : ℝ)..y, phi t := by
    funext y; rw [← normalCdf_sub]; ring
  rw [h]
  apply HasDerivAt.const_add
  exact intervalIntegral.integral_hasDerivAt_right (phi_continuous.intervalIntegrable _ _)
    (phi_continuous.stronglyMeasurableAtFilter _ _) phi_continuous.continuousAt

theorem normalCdf_continuous : Continuous normalCdf :=
  continuous_iff_continuousAt.mpr (fun x => (normalCdf_hasDerivAt x).continuousAt)

/-- The code's `_ncdf` is the standard normal distribution function. -/
theorem ncdf_eq (x : ℝ) : ncdf x = normalCdf x := by
  have h1 := normalCdf_sub 0 x
  rw [normalCdf_zero] at h1
  have h2 := intervalIntegral.integral_comp_div (a := 0) (b := x) (fun t => Real.exp (-t ^ 2))
    (show Real.sqrt 2 ≠ 0 by positivity)
  have h3 : ∀ t : ℝ, Real.exp (-(t / Real.sqrt 2) ^ 2) = Real.exp (-t ^ 2 / 2) := by
    intro t
    rw [div_pow, Real.sq_sqrt (by norm_num)]; congr 1; ring
  simp only [h3, zero_div, smul_eq_mul] at h2
  have h4 : ∫ t in (0 : ℝ)..x, phi t = (Real.sqrt (2 * Real.pi))⁻¹ * ∫ t in (0 : ℝ)..x, Real.exp (-t ^ 2 / 2) := by
    rw [← intervalIntegral.integral_const_mul]
    congr 1
    funext t
    exact phi_eq t
  unfold ncdf erf
  rw [h4, h2, Real.sqrt_mul (by norm_num)] at h1
  have h5 : Real.sqrt Real.pi ≠ 0 := by positivity
  have h6 : Real.sqrt 2 ≠ 0 := by positivity
  field_simp at h1 ⊢
  linarith

/-- Chernoff bound. -/
theorem normalCdf_le_exp (x : ℝ) (hx : x ≤ 0) : normalCdf x ≤ Real.exp (-x ^ 2 / 2) := by
  have hint : Integrable (fun t => Real.exp (-x ^ 2 / 2) * phi (t - x)) := (phi_integrable.comp_sub_right x).const_mul _
  rw [normalCdf_eq]
  calc ∫ t in Iic x, phi t ≤ ∫ t in Iic x, Real.exp (-x ^ 2 / 2) * phi (t - x) := by
        apply setIntegral_mono_on phi_integrable.integrableOn hint.integrableOn measurableSet_Iic
        intro t ht
        have ht' : t ≤ x := ht
        rw [phi_eq, phi_eq, mul_left_comm, ← Real.exp_add]
        apply mul_le_mul_of_nonneg_left _ (by positivity)
        apply Real.exp_le_exp.mpr
        nlinarith [mul_nonneg_of_nonpos_of_nonpos hx (show t - x ≤ 0 by linarith)]
    _ ≤ ∫ t, Real.exp (-x ^ 2 / 2) * phi (t - x) := by
        apply setIntegral_le_integral hint
        exact Filter.Eventually.of_forall (fun t => mul_nonneg (Real.exp_pos _).le (phi_pos _).le)
    _ = Real.exp (-x ^ 2 / 2) := by
        rw [integral_const_mul, integral_sub_right_eq_self phi x, phi_integral, mul_one]

theorem integral_Ioi_shift (f : ℝ → ℝ) (a s : ℝ) : ∫ t in Ioi a, f (t - s) = ∫ t in Ioi (a - s), f t := by
  rw [← integral_indicator measurableSet_Ioi, ← integral_indicator measurableSet_Ioi,
    ← integral_sub_right_eq_self ((Ioi (a - s)).indicator f) s]
  congr 1
  funext t
  simp [indicator]

/-- Tilting: `exp (s z - s^2/2)` times the density is the shifted density. -/
theorem exp_mul_phi (s z : ℝ) : Real.exp (s * z - s ^ 2 / 2) * phi z = phi (z - s) := by
  rw [phi_eq, phi_eq, mul_left_comm, ← Real.exp_add]
  congr 2
  ring

theorem integral_Ioi_tilted (a s : ℝ) : ∫ z in Ioi a, Real.exp (s * z - s ^ 2 / 2) * phi z = normalCdf (s - a) := by
  simp only [exp_mul_phi]
  rw [integral_Ioi_shift phi, integral_Ioi_phi, neg_sub]

theorem phi_hasDerivAt (x : ℝ) : HasDerivAt phi (-x * phi x) x := by
  have h : phi = fun x => (Real.sqrt (2 * Real.pi))⁻¹ * Real.exp (-x ^ 2 / 2) := funext phi_eq
  have h1 : HasDerivAt (fun x : ℝ => -x ^ 2 / 2) (-x) x := by
    have h : HasDerivAt (fun x : ℝ => -x ^ 2 / 2) (-((2 : ℕ) * x ^ (2 - 1)) / 2) x :=
      ((hasDerivAt_pow 2 x).neg).div_const 2
    exact h.congr_deriv (by push_cast; ring)
  have h2 := (h1.exp).const_mul ((Real.sqrt (2 * Real.pi))⁻¹)
  rw [h]
  exact h2.congr_deriv (by ring)

theorem mul_phi_integrable : Integrable (fun x => x * phi x) := by
  have h := integrable_mul_exp_neg_mul_sq (b := 1 / 2) (by norm_num)
  have h2 := h.const_mul ((Real.sqrt (2 * Real.pi))⁻¹)
  refine h2.congr (Filter.Eventually.of_forall (fun x => ?_))
  simp only [phi_eq]
  rw [show -(1 / 2) * x ^ 2 = -x ^ 2 / 2 by ring]
  ring

theorem phi_tendsto_atTop : Filter.Tendsto phi Filter.atTop (nhds 0) :=
  tendsto_zero_of_hasDerivAt_of_integrableOn_Ioi (a := 0) (fun x _ => phi_hasDerivAt x)
    ((mul_phi_integrable.neg.congr (Filter.Eventually.of_forall (fun x => by simp))).integrableOn)
    phi_integrable.integrableOn

theorem integral_Ioi_mul_phi (a : ℝ) : ∫ z in Ioi a, z * phi z = phi a := by
  have h := integral_Ioi_of_hasDerivAt_of_tendsto (a := a) (f := phi) (f' := fun x => -x * phi x) (m := 0)
    phi_continuous.continuousWithinAt (fun x _ => phi_hasDerivAt x)
    ((mul_phi_integrable.neg.congr (Filter.Eventually.of_forall (fun x => by simp))).integrableOn) phi_tendsto_atTop
  have h2 : ∫ z in Ioi a, -z * phi z = -∫ z in Ioi a, z * phi z := by
    rw [← integral_neg]; congr 1; funext z; ring
  linarith

end Lemmas
