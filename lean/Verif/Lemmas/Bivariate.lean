import Verif.Lemmas.ImpliedVol
import Mathlib.Analysis.Calculus.ParametricIntegral
import Mathlib.MeasureTheory.Measure.Prod
import Mathlib.MeasureTheory.Integral.Prod
import Mathlib.Analysis.SpecialFunctions.Trigonometric.InverseDeriv
import Mathlib.Analysis.SpecialFunctions.Trigonometric.Deriv

/-! The bivariate normal distribution function as an integral over the correlation (Plackett). -/

namespace Lemmas
open Model Spec ProbabilityTheory MeasureTheory Set Filter Topology

/-- `P (X ≤ h, X sin θ + Y cos θ ≤ k)` for independent standard normal variables. -/
noncomputable def bivariateAt (h k θ : ℝ) : ℝ := ∫ x in Iic h, phi x * normalCdf ((k - x * Real.sin θ) / Real.cos θ)

theorem bivariateAt_zero (h k : ℝ) : bivariateAt h k 0 = normalCdf h * normalCdf k := by
  unfold bivariateAt
  simp only [Real.sin_zero, Real.cos_zero, mul_zero, sub_zero, div_one]
  rw [integral_mul_const, ← normalCdf_eq]

theorem phi_mul_phi (x k θ : ℝ) (hc : Real.cos θ ≠ 0) :
    phi x * phi ((k - x * Real.sin θ) / Real.cos θ) =
      1 / (2 * Real.pi) * Real.exp (-(x ^ 2 - 2 * k * x * Real.sin θ + k ^ 2) / (2 * Real.cos θ ^ 2)) := by
  rw [phi_eq, phi_eq]
  have h1 : (Real.sqrt (2 * Real.pi))⁻¹ * (Real.sqrt (2 * Real.pi))⁻¹ = 1 / (2 * Real.pi) := by
    rw [← mul_inv, Real.mul_self_sqrt (by positivity), one_div]
  have h2 : Real.exp (-x ^ 2 / 2) * Real.exp (-((k - x * Real.sin θ) / Real.cos θ) ^ 2 / 2) =
      Real.exp (-(x ^ 2 - 2 * k * x * Real.sin θ + k ^ 2) / (2 * Real.cos θ ^ 2)) := by
    rw [← Real.exp_add]
    congr 1
    have := Real.sin_sq_add_cos_sq θ
    field_simp
    linear_combination (-x ^ 2) * this
  rw [← h1, ← h2]
  ring

theorem arg_hasDerivAt (k x θ : ℝ) (hc : Real.cos θ ≠ 0) :
    HasDerivAt (fun θ => (k - x * Real.sin θ) / Real.cos θ) ((k * Real.sin θ - x) / Real.cos θ ^ 2) θ := by
  have h := (((Real.hasDerivAt_sin θ).const_mul x).const_sub k).div (Real.hasDerivAt_cos θ) hc
  refine h.congr_deriv ?_
  have := Real.sin_sq_add_cos_sq θ
  congr 1
  linear_combination (-x) * this

theorem density_integral (h k θ : ℝ) (hc : Real.cos θ ≠ 0)
    (hi : IntegrableOn (fun x => phi x * (phi ((k - x * Real.sin θ) / Real.cos θ) * ((k * Real.sin θ - x) / Real.cos θ ^ 2))) (Iic h)) :
    ∫ x in Iic h, phi x * (phi ((k - x * Real.sin θ) / Real.cos θ) * ((k * Real.sin θ - x) / Real.cos θ ^ 2)) =
      phi h * phi ((k - h * Real.sin θ) / Real.cos θ) := by
  have hd : ∀ x ∈ Iic h, HasDerivAt (fun x => phi x * phi ((k - x * Real.sin θ) / Real.cos θ))
      (phi x * (phi ((k - x * Real.sin θ) / Real.cos θ) * ((k * Real.sin θ - x) / Real.cos θ ^ 2))) x := by
    intro x _
    have e : (fun x => phi x * phi ((k - x * Real.sin θ) / Real.cos θ)) = fun x =>
      1 / (2 * Real.pi) * Real.exp (-(x ^ 2 - 2 * k * x * Real.sin θ + k ^ 2) / (2 * Real.cos θ ^ 2)) :=
      funext fun x => phi_mul_phi x k θ hc
    rw [← mul_assoc, phi_mul_phi x k θ hc, e]
    have h1 : HasDerivAt (fun x => -(x ^ 2 - 2 * k * x * Real.sin θ + k ^ 2) / (2 * Real.cos θ ^ 2))
        ((k * Real.sin θ - x) / Real.cos θ ^ 2) x := by
      have := ((((hasDerivAt_id x).pow 2).sub (((hasDerivAt_id x).const_mul (2 * k)).mul_const (Real.sin θ))).add_const (k ^ 2)).neg.div_const
        (2 * Real.cos θ ^ 2)
      refine this.congr_deriv ?_
      simp only [id, Nat.cast_ofNat]
      field_simp
      ring
    have := (h1.exp).const_mul (1 / (2 * Real.pi))
    refine this.congr_deriv ?_
    ring
  have hlim : Tendsto (fun x => phi x * phi ((k - x * Real.sin θ) / Real.cos θ)) atBot (𝓝 0) := by
    have h0 : Tendsto phi atBot (𝓝 0) := by
      have := phi_tendsto_atTop.comp tendsto_neg_atBot_atTop
      refine this.congr fun x => phi_neg x
    refine squeeze_zero (fun x => (mul_pos (phi_pos _) (phi_pos _)).le)
      (fun x => mul_le_mul_of_nonneg_left (phi_le _) (phi_pos x).le) ?_
    simpa using h0.mul_const (phi 0)
  have := integral_Iic_of_hasDerivAt_of_tendsto' hd hi hlim
  rw [this, sub_zero]

theorem bound_integrable (C k : ℝ) : Integrable (fun x => phi x * (phi 0 * ((|k| + |x|) / C))) := by
  have h1 : Integrable (fun x => phi x * (phi 0 * |k| / C)) := phi_integrable.mul_const _
  have h2 : Integrable (fun x => |x * phi x| * (phi 0 / C)) := mul_phi_integrable.abs.mul_const _
  refine (h1.add h2).congr (Eventually.of_forall fun x => ?_)
  simp only [Pi.add_apply, abs_mul, abs_of_pos (phi_pos x)]
  ring

theorem integrand_le (k x θ C : ℝ) (hC : 0 < C) (hc : C ≤ Real.cos θ ^ 2) :
    |phi x * (phi ((k - x * Real.sin θ) / Real.cos θ) * ((k * Real.sin θ - x) / Real.cos θ ^ 2))| ≤ phi x * (phi 0 * ((|k| + |x|) / C)) := by
  rw [abs_mul, abs_of_pos (phi_pos x), abs_mul, abs_of_pos (phi_pos _)]
  refine mul_le_mul_of_nonneg_left ?_ (phi_pos x).le
  refine mul_le_mul (phi_le _) ?_ (abs_nonneg _) (phi_pos 0).le
  rw [abs_div, abs_of_pos (show 0 < Real.cos θ ^ 2 by linarith)]
  refine div_le_div₀ (by positivity) ?_ hC hc
  refine (abs_sub _ _).trans ?_
  rw [abs_mul]
  have := Real.abs_sin_le_one θ
  nlinarith [abs_nonneg k]

theorem bivariateAt_hasDerivAt (h k θ : ℝ) (hc : 0 < Real.cos θ) :
    HasDerivAt (bivariateAt h k) (phi h * phi ((k - h * Real.sin θ) / Real.cos θ)) θ := by
  have hev : ∀ᶠ y in 𝓝 θ, Real.cos θ / 2 < Real.cos y :=
    (Real.continuous_cos.tendsto θ).eventually (lt_mem_nhds (by linarith))
  have hC : 0 < (Real.cos θ / 2) ^ 2 := by positivity
  have hmeas : ∀ y, AEStronglyMeasurable (fun x => phi x * normalCdf ((k - x * Real.sin y) / Real.cos y)) (volume.restrict (Iic h)) := by
    intro y
    have : Continuous fun x => phi x * normalCdf ((k - x * Real.sin y) / Real.cos y) := by
      have h1 := phi_continuous
      have h2 := normalCdf_continuous
      fun_prop
    exact this.aestronglyMeasurable
  have hmeas' : Continuous fun x => phi x * (phi ((k - x * Real.sin θ) / Real.cos θ) * ((k * Real.sin θ - x) / Real.cos θ ^ 2)) := by
    have h1 := phi_continuous
    fun_prop
  have hb := (bound_integrable ((Real.cos θ / 2) ^ 2) k).integrableOn (s := Iic h)
  have key := hasDerivAt_integral_of_dominated_loc_of_deriv_le (μ := volume.restrict (Iic h)) (𝕜 := ℝ)
    (F := fun y x => phi x * normalCdf ((k - x * Real.sin y) / Real.cos y))
    (F' := fun y x => phi x * (phi ((k - x * Real.sin y) / Real.cos y) * ((k * Real.sin y - x) / Real.cos y ^ 2)))
    (x₀ := θ) (bound := fun x => phi x * (phi 0 * ((|k| + |x|) / (Real.cos θ / 2) ^ 2)))
    hev (Eventually.of_forall hmeas) ?_ hmeas'.aestronglyMeasurable ?_ hb ?_
  · refine key.2.congr_deriv ?_
    refine density_integral h k θ hc.ne' ?_
    exact key.1
  · refine Integrable.mono' phi_integrable.integrableOn (hmeas θ) (Eventually.of_forall fun x => ?_)
    rw [Real.norm_eq_abs, abs_of_pos (mul_pos (phi_pos _) (normalCdf_pos _))]
    have := normalCdf_lt_one ((k - x * Real.sin θ) / Real.cos θ)
    have := phi_pos x
    nlinarith
  · refine Eventually.of_forall fun x y hy => ?_
    have hy : Real.cos θ / 2 < Real.cos y := hy
    rw [Real.norm_eq_abs]
    exact integrand_le k x y _ hC (by nlinarith)
  · refine Eventually.of_forall fun x y hy => ?_
    have hy : Real.cos θ / 2 < Real.cos y := hy
    exact ((normalCdf_hasDerivAt _).comp y (arg_hasDerivAt k x y (by linarith))).const_mul (phi x)

theorem cos_pos_between {θ y : ℝ} (h1 : -(Real.pi / 2) < θ) (h2 : θ < Real.pi / 2) (hy : y ∈ uIcc 0 θ) : 0 < Real.cos y := by
  have hp := Real.pi_pos
  refine Real.cos_pos_of_mem_Ioo ⟨?_, ?_⟩
  · rcases le_total 0 θ with h | h
    · rw [uIcc_of_le h] at hy; linarith [hy.1]
    · rw [uIcc_of_ge h] at hy; linarith [hy.1]
  · rcases le_total 0 θ with h | h
    · rw [uIcc_of_le h] at hy; linarith [hy.2]
    · rw [uIcc_of_ge h] at hy; linarith [hy.2]

/-- Plackett's identity. -/
theorem bivariateAt_eq (h k θ : ℝ) (h1 : -(Real.pi / 2) < θ) (h2 : θ < Real.pi / 2) :
    bivariateAt h k θ = normalCdf h * normalCdf k +
      ∫ y in (0 : ℝ)..θ, 1 / (2 * Real.pi) * Real.exp (-(h ^ 2 - 2 * k * h * Real.sin y + k ^ 2) / (2 * Real.cos y ^ 2)) := by
  have hint := intervalIntegral.integral_eq_sub_of_hasDerivAt (a := 0) (b := θ) (f := bivariateAt h k)
    (f' := fun y => 1 / (2 * Real.pi) * Real.exp (-(h ^ 2 - 2 * k * h * Real.sin y + k ^ 2) / (2 * Real.cos y ^ 2)))
    (fun y hy => by
      have hc := cos_pos_between h1 h2 hy
      rw [← phi_mul_phi h k y hc.ne']
      exact bivariateAt_hasDerivAt h k y hc)
    (by
      refine ContinuousOn.intervalIntegrable ?_
      refine ContinuousOn.mul continuousOn_const (Real.continuous_exp.comp_continuousOn ?_)
      refine ContinuousOn.div (by fun_prop) (by fun_prop) ?_
      intro y hy
      have := cos_pos_between h1 h2 hy
      positivity)
  rw [hint, bivariateAt_zero]
  ring

/-- The double integral is a probability. -/
theorem bivariateAt_probability (h k θ : ℝ) (hc : 0 < Real.cos θ) :
    bivariateAt h k θ = ((gaussianReal 0 1).prod (gaussianReal 0 1)).real {p : ℝ × ℝ | p.1 ≤ h ∧ p.1 * Real.sin θ + p.2 * Real.cos θ ≤ k} := by
  have hS : MeasurableSet {p : ℝ × ℝ | p.1 ≤ h ∧ p.1 * Real.sin θ + p.2 * Real.cos θ ≤ k} := by
    refine MeasurableSet.inter (measurableSet_le measurable_fst measurable_const) ?_
    have hf : Measurable fun p : ℝ × ℝ => p.1 * Real.sin θ + p.2 * Real.cos θ := by fun_prop
    exact measurableSet_le hf measurable_const
  rw [measureReal_def, Measure.prod_apply hS]
  have hsec : ∀ x : ℝ, (gaussianReal 0 1) (Prod.mk x ⁻¹' {p : ℝ × ℝ | p.1 ≤ h ∧ p.1 * Real.sin θ + p.2 * Real.cos θ ≤ k}) =
      ENNReal.ofReal ((Iic h).indicator (fun x => normalCdf ((k - x * Real.sin θ) / Real.cos θ)) x) := by
    intro x
    by_cases hx : x ≤ h
    · have e : Prod.mk x ⁻¹' {p : ℝ × ℝ | p.1 ≤ h ∧ p.1 * Real.sin θ + p.2 * Real.cos θ ≤ k} = Iic ((k - x * Real.sin θ) / Real.cos θ) := by
        ext y
        simp only [mem_preimage, mem_setOf_eq, mem_Iic, hx, true_and]
        rw [le_div_iff₀ hc]
        constructor <;> intro h <;> linarith
      rw [e, indicator_of_mem (show x ∈ Iic h from hx)]
      unfold normalCdf
      rw [cdf_eq_real, ofReal_measureReal]
    · have e : Prod.mk x ⁻¹' {p : ℝ × ℝ | p.1 ≤ h ∧ p.1 * Real.sin θ + p.2 * Real.cos θ ≤ k} = ∅ := by
        ext y
        simp [hx]
      rw [e, indicator_of_notMem (show x ∉ Iic h from hx)]
      simp
  simp only [hsec]
  rw [← integral_eq_lintegral_of_nonneg_ae]
  · rw [integral_gaussianReal_eq_integral_smul (by simp)]
    unfold bivariateAt
    rw [← integral_indicator measurableSet_Iic]
    congr 1
    funext x
    by_cases hx : x ∈ Iic h
    · rw [indicator_of_mem hx, indicator_of_mem hx]; rfl
    · rw [indicator_of_notMem hx, indicator_of_notMem hx, smul_zero]
  · refine Eventually.of_forall fun x => indicator_nonneg (fun y _ => (normalCdf_pos _).le) x
  · refine (Measurable.indicator ?_ measurableSet_Iic).aestronglyMeasurable
    have := normalCdf_continuous
    exact Continuous.measurable (by fun_prop)

end Lemmas
