import Verif.Lemmas.Attari
import Mathlib.Analysis.Fourier.RiemannLebesgueLemma
import Mathlib.Analysis.SpecialFunctions.Trigonometric.Sinc
import Mathlib.MeasureTheory.Function.SpecialFunctions.Sinc

/-! The integral of Dirichlet: `∫ sin u / u` over the positive numbers is `π / 2`. -/

namespace Dirichlet

open MeasureTheory Set Real Filter Topology

/-- The sine integral. -/
noncomputable def sinInt (x : ℝ) : ℝ := ∫ u in (0 : ℝ)..x, sinc u

theorem sinInt_sub (a b z : ℝ) (ha : 0 < a) (hab : a ≤ b) : ∫ u in a..b, sin (u * z) / u = sinInt (b * z) - sinInt (a * z) := by
  have hi : ∀ c d : ℝ, IntervalIntegrable sinc volume c d := fun c d => continuous_sinc.intervalIntegrable c d
  unfold sinInt
  rw [intervalIntegral.integral_interval_sub_left (hi _ _) (hi _ _), ← intervalIntegral.mul_integral_comp_mul_right, ← intervalIntegral.integral_const_mul]
  refine intervalIntegral.integral_congr fun u hu => ?_
  rw [uIcc_of_le hab] at hu
  have hu0 : u ≠ 0 := (ha.trans_le hu.1).ne'
  rcases eq_or_ne z 0 with h | h
  · rw [h]; simp
  · rw [sinc_of_ne_zero (mul_ne_zero hu0 h)]
    field_simp

theorem sinInt_neg (x : ℝ) : sinInt (-x) = -sinInt x := by
  unfold sinInt
  have := intervalIntegral.integral_comp_neg (f := sinc) (a := 0) (b := x)
  rw [neg_zero] at this
  simp only [sinc_neg] at this
  rw [this, intervalIntegral.integral_symm]

theorem sinInt_continuous : Continuous sinInt := intervalIntegral.continuous_primitive (fun a b => continuous_sinc.intervalIntegrable a b) 0

/-- The remainder in the formula below. -/
noncomputable def tail (u : ℝ) : ℝ := (Ioc 0 1).indicator (fun u => u * (1 + u ^ 2)⁻¹) u - (Ioi 1).indicator (fun u => u⁻¹ * (1 + u ^ 2)⁻¹) u

theorem tail_parts : IntegrableOn (fun u : ℝ => u * (1 + u ^ 2)⁻¹) (Ioc 0 1) ∧ IntegrableOn (fun u : ℝ => u⁻¹ * (1 + u ^ 2)⁻¹) (Ioi 1) := by
  have hc : Continuous fun u : ℝ => (1 + u ^ 2)⁻¹ := by
    refine Continuous.inv₀ (by fun_prop) fun u => ?_
    positivity
  constructor
  · exact ((continuous_id.mul hc).continuousOn.integrableOn_Icc (a := 0) (b := 1)).mono_set Ioc_subset_Icc_self
  · refine Integrable.mono (integrable_inv_one_add_sq.integrableOn (s := Ioi 1)) ?_ ?_
    · exact (Measurable.aestronglyMeasurable (by fun_prop))
    · refine (ae_restrict_iff' measurableSet_Ioi).2 (ae_of_all _ fun u hu => ?_)
      have hu' : (1 : ℝ) < u := hu
      rw [norm_mul]
      refine mul_le_of_le_one_left (norm_nonneg _) ?_
      rw [norm_inv, Real.norm_eq_abs, abs_of_pos (by linarith)]
      exact inv_le_one_of_one_le₀ hu'.le

theorem tail_integrable : Integrable tail :=
  ((integrable_indicator_iff measurableSet_Ioc).2 tail_parts.1).sub ((integrable_indicator_iff measurableSet_Ioi).2 tail_parts.2)

theorem sinInt_eq (y : ℝ) (hy : 0 < y) : sinInt y = π / 2 * (1 - exp (-y)) + ∫ u, sin (u * y) * tail u := by
  have h1 : sinInt y = ∫ u in Ioc (0 : ℝ) 1, sin (u * y) / u := by
    unfold sinInt
    have h := intervalIntegral.mul_integral_comp_mul_right (f := sinc) (a := 0) (b := 1) y
    rw [zero_mul, one_mul] at h
    rw [← h, ← intervalIntegral.integral_const_mul, intervalIntegral.integral_of_le zero_le_one]
    refine setIntegral_congr_fun measurableSet_Ioc fun u hu => ?_
    have hu0 : u ≠ 0 := hu.1.ne'
    rw [sinc_of_ne_zero (mul_ne_zero hu0 hy.ne')]
    field_simp
  have hk := Attari.integrableOn_kernel_sin y
  have hsplit : ∫ u in Ioi (0 : ℝ), sin (u * y) / u * (1 + u ^ 2)⁻¹ =
      (∫ u in Ioc (0 : ℝ) 1, sin (u * y) / u * (1 + u ^ 2)⁻¹) + ∫ u in Ioi (1 : ℝ), sin (u * y) / u * (1 + u ^ 2)⁻¹ := by
    rw [← Ioc_union_Ioi_eq_Ioi zero_le_one, setIntegral_union (Ioc_disjoint_Ioi le_rfl) measurableSet_Ioi (hk.mono_set Ioc_subset_Ioi_self)
      (hk.mono_set (Ioi_subset_Ioi zero_le_one))]
  have hb : ∀ G : ℝ → ℝ, ∀ s : Set ℝ, IntegrableOn G s → IntegrableOn (fun u => sin (u * y) * G u) s := by
    intro G s hG
    refine Integrable.mono hG ((Continuous.aestronglyMeasurable (f := fun u : ℝ => sin (u * y)) (by fun_prop)).mul hG.aestronglyMeasurable) (ae_of_all _ fun u => ?_)
    rw [norm_mul]
    exact mul_le_of_le_one_left (norm_nonneg _) (abs_sin_le_one _)
  have htail : ∫ u, sin (u * y) * tail u = (∫ u in Ioc (0 : ℝ) 1, sin (u * y) * (u * (1 + u ^ 2)⁻¹)) -
      ∫ u in Ioi (1 : ℝ), sin (u * y) * (u⁻¹ * (1 + u ^ 2)⁻¹) := by
    rw [← integral_indicator measurableSet_Ioc, ← integral_indicator measurableSet_Ioi, ← integral_sub]
    · refine integral_congr_ae (ae_of_all _ fun u => ?_)
      unfold tail
      simp only [indicator]
      split_ifs <;> ring
    · exact (integrable_indicator_iff measurableSet_Ioc).2 (hb _ _ tail_parts.1)
    · exact (integrable_indicator_iff measurableSet_Ioi).2 (hb _ _ tail_parts.2)
  have hIoc : ∫ u in Ioc (0 : ℝ) 1, sin (u * y) / u = (∫ u in Ioc (0 : ℝ) 1, sin (u * y) / u * (1 + u ^ 2)⁻¹) +
      ∫ u in Ioc (0 : ℝ) 1, sin (u * y) * (u * (1 + u ^ 2)⁻¹) := by
    rw [← integral_add (hk.mono_set Ioc_subset_Ioi_self) (hb _ _ tail_parts.1)]
    refine setIntegral_congr_fun measurableSet_Ioc fun u hu => ?_
    have hu0 : u ≠ 0 := hu.1.ne'
    have hu1 : 1 + u ^ 2 ≠ 0 := by positivity
    field_simp
  have hIoi : ∫ u in Ioi (1 : ℝ), sin (u * y) / u * (1 + u ^ 2)⁻¹ = ∫ u in Ioi (1 : ℝ), sin (u * y) * (u⁻¹ * (1 + u ^ 2)⁻¹) := by
    refine setIntegral_congr_fun measurableSet_Ioi fun u _ => ?_
    rw [div_eq_mul_inv, mul_assoc]
  have hJ := Attari.integral_sin_nonneg y hy.le
  rw [hsplit, hIoi] at hJ
  rw [h1, hIoc, htail]
  linarith

theorem sinInt_bounded : ∃ C, ∀ x, |sinInt x| ≤ C := by
  refine ⟨π / 2 + ∫ u, |tail u|, ?_⟩
  have hnn : 0 ≤ ∫ u, |tail u| := integral_nonneg fun _ => abs_nonneg _
  have hpos : ∀ y, 0 < y → |sinInt y| ≤ π / 2 + ∫ u, |tail u| := by
    intro y hy
    rw [sinInt_eq y hy]
    refine (abs_add_le _ _).trans (add_le_add ?_ ?_)
    · have h1 := exp_pos (-y)
      have h2 : exp (-y) < 1 := by
        rw [← exp_zero]
        exact exp_lt_exp.2 (by linarith)
      rw [abs_of_nonneg (mul_nonneg (by positivity) (by linarith))]
      have := pi_pos
      nlinarith
    · rw [← Real.norm_eq_abs]
      refine norm_integral_le_of_norm_le tail_integrable.abs (ae_of_all _ fun u => ?_)
      rw [norm_mul]
      exact mul_le_of_le_one_left (norm_nonneg _) (abs_sin_le_one _)
  intro x
  rcases lt_trichotomy x 0 with h | h | h
  · have := hpos (-x) (by linarith)
    rwa [sinInt_neg, abs_neg] at this
  · rw [h, sinInt, intervalIntegral.integral_same, abs_zero]
    have := pi_pos
    linarith
  · exact hpos x h

theorem tendsto_sin_tail : Tendsto (fun y : ℝ => ∫ u, sin (u * y) * tail u) atTop (𝓝 0) := by
  have h := Real.tendsto_integral_exp_smul_cocompact (fun u => ((tail u : ℝ) : ℂ))
  have hco : Tendsto (fun y : ℝ => y / (2 * π)) atTop (cocompact ℝ) := by
    rw [_root_.cocompact_eq_atBot_atTop]
    exact (tendsto_id.atTop_div_const (by positivity)).mono_right le_sup_right
  have h2 := (Complex.continuous_im.tendsto _).comp (h.comp hco)
  have e : ∀ y : ℝ, (∫ v : ℝ, (Real.fourierChar (-(v * (y / (2 * π))))) • ((tail v : ℝ) : ℂ)).im = -∫ u, sin (u * y) * tail u := by
    intro y
    have hint : Integrable (fun v : ℝ => (Real.fourierChar (-(v * (y / (2 * π))))) • ((tail v : ℝ) : ℂ)) := by
      have := (VectorFourier.fourierIntegral_convergent_iff (V := ℝ) (W := ℝ) (μ := volume) (L := innerₗ ℝ) (f := fun u => ((tail u : ℝ) : ℂ))
        Real.continuous_fourierChar (by exact continuous_inner) (y / (2 * π))).2 tail_integrable.ofReal
      refine this.congr (ae_of_all _ fun v => ?_)
      simp [mul_comm]
    rw [← Complex.imCLM_apply, ← ContinuousLinearMap.integral_comp_comm _ hint, ← integral_neg]
    refine integral_congr_ae (ae_of_all _ fun v => ?_)
    simp only [Complex.imCLM_apply, Circle.smul_def, Real.fourierChar_apply, smul_eq_mul, Complex.im_mul_ofReal]
    have e2 : ((2 * π * -(v * (y / (2 * π))) : ℝ) : ℂ) * Complex.I = ((-(v * y) : ℝ) : ℂ) * Complex.I := by
      congr 2
      have := pi_pos
      field_simp
    rw [e2, Complex.exp_ofReal_mul_I_im, sin_neg]
    ring
  have h3 : Tendsto (fun y : ℝ => -∫ u, sin (u * y) * tail u) atTop (𝓝 0) := by
    refine h2.congr fun y => ?_
    rw [← e y]
    rfl
  simpa using h3.neg

theorem sinInt_atTop : Tendsto sinInt atTop (𝓝 (π / 2)) := by
  have h1 : Tendsto (fun y : ℝ => π / 2 * (1 - exp (-y)) + ∫ u, sin (u * y) * tail u) atTop (𝓝 (π / 2 * (1 - 0) + 0)) := by
    refine Tendsto.add (Tendsto.const_mul _ (tendsto_const_nhds.sub ?_)) tendsto_sin_tail
    exact tendsto_exp_neg_atTop_nhds_zero
  rw [sub_zero, mul_one, add_zero] at h1
  refine h1.congr' ?_
  filter_upwards [eventually_gt_atTop 0] with y hy
  exact (sinInt_eq y hy).symm

theorem sinInt_zero : sinInt 0 = 0 := intervalIntegral.integral_same

/-- The truncated integrals are bounded and converge to `π / 2` times the sign. -/
theorem truncated_tendsto (z : ℝ) :
    Tendsto (fun b : ℝ × ℝ => sinInt (b.2 * z) - sinInt (b.1 * z)) (𝓝[>] 0 ×ˢ atTop) (𝓝 (π / 2 * SignType.sign z)) := by
  have h1 : Tendsto (fun b : ℝ × ℝ => sinInt (b.1 * z)) (𝓝[>] 0 ×ˢ atTop) (𝓝 0) := by
    have hc : Tendsto (fun a : ℝ => sinInt (a * z)) (𝓝[>] 0) (𝓝 (sinInt (0 * z))) :=
      ((sinInt_continuous.comp (continuous_mul_const z)).tendsto 0).mono_left nhdsWithin_le_nhds
    rw [zero_mul, sinInt_zero] at hc
    exact hc.comp tendsto_fst
  have h2 : Tendsto (fun b : ℝ × ℝ => sinInt (b.2 * z)) (𝓝[>] 0 ×ˢ atTop) (𝓝 (π / 2 * SignType.sign z)) := by
    have : Tendsto (fun b : ℝ => sinInt (b * z)) atTop (𝓝 (π / 2 * SignType.sign z)) := by
      rcases lt_trichotomy z 0 with h | h | h
      · have hm : Tendsto (fun b : ℝ => sinInt (b * -z)) atTop (𝓝 (π / 2)) := sinInt_atTop.comp (tendsto_id.atTop_mul_const (by linarith))
        have := hm.neg
        rw [sign_neg h]
        simp only [mul_neg, sinInt_neg, neg_neg] at this ⊢
        simpa using this
      · rw [h]
        simp [sinInt_zero]
      · rw [sign_pos h]
        have hm : Tendsto (fun b : ℝ => sinInt (b * z)) atTop (𝓝 (π / 2)) := sinInt_atTop.comp (tendsto_id.atTop_mul_const h)
        simpa using hm
    exact this.comp tendsto_snd
  simpa using h2.sub h1

end Dirichlet
