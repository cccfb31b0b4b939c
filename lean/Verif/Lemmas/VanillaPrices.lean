import Verif.Lemmas.Normal
import Verif.Model.VanillaPrices

/-! Expectations of piecewise affine payoffs under the lognormal and normal laws. -/

namespace Lemmas
open Model Spec ProbabilityTheory MeasureTheory Set

theorem normalExpectation_std (m s : ℝ) (f : ℝ → ℝ) (hf : Measurable f) :
    normalExpectation m s f = ∫ z, phi z * f (m + s * z) := by
  have h1 : gaussianReal m (Real.toNNReal (s ^ 2)) = (gaussianReal 0 1).map (fun z => m + s * z) := by
    have h2 := gaussianReal_map_const_mul (μ := 0) (v := 1) s
    have h3 := gaussianReal_map_const_add (μ := s * 0) (v := NNReal.mk (s ^ 2) (sq_nonneg s) * 1) m
    rw [← h2, Measure.map_map (by fun_prop) (by fun_prop)] at h3
    have h4 : Real.toNNReal (s ^ 2) = NNReal.mk (s ^ 2) (sq_nonneg s) := by
      apply NNReal.eq; exact Real.coe_toNNReal _ (sq_nonneg s)
    rw [h4]
    simp only [mul_zero, zero_add, mul_one] at h3
    exact h3.symm
  unfold normalExpectation
  rw [h1, integral_map (by fun_prop) hf.aestronglyMeasurable, integral_gaussianReal_eq_integral_smul (by simp)]
  rfl

/-- Expectation of `α X + β + (γ X + δ) 1{z > a}` for an integrable `X`. -/
theorem affine_expectation (X : ℝ → ℝ) (hX : Integrable (fun z => phi z * X z)) (a α β γ δ : ℝ) :
    ∫ z, phi z * (α * X z + β + if a < z then γ * X z + δ else 0) =
      α * (∫ z, phi z * X z) + β + γ * (∫ z in Ioi a, phi z * X z) + δ * normalCdf (-a) := by
  have h0 : (fun z => phi z * (α * X z + β + if a < z then γ * X z + δ else 0)) = fun z =>
      (α * (phi z * X z) + β * phi z) + (Ioi a).indicator (fun z => γ * (phi z * X z) + δ * phi z) z := by
    funext z
    by_cases h : a < z
    · simp [h, indicator]; ring
    · simp [h, indicator]; ring
  have hj : Integrable (fun z => α * (phi z * X z) + β * phi z) := (hX.const_mul α).add (phi_integrable.const_mul β)
  have hi : Integrable (fun z => γ * (phi z * X z) + δ * phi z) := (hX.const_mul γ).add (phi_integrable.const_mul δ)
  rw [h0, integral_add hj (hi.indicator measurableSet_Ioi),
    integral_add (hX.const_mul α) (phi_integrable.const_mul β), integral_indicator measurableSet_Ioi,
    integral_add (hX.const_mul γ).integrableOn (phi_integrable.const_mul δ).integrableOn,
    integral_const_mul, integral_const_mul, integral_const_mul, integral_const_mul, phi_integral, integral_Ioi_phi]
  ring

theorem lognormal_integrable (F s : ℝ) : Integrable (fun z => phi z * (F * Real.exp (s * z - s ^ 2 / 2))) := by
  refine ((phi_integrable.comp_sub_right s).const_mul F).congr (Filter.Eventually.of_forall (fun z => ?_))
  simp only [← exp_mul_phi]; ring

theorem lognormal_mean (F s : ℝ) : ∫ z, phi z * (F * Real.exp (s * z - s ^ 2 / 2)) = F := by
  have : (fun z => phi z * (F * Real.exp (s * z - s ^ 2 / 2))) = fun z => F * phi (z - s) := by
    funext z; rw [← exp_mul_phi]; ring
  rw [this, integral_const_mul, integral_sub_right_eq_self phi s, phi_integral, mul_one]

theorem lognormal_upper (F s a : ℝ) :
    ∫ z in Ioi a, phi z * (F * Real.exp (s * z - s ^ 2 / 2)) = F * normalCdf (s - a) := by
  have : (fun z => phi z * (F * Real.exp (s * z - s ^ 2 / 2))) =
      fun z => F * (Real.exp (s * z - s ^ 2 / 2) * phi z) := by
    funext z; ring
  rw [this, integral_const_mul, integral_Ioi_tilted]

theorem normal_integrable (m s : ℝ) : Integrable (fun z => phi z * (m + s * z)) := by
  refine ((phi_integrable.const_mul m).add (mul_phi_integrable.const_mul s)).congr
    (Filter.Eventually.of_forall (fun z => ?_))
  simp only [Pi.add_apply]; ring

theorem normal_upper (m s a : ℝ) : ∫ z in Ioi a, phi z * (m + s * z) = m * normalCdf (-a) + s * phi a := by
  have : (fun z => phi z * (m + s * z)) = fun z => m * phi z + s * (z * phi z) := by funext z; ring
  rw [this, integral_add (phi_integrable.const_mul m).integrableOn (mul_phi_integrable.const_mul s).integrableOn,
    integral_const_mul, integral_const_mul, integral_Ioi_phi, integral_Ioi_mul_phi]

theorem normal_mean (m s : ℝ) : ∫ z, phi z * (m + s * z) = m := by
  have h1 : (fun z => phi z * (m + s * z)) = fun z => m * phi z + s * (z * phi z) := by funext z; ring
  have h2 : ∫ z, z * phi z = 0 := by
    have := integral_neg_eq_self (fun z => z * phi z) (volume : Measure ℝ)
    simp only [phi_neg, neg_mul] at this
    rw [integral_neg] at this
    linarith
  rw [h1, integral_add (phi_integrable.const_mul m) (mul_phi_integrable.const_mul s), integral_const_mul,
    integral_const_mul, phi_integral, h2]
  ring

/-- A measurable payoff that is affine on each side of the strike. -/
structure KinkPayoff (f : ℝ → ℝ) (K α β γ δ : ℝ) : Prop where
  eq : ∀ x, f x = α * x + β + if K < x then γ * x + δ else 0

theorem KinkPayoff.measurable {f : ℝ → ℝ} {K α β γ δ : ℝ} (h : KinkPayoff f K α β γ δ) : Measurable f := by
  have : f = fun x => α * x + β + if x ∈ Ioi K then γ * x + δ else 0 := by
    funext x; rw [h.eq]; simp
  rw [this]
  exact (by fun_prop : Measurable (fun x : ℝ => α * x + β)).add
    (Measurable.ite measurableSet_Ioi (by fun_prop) (by fun_prop))

theorem lognormalExpectation_kink {f : ℝ → ℝ} {F K s α β γ δ : ℝ} (h : KinkPayoff f K α β γ δ) (hF : 0 < F) (hK : 0 < K)
    (hs : 0 < s) : lognormalExpectation F s f = α * F + β + γ * (F * normalCdf (Real.log (F / K) / s + s / 2)) +
      δ * normalCdf (Real.log (F / K) / s - s / 2) := by
  unfold lognormalExpectation
  rw [normalExpectation_std _ _ (fun x => f (Real.exp x)) (h.measurable.comp Real.measurable_exp)]
  have hX : ∀ z, Real.exp (Real.log F - s ^ 2 / 2 + s * z) = F * Real.exp (s * z - s ^ 2 / 2) := by
    intro z
    rw [show Real.log F - s ^ 2 / 2 + s * z = Real.log F + (s * z - s ^ 2 / 2) by ring, Real.exp_add, Real.exp_log hF]
  have hiff : ∀ z, K < F * Real.exp (s * z - s ^ 2 / 2) ↔ s / 2 - Real.log (F / K) / s < z := by
    intro z
    rw [← hX, ← Real.log_lt_iff_lt_exp hK, Real.log_div hF.ne' hK.ne']
    constructor
    · intro h1
      rw [← sub_pos]
      have : z - (s / 2 - (Real.log F - Real.log K) / s) = (Real.log F - s ^ 2 / 2 + s * z - Real.log K) / s := by
        field_simp; ring
      rw [this]
      exact div_pos (by linarith) hs
    · intro h1
      rw [← sub_pos] at h1
      have : Real.log F - s ^ 2 / 2 + s * z - Real.log K = (z - (s / 2 - (Real.log F - Real.log K) / s)) * s := by
        field_simp; ring
      have := mul_pos h1 hs
      linarith
  have hfun : (fun z => phi z * f (Real.exp (Real.log F - s ^ 2 / 2 + s * z))) = fun z => phi z *
      (α * (F * Real.exp (s * z - s ^ 2 / 2)) + β + if s / 2 - Real.log (F / K) / s < z then
        γ * (F * Real.exp (s * z - s ^ 2 / 2)) + δ else 0) := by
    funext z
    rw [h.eq, hX]
    simp only [hiff]
  rw [hfun, affine_expectation _ (lognormal_integrable F s), lognormal_mean, lognormal_upper]
  congr 3
  · congr 2; ring
  · ring

theorem normalExpectation_kink {f : ℝ → ℝ} {F K s α β γ δ : ℝ} (h : KinkPayoff f K α β γ δ) (hs : 0 < s) :
    normalExpectation F s f = α * F + β + γ * (F * normalCdf ((F - K) / s) + s * phi ((F - K) / s)) +
      δ * normalCdf ((F - K) / s) := by
  rw [normalExpectation_std _ _ _ h.measurable]
  have hiff : ∀ z, K < F + s * z ↔ -((F - K) / s) < z := by
    intro z
    rw [← neg_div, div_lt_iff₀ hs]
    constructor <;> intro h1 <;> linarith
  have hfun : (fun z => phi z * f (F + s * z)) = fun z => phi z * (α * (F + s * z) + β +
      if -((F - K) / s) < z then γ * (F + s * z) + δ else 0) := by
    funext z
    rw [h.eq]
    simp only [hiff]
  rw [hfun, affine_expectation _ (normal_integrable F s), normal_mean, normal_upper, neg_neg, phi_neg]

theorem lognormalExpectation_zero (F : ℝ) (hF : 0 < F) (f : ℝ → ℝ) : lognormalExpectation F 0 f = f F := by
  simp [lognormalExpectation, normalExpectation, gaussianReal_zero_var, Real.exp_log hF]

theorem normalExpectation_zero (F : ℝ) (f : ℝ → ℝ) : normalExpectation F 0 f = f F := by
  simp [normalExpectation, gaussianReal_zero_var]

theorem normalExpectation_nonneg (m s : ℝ) (f : ℝ → ℝ) (hf : ∀ x, 0 ≤ f x) : 0 ≤ normalExpectation m s f :=
  integral_nonneg hf

end Lemmas
