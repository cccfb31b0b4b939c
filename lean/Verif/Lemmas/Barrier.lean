import Verif.Lemmas.VanillaPrices
import Verif.Spec.Barrier
import Verif.Spec.Payoffs
import Verif.Model.Barrier
import Mathlib.MeasureTheory.Function.StronglyMeasurable.AEStronglyMeasurable

/-! Expectations over the paths that never touch a barrier. -/

namespace Lemmas
open Model Spec ProbabilityTheory MeasureTheory Set

/-- `(p X + q) (c0 + ck 1{k < x} + cb 1{b < x})` with `X = S exp x`. -/
noncomputable def kink2 (S p q c0 ck k cb b : ℝ) (x : ℝ) : ℝ :=
  (p * (S * Real.exp x) + q) * (c0 + (if k < x then ck else 0) + (if b < x then cb else 0))

theorem kink2_measurable (S p q c0 ck k cb b : ℝ) : Measurable (kink2 S p q c0 ck k cb b) := by
  unfold kink2
  refine Measurable.mul (by fun_prop) (Measurable.add (Measurable.add measurable_const ?_) ?_)
  · exact Measurable.ite measurableSet_Ioi measurable_const measurable_const
  · exact Measurable.ite measurableSet_Ioi measurable_const measurable_const

/-- Value of `kink2` under the normal law with mean `m` and standard deviation `s`. -/
noncomputable def kink2Value (S p q c0 ck k cb b m s : ℝ) : ℝ :=
  p * (S * Real.exp (m + s ^ 2 / 2)) * (c0 + ck * normalCdf ((m - k) / s + s) + cb * normalCdf ((m - b) / s + s)) +
    q * (c0 + ck * normalCdf ((m - k) / s) + cb * normalCdf ((m - b) / s))

theorem affine_integrable (X : ℝ → ℝ) (hX : Integrable (fun z => phi z * X z)) (a α β γ δ : ℝ) :
    Integrable (fun z => phi z * (α * X z + β + if a < z then γ * X z + δ else 0)) := by
  have h0 : (fun z => phi z * (α * X z + β + if a < z then γ * X z + δ else 0)) = fun z =>
      (α * (phi z * X z) + β * phi z) + (Ioi a).indicator (fun z => γ * (phi z * X z) + δ * phi z) z := by
    funext z
    by_cases h : a < z
    · simp [h, indicator]; ring
    · simp [h, indicator]; ring
  rw [h0]
  have hj : Integrable (fun z => α * (phi z * X z) + β * phi z) := (hX.const_mul α).add (phi_integrable.const_mul β)
  have hi : Integrable (fun z => γ * (phi z * X z) + δ * phi z) := (hX.const_mul γ).add (phi_integrable.const_mul δ)
  exact hj.add (hi.indicator measurableSet_Ioi)

theorem kink2_split (S p q c0 ck k cb b m s : ℝ) (hs : 0 < s) (z : ℝ) :
    phi z * kink2 S p q c0 ck k cb b (m + s * z) =
      phi z * ((p * c0) * (S * Real.exp (m + s ^ 2 / 2) * Real.exp (s * z - s ^ 2 / 2)) + q * c0 +
        if (k - m) / s < z then (p * ck) * (S * Real.exp (m + s ^ 2 / 2) * Real.exp (s * z - s ^ 2 / 2)) + q * ck else 0) +
      phi z * (0 * (S * Real.exp (m + s ^ 2 / 2) * Real.exp (s * z - s ^ 2 / 2)) + 0 +
        if (b - m) / s < z then (p * cb) * (S * Real.exp (m + s ^ 2 / 2) * Real.exp (s * z - s ^ 2 / 2)) + q * cb else 0) := by
  have hX : S * Real.exp (m + s * z) = S * Real.exp (m + s ^ 2 / 2) * Real.exp (s * z - s ^ 2 / 2) := by
    rw [mul_assoc, ← Real.exp_add]; congr 2; ring
  have hk : ∀ c, (c < m + s * z) ↔ (c - m) / s < z := by
    intro c; rw [div_lt_iff₀ hs]; constructor <;> intro h <;> linarith
  unfold kink2
  rw [hX]
  simp only [hk]
  split <;> split <;> ring

theorem kink2_expectation (S p q c0 ck k cb b m s : ℝ) (hs : 0 < s) :
    normalExpectation m s (kink2 S p q c0 ck k cb b) = kink2Value S p q c0 ck k cb b m s := by
  rw [normalExpectation_std _ _ _ (kink2_measurable ..)]
  simp only [kink2_split S p q c0 ck k cb b m s hs]
  have hI := lognormal_integrable (S * Real.exp (m + s ^ 2 / 2)) s
  rw [integral_add (affine_integrable _ hI _ _ _ _ _) (affine_integrable _ hI _ _ _ _ _),
    affine_expectation _ hI, affine_expectation _ hI, lognormal_mean, lognormal_upper, lognormal_upper]
  unfold kink2Value
  rw [show s - (k - m) / s = (m - k) / s + s by ring, show s - (b - m) / s = (m - b) / s + s by ring,
    show -((k - m) / s) = (m - k) / s by ring, show -((b - m) / s) = (m - b) / s by ring]
  ring

theorem kink2_integrable (S p q c0 ck k cb b m s : ℝ) (hs : 0 < s) :
    Integrable (fun x => gaussianPDFReal m (Real.toNNReal (s ^ 2)) x * kink2 S p q c0 ck k cb b x) := by
  have hI := lognormal_integrable (S * Real.exp (m + s ^ 2 / 2)) s
  have h1 : Integrable (fun z => phi z * kink2 S p q c0 ck k cb b (m + s * z)) := by
    simp only [kink2_split S p q c0 ck k cb b m s hs]
    exact (affine_integrable _ hI _ _ _ _ _).add (affine_integrable _ hI _ _ _ _ _)
  have h2 := ((h1.comp_div hs.ne').comp_sub_right m).const_mul s⁻¹
  refine h2.congr (Filter.Eventually.of_forall (fun x => ?_))
  have hv : ((Real.toNNReal (s ^ 2) : NNReal) : ℝ) = s ^ 2 := Real.coe_toNNReal _ (sq_nonneg s)
  have hp : gaussianPDFReal m (Real.toNNReal (s ^ 2)) x = s⁻¹ * phi ((x - m) / s) := by
    rw [phi_eq, gaussianPDFReal, hv, Real.sqrt_mul (by positivity), Real.sqrt_sq hs.le, mul_inv]
    rw [show -((x - m) / s) ^ 2 / 2 = -(x - m) ^ 2 / (2 * s ^ 2) by field_simp]
    ring
  simp only
  rw [hp, show m + s * ((x - m) / s) = x by field_simp; ring]
  ring

/-- The survival expectation of a payoff that agrees with `kink2` off the barrier. -/
theorem survivalExpectation_kink (down : Bool) (B S r q' σ T : ℝ) (hS : 0 < S) (hB : 0 < B) (hσ : 0 < σ) (hT : 0 < T)
    (f : ℝ → ℝ) (p q c0 ck k cb : ℝ)
    (hf : ∀ x, x ≠ Real.log (B / S) → (if (if down then Real.log (B / S) < x else x < Real.log (B / S)) then
      f (S * Real.exp x) else 0) = kink2 S p q c0 ck k cb (Real.log (B / S)) x) :
    survivalExpectation down B S r q' σ T f =
      kink2Value S p q c0 ck k cb (Real.log (B / S)) ((r - q' - σ ^ 2 / 2) * T) (σ * Real.sqrt T) -
        Real.exp (2 * (r - q' - σ ^ 2 / 2) * Real.log (B / S) / σ ^ 2) *
          kink2Value S p q c0 ck k cb (Real.log (B / S)) (2 * Real.log (B / S) + (r - q' - σ ^ 2 / 2) * T)
            (σ * Real.sqrt T) := by
  set b := Real.log (B / S) with hb
  set ν := r - q' - σ ^ 2 / 2 with hν
  have hs : 0 < σ * Real.sqrt T := mul_pos hσ (Real.sqrt_pos.mpr hT)
  have hv : σ ^ 2 * T = (σ * Real.sqrt T) ^ 2 := by rw [mul_pow, Real.sq_sqrt hT.le]
  have halive : ∀ x, Alive down B (S * Real.exp x) ↔ (if down then b < x else x < b) := by
    intro x
    have e1 : B < S * Real.exp x ↔ b < x := by
      rw [hb, Real.log_lt_iff_lt_exp (div_pos hB hS), div_lt_iff₀ hS, mul_comm]
    have e2 : S * Real.exp x < B ↔ x < b := by
      rw [hb, Real.lt_log_iff_exp_lt (div_pos hB hS), lt_div_iff₀ hS, mul_comm]
    unfold Alive
    cases down <;> simp [e1, e2]
  have hmeas : MeasurableSet {x : ℝ | Alive down B (S * Real.exp x)} := by
    simp only [halive]
    cases down
    · have : {x : ℝ | if false = true then b < x else x < b} = Iio b := by ext x; simp
      rw [this]; exact measurableSet_Iio
    · have : {x : ℝ | if true = true then b < x else x < b} = Ioi b := by ext x; simp
      rw [this]; exact measurableSet_Ioi
  unfold survivalExpectation
  rw [← integral_indicator hmeas]
  have hae : ({x : ℝ | Alive down B (S * Real.exp x)}.indicator fun x => f (S * Real.exp x) * survivalDensity ν σ T b x)
      =ᵐ[volume] fun x => gaussianPDFReal (ν * T) (Real.toNNReal ((σ * Real.sqrt T) ^ 2)) x *
        kink2 S p q c0 ck k cb b x - Real.exp (2 * ν * b / σ ^ 2) *
        (gaussianPDFReal (2 * b + ν * T) (Real.toNNReal ((σ * Real.sqrt T) ^ 2)) x * kink2 S p q c0 ck k cb b x) := by
    have hne : ∀ᵐ x : ℝ, x ≠ b := by
      simp [ae_iff]
    filter_upwards [hne] with x hx
    have := hf x hx
    rw [← this]
    unfold survivalDensity
    rw [hv]
    by_cases hA : Alive down B (S * Real.exp x)
    · rw [indicator_of_mem (show x ∈ {x : ℝ | Alive down B (S * Real.exp x)} from hA), if_pos ((halive x).mp hA)]
      ring
    · rw [indicator_of_notMem (show x ∉ {x : ℝ | Alive down B (S * Real.exp x)} from hA),
        if_neg (fun h => hA ((halive x).mpr h))]
      ring
  rw [integral_congr_ae hae, integral_sub (kink2_integrable _ _ _ _ _ _ _ _ _ _ hs)
    ((kink2_integrable _ _ _ _ _ _ _ _ _ _ hs).const_mul _), integral_const_mul]
  have hE : ∀ m, ∫ x, gaussianPDFReal m (Real.toNNReal ((σ * Real.sqrt T) ^ 2)) x * kink2 S p q c0 ck k cb b x =
      kink2Value S p q c0 ck k cb b m (σ * Real.sqrt T) := by
    intro m
    rw [← kink2_expectation _ _ _ _ _ _ _ _ _ _ hs]
    unfold normalExpectation
    rw [integral_gaussianReal_eq_integral_smul]
    · rfl
    · have := pow_pos hs 2
      exact (Real.toNNReal_pos.mpr this).ne'
  rw [hE, hE]

end Lemmas
