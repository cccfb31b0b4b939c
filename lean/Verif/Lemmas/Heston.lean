import Verif.Model.Heston
import Verif.Spec.Heston
import Verif.Spec.Normal
import Verif.Lemmas.Normal
import Verif.Props.Milstein
import Mathlib.Analysis.SpecialFunctions.ExpDeriv
import Mathlib.Analysis.SpecialFunctions.Log.NegMulLog
import Mathlib.Probability.Moments.MGFAnalytic
import Mathlib.MeasureTheory.Integral.IntegralEqImproper
import Mathlib.Analysis.SpecialFunctions.Integrals.Basic

/-! # C61: the moments of the variance in the scheme of Andersen -/

namespace Lemmas
open Model Spec MeasureTheory ProbabilityTheory Set

/-- The first four moments of the standard normal law. -/
theorem normal_moments : (∫ z, z ^ 3 ∂(gaussianReal 0 1) = 0) ∧ (∫ z, z ^ 4 ∂(gaussianReal 0 1) = 3) := by
  have h0 : (0 : ℝ) ∈ interior (integrableExpSet id (gaussianReal 0 1)) := by simp
  have hm : mgf id (gaussianReal 0 1) = fun t => Real.exp (t ^ 2 / 2) := by
    rw [mgf_id_gaussianReal]; funext t; simp
  have d : ∀ t : ℝ, HasDerivAt (fun t : ℝ => Real.exp (t ^ 2 / 2)) (t * Real.exp (t ^ 2 / 2)) t := by
    intro t
    have := ((hasDerivAt_pow 2 t).div_const 2).exp
    convert this using 1
    simp; ring
  have e1 : deriv (fun t : ℝ => Real.exp (t ^ 2 / 2)) = fun t => t * Real.exp (t ^ 2 / 2) := by
    funext t; exact (d t).deriv
  have e2 : deriv (fun t : ℝ => t * Real.exp (t ^ 2 / 2)) = fun t => (1 + t ^ 2) * Real.exp (t ^ 2 / 2) := by
    funext t
    refine HasDerivAt.deriv (((hasDerivAt_id t).mul (d t)).congr_deriv ?_)
    simp; ring
  have e3 : deriv (fun t : ℝ => (1 + t ^ 2) * Real.exp (t ^ 2 / 2)) = fun t => (3 * t + t ^ 3) * Real.exp (t ^ 2 / 2) := by
    funext t
    refine HasDerivAt.deriv ((((hasDerivAt_pow 2 t).const_add 1).mul (d t)).congr_deriv ?_)
    simp; ring
  have e4 : deriv (fun t : ℝ => (3 * t + t ^ 3) * Real.exp (t ^ 2 / 2)) = fun t => (3 + 6 * t ^ 2 + t ^ 4) * Real.exp (t ^ 2 / 2) := by
    funext t
    refine HasDerivAt.deriv (((((hasDerivAt_id t).const_mul 3).add (hasDerivAt_pow 3 t)).mul (d t)).congr_deriv ?_)
    simp; ring
  constructor
  · have := iteratedDeriv_mgf_zero h0 3
    rw [hm, iteratedDeriv_succ, iteratedDeriv_succ, iteratedDeriv_one, e1, e2, e3] at this
    simpa using this.symm
  · have := iteratedDeriv_mgf_zero h0 4
    rw [hm, iteratedDeriv_succ, iteratedDeriv_succ, iteratedDeriv_succ, iteratedDeriv_one, e1, e2, e3, e4] at this
    simpa using this.symm

theorem normal_pow_integrable (n : Nat) : Integrable (fun z : ℝ => z ^ n) (gaussianReal 0 1) := by
  have hL : MemLp (id : ℝ → ℝ) n (gaussianReal 0 1) := memLp_id_gaussianReal n
  have := hL.integrable_norm_pow'
  refine this.mono' (by fun_prop) (ae_of_all _ fun z => ?_)
  simp

/-- The expectation of a polynomial of degree four in a standard normal variable. -/
theorem normalExpectation_quartic (p q r s t : ℝ) :
    normalExpectation 0 1 (fun z => p + q * z + r * z ^ 2 + s * z ^ 3 + t * z ^ 4) = p + r + 3 * t := by
  have h2 := normalExpectation_quadratic p q r
  unfold normalExpectation at h2 ⊢
  have hone : Real.toNNReal ((1 : ℝ) ^ 2) = 1 := by simp
  rw [hone] at h2 ⊢
  have i1 : Integrable (fun z : ℝ => q * z) (gaussianReal 0 1) := by simpa using (normal_pow_integrable 1).const_mul q
  have i2 : Integrable (fun z : ℝ => p + q * z + r * z ^ 2) (gaussianReal 0 1) :=
    ((integrable_const p).add i1).add ((normal_pow_integrable 2).const_mul r)
  have i3 := (normal_pow_integrable 3).const_mul s
  have i4 := (normal_pow_integrable 4).const_mul t
  have a1 : ∫ z, (p + q * z + r * z ^ 2 + s * z ^ 3 + t * z ^ 4) ∂(gaussianReal 0 1) =
      ∫ z, (p + q * z + r * z ^ 2 + s * z ^ 3) ∂(gaussianReal 0 1) + ∫ z, t * z ^ 4 ∂(gaussianReal 0 1) := integral_add (i2.add i3) i4
  have a2 : ∫ z, (p + q * z + r * z ^ 2 + s * z ^ 3) ∂(gaussianReal 0 1) =
      ∫ z, (p + q * z + r * z ^ 2) ∂(gaussianReal 0 1) + ∫ z, s * z ^ 3 ∂(gaussianReal 0 1) := integral_add i2 i3
  rw [a1, a2, h2, integral_const_mul, integral_const_mul, normal_moments.1, normal_moments.2]
  ring

theorem normalCdf_tendsto_atTop : Filter.Tendsto normalCdf Filter.atTop (nhds 1) := tendsto_cdf_atTop _

theorem normalCdf_tendsto_below : Filter.Tendsto normalCdf Filter.atTop (nhdsWithin 1 (Iio 1)) :=
  tendsto_nhdsWithin_iff.2 ⟨normalCdf_tendsto_atTop, Filter.Eventually.of_forall fun x => normalCdf_lt_one x⟩

theorem normalCdf_tendsto_atBot : Filter.Tendsto normalCdf Filter.atBot (nhds 0) := tendsto_cdf_atBot _

theorem normalCdf_surj (p : ℝ) (h0 : 0 < p) (h1 : p < 1) : ∃ x, normalCdf x = p := by
  obtain ⟨a, ha⟩ := (normalCdf_tendsto_atBot.eventually (gt_mem_nhds h0)).exists
  obtain ⟨b, hb⟩ := (normalCdf_tendsto_atTop.eventually (lt_mem_nhds h1)).exists
  have hab : a ≤ b := by
    by_contra hc
    have := normalCdf_strictMono (lt_of_not_ge hc)
    linarith
  obtain ⟨x, _, hx⟩ := intermediate_value_Icc hab normalCdf_continuous.continuousOn ⟨ha.le, hb.le⟩
  exact ⟨x, hx⟩

/-- The expectation of a function of the uniform variable `Φ(z)` that vanishes up to `p`, by an antiderivative. -/
theorem uniform_expectation (p : ℝ) (h0 : 0 < p) (h1 : p < 1) (g G : ℝ → ℝ) (l : ℝ) (hG : ∀ u, p ≤ u → u < 1 → HasDerivAt G (g u) u)
    (hg : ∀ u, p < u → u < 1 → 0 ≤ g u) (hl : Filter.Tendsto G (nhdsWithin 1 (Iio 1)) (nhds l)) :
    normalExpectation 0 1 (fun z => if normalCdf z > p then g (normalCdf z) else 0) = l - G p := by
  obtain ⟨x, hx⟩ := normalCdf_surj p h0 h1
  unfold normalExpectation
  have hone : Real.toNNReal ((1 : ℝ) ^ 2) = 1 := by simp
  rw [hone, integral_gaussianReal_eq_integral_smul (by simp)]
  have hf : (fun z => gaussianPDFReal 0 1 z • (if normalCdf z > p then g (normalCdf z) else 0)) =
      (Ioi x).indicator (fun z => g (normalCdf z) * phi z) := by
    funext z
    by_cases hz : x < z
    · rw [indicator_of_mem (show z ∈ Ioi x from hz), if_pos (by rw [← hx]; exact normalCdf_strictMono hz)]
      simp [phi, mul_comm]
    · rw [indicator_of_notMem (show z ∉ Ioi x from hz), if_neg (by rw [← hx, gt_iff_lt, normalCdf_strictMono.lt_iff_lt]; exact hz)]
      simp
  rw [hf, integral_indicator measurableSet_Ioi, ← hx]
  refine integral_Ioi_of_hasDerivAt_of_nonneg' (g := fun z => G (normalCdf z)) (fun z hz => ?_) (fun z hz => ?_) (hl.comp normalCdf_tendsto_below)
  · have : p ≤ normalCdf z := by rw [← hx]; exact normalCdf_strictMono.monotone hz
    exact (hG _ this (normalCdf_lt_one z)).comp z (normalCdf_hasDerivAt z)
  · have : p < normalCdf z := by rw [← hx]; exact normalCdf_strictMono hz
    exact mul_nonneg (hg _ this (normalCdf_lt_one z)) (phi_pos z).le

/-- `w log w` and `w (log w)²` vanish at zero. -/
theorem mul_log_tendsto : Filter.Tendsto (fun u : ℝ => (1 - u) * Real.log (1 - u)) (nhdsWithin 1 (Iio 1)) (nhds 0) := by
  have h : Continuous (fun u : ℝ => (1 - u) * Real.log (1 - u)) := Real.continuous_mul_log.comp (continuous_const.sub continuous_id)
  have := h.tendsto 1
  simp only [sub_self, zero_mul] at this
  exact this.mono_left nhdsWithin_le_nhds

theorem mul_log_sq_tendsto : Filter.Tendsto (fun u : ℝ => (1 - u) * Real.log (1 - u) ^ 2) (nhdsWithin 1 (Iio 1)) (nhds 0) := by
  have h : Continuous (fun u : ℝ => 4 * (Real.sqrt (1 - u) * Real.log (Real.sqrt (1 - u))) ^ 2) :=
    continuous_const.mul ((Real.continuous_mul_log.comp (Real.continuous_sqrt.comp (continuous_const.sub continuous_id))).pow 2)
  have h2 := (h.tendsto 1).mono_left (nhdsWithin_le_nhds (s := Iio 1))
  simp only [sub_self, Real.sqrt_zero, zero_mul, zero_pow (two_ne_zero), mul_zero] at h2
  refine h2.congr' (Filter.eventually_of_mem self_mem_nhdsWithin fun u hu => ?_)
  have hw : 0 ≤ 1 - u := by have : u < 1 := hu; linarith
  rw [Real.log_sqrt hw, mul_pow, Real.sq_sqrt hw]
  ring

/-- The mean and the second moment of an exponential variable by inversion, with mass `p` at zero. -/
theorem exponential_moments (p : ℝ) (h0 : 0 < p) (h1 : p < 1) :
    normalExpectation 0 1 (fun z => if normalCdf z > p then Real.log (1 - p) - Real.log (1 - normalCdf z) else 0) = 1 - p ∧
    normalExpectation 0 1 (fun z => if normalCdf z > p then (Real.log (1 - p) - Real.log (1 - normalCdf z)) ^ 2 else 0) = 2 * (1 - p) := by
  have hlog : ∀ u, p ≤ u → u < 1 → HasDerivAt (fun u : ℝ => Real.log (1 - u)) (-1 / (1 - u)) u := by
    intro u _ hu
    have := ((hasDerivAt_id u).const_sub 1).log (by simp; linarith)
    simpa using this
  have hone : ∀ u : ℝ, HasDerivAt (fun u : ℝ => 1 - u) (-1) u := fun u => by simpa using (hasDerivAt_id u).const_sub 1
  have hw0 : Filter.Tendsto (fun u : ℝ => 1 - u) (nhdsWithin 1 (Iio 1)) (nhds 0) := by
    have hc : Continuous (fun u : ℝ => 1 - u) := by fun_prop
    have := (hc.tendsto 1).mono_left (nhdsWithin_le_nhds (s := Iio 1))
    simpa using this
  constructor
  · have h := uniform_expectation p h0 h1 (fun u => Real.log (1 - p) - Real.log (1 - u))
      (fun u => -((1 - u) * (Real.log (1 - p) + 1)) + (1 - u) * Real.log (1 - u)) 0 ?_ ?_ ?_
    · rw [h]; ring
    · intro u hp hu
      have hne : 1 - u ≠ 0 := by linarith
      refine ((((hone u).mul_const (Real.log (1 - p) + 1)).neg).add ((hone u).mul (hlog u hp hu))).congr_deriv ?_
      field_simp
      ring
    · intro u hp hu
      have := Real.log_le_log (by linarith : 0 < 1 - u) (by linarith : 1 - u ≤ 1 - p)
      linarith
    · have := ((hw0.mul_const (Real.log (1 - p) + 1)).neg).add mul_log_tendsto
      simpa using this
  · have h := uniform_expectation p h0 h1 (fun u => (Real.log (1 - p) - Real.log (1 - u)) ^ 2)
      (fun u => -((1 - u) * ((Real.log (1 - p)) ^ 2 + 2 * Real.log (1 - p) + 2)) + (2 * Real.log (1 - p) + 2) * ((1 - u) * Real.log (1 - u)) -
        (1 - u) * Real.log (1 - u) ^ 2) 0 ?_ ?_ ?_
    · rw [h]; ring
    · intro u hp hu
      have hne : 1 - u ≠ 0 := by linarith
      refine (((((hone u).mul_const ((Real.log (1 - p)) ^ 2 + 2 * Real.log (1 - p) + 2)).neg).add
        (((hone u).mul (hlog u hp hu)).const_mul (2 * Real.log (1 - p) + 2))).sub ((hone u).mul ((hlog u hp hu).pow 2))).congr_deriv ?_
      simp only [Pi.pow_apply]
      field_simp
      ring
    · intro u _ _
      positivity
    · have := (((hw0.mul_const ((Real.log (1 - p)) ^ 2 + 2 * Real.log (1 - p) + 2)).neg).add (mul_log_tendsto.const_mul (2 * Real.log (1 - p) + 2))).sub
        mul_log_sq_tendsto
      simpa using this

end Lemmas
