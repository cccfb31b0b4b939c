import Mathlib.Analysis.SpecialFunctions.ExpDeriv
import Mathlib.MeasureTheory.Integral.IntervalIntegral.FundThmCalculus
import Mathlib.Analysis.SpecialFunctions.Log.Basic
import Verif.Model.Svensson

/-!
# Property theorems C72: Nelson-Siegel-Svensson yields
-/

namespace Props
open Model

/-- The instantaneous forward rate of the model of Nelson, Siegel and Svensson at the time `s`. -/
noncomputable def svenssonForward (p : SvenssonParameters) (s : ℝ) : ℝ :=
  p.beta0 + p.beta1 * Real.exp (-(s / p.tau1)) + p.beta2 * (s / p.tau1) * Real.exp (-(s / p.tau1)) +
    p.beta3 * (s / p.tau2) * Real.exp (-(s / p.tau2))

/-- The value for a positive time. -/
theorem svensson_eq (t : ℝ) (p : SvenssonParameters) (ht : t ≠ 0) (h1 : p.tau1 ≠ 0) (h2 : p.tau2 ≠ 0) :
    svensson t p = some (p.beta0 + p.beta1 * ((1 - Real.exp (-(t / p.tau1))) / (t / p.tau1)) +
      p.beta2 * ((1 - Real.exp (-(t / p.tau1))) / (t / p.tau1) - Real.exp (-(t / p.tau1))) +
      p.beta3 * ((1 - Real.exp (-(t / p.tau2))) / (t / p.tau2) - Real.exp (-(t / p.tau2)))) := by
  unfold svensson svenssonIntegrated svenssonExp
  rw [if_neg (div_ne_zero ht h1), if_neg (div_ne_zero ht h2)]
  rfl

/-- C72: the yield is the mean of the instantaneous forward rates up to the maturity. -/
theorem C72_mean_forward (t : ℝ) (p : SvenssonParameters) (ht : 0 < t) (h1 : p.tau1 ≠ 0) (h2 : p.tau2 ≠ 0) :
    svensson t p = some ((∫ s in (0 : ℝ)..t, svenssonForward p s) / t) := by
  rw [svensson_eq t p ht.ne' h1 h2]
  congr 1
  have key : ∫ s in (0 : ℝ)..t, svenssonForward p s =
      (p.beta0 * t - p.beta1 * p.tau1 * Real.exp (-(t / p.tau1)) - p.beta2 * (p.tau1 + t) * Real.exp (-(t / p.tau1)) -
        p.beta3 * (p.tau2 + t) * Real.exp (-(t / p.tau2))) -
      (p.beta0 * 0 - p.beta1 * p.tau1 * Real.exp (-(0 / p.tau1)) - p.beta2 * (p.tau1 + 0) * Real.exp (-(0 / p.tau1)) -
        p.beta3 * (p.tau2 + 0) * Real.exp (-(0 / p.tau2))) := by
    refine intervalIntegral.integral_eq_sub_of_hasDerivAt (f := fun s => p.beta0 * s - p.beta1 * p.tau1 * Real.exp (-(s / p.tau1)) -
      p.beta2 * (p.tau1 + s) * Real.exp (-(s / p.tau1)) - p.beta3 * (p.tau2 + s) * Real.exp (-(s / p.tau2))) ?_ ?_
    · intro s _
      have hE : ∀ τ : ℝ, HasDerivAt (fun s : ℝ => Real.exp (-(s / τ))) (Real.exp (-(s / τ)) * -(1 / τ)) s := by
        intro τ
        exact ((hasDerivAt_id s).div_const τ).neg.exp
      have d0 := (hasDerivAt_id s).const_mul p.beta0
      have d1 := (hE p.tau1).const_mul (p.beta1 * p.tau1)
      have d2 := (((hasDerivAt_id s).const_add p.tau1).const_mul p.beta2).mul (hE p.tau1)
      have d3 := (((hasDerivAt_id s).const_add p.tau2).const_mul p.beta3).mul (hE p.tau2)
      refine HasDerivAt.congr_deriv (((d0.sub d1).sub d2).sub d3) ?_
      unfold svenssonForward
      simp only [id]
      field_simp
      ring
    · apply Continuous.intervalIntegrable
      unfold svenssonForward
      fun_prop
  rw [key]
  have ht' := ht.ne'
  simp only [zero_div, neg_zero, Real.exp_zero]
  field_simp
  ring

/-- The yield as a function of a positive time. -/
noncomputable def svenssonYield (p : SvenssonParameters) (t : ℝ) : ℝ := (svensson t p).getD 0

open Filter Topology in
theorem slope_limit : Tendsto (fun u : ℝ => (1 - Real.exp (-u)) / u) (𝓝[>] 0) (𝓝 1) := by
  have h : HasDerivAt (fun u : ℝ => 1 - Real.exp (-u)) 1 0 := by
    have := ((hasDerivAt_id (0 : ℝ)).neg.exp).const_sub 1
    simpa using this
  have h2 := hasDerivAt_iff_tendsto_slope.1 h
  have h3 := h2.mono_left (nhdsWithin_mono 0 (s := Set.Ioi 0) (fun x hx => ne_of_gt hx))
  refine h3.congr' ?_
  filter_upwards [self_mem_nhdsWithin] with u hu
  rw [slope_def_field]
  simp

open Filter Topology in
/-- C72: short yields approach `beta0 + beta1`, long yields approach `beta0`. -/
theorem C72_limits (p : SvenssonParameters) (h1 : 0 < p.tau1) (h2 : 0 < p.tau2) :
    Tendsto (svenssonYield p) (𝓝[>] 0) (𝓝 (p.beta0 + p.beta1)) ∧ Tendsto (svenssonYield p) atTop (𝓝 p.beta0) := by
  have hform : ∀ t, 0 < t → svenssonYield p t = p.beta0 + p.beta1 * ((1 - Real.exp (-(t / p.tau1))) / (t / p.tau1)) +
      p.beta2 * ((1 - Real.exp (-(t / p.tau1))) / (t / p.tau1) - Real.exp (-(t / p.tau1))) +
      p.beta3 * ((1 - Real.exp (-(t / p.tau2))) / (t / p.tau2) - Real.exp (-(t / p.tau2))) := by
    intro t ht
    unfold svenssonYield
    rw [svensson_eq t p ht.ne' h1.ne' h2.ne']
    rfl
  constructor
  · have hd : ∀ τ : ℝ, 0 < τ → Tendsto (fun t : ℝ => t / τ) (𝓝[>] 0) (𝓝[>] 0) := by
      intro τ hτ
      refine tendsto_nhdsWithin_iff.2 ⟨?_, ?_⟩
      · have : Tendsto (fun t : ℝ => t / τ) (𝓝 0) (𝓝 (0 / τ)) := (continuous_id.div_const τ).tendsto 0
        rw [zero_div] at this
        exact this.mono_left nhdsWithin_le_nhds
      · filter_upwards [self_mem_nhdsWithin] with t ht
        exact div_pos ht hτ
    have hs : ∀ τ : ℝ, 0 < τ → Tendsto (fun t : ℝ => (1 - Real.exp (-(t / τ))) / (t / τ)) (𝓝[>] 0) (𝓝 1) :=
      fun τ hτ => slope_limit.comp (hd τ hτ)
    have he : ∀ τ : ℝ, 0 < τ → Tendsto (fun t : ℝ => Real.exp (-(t / τ))) (𝓝[>] 0) (𝓝 1) := by
      intro τ hτ
      have h0 := (hd τ hτ).mono_right nhdsWithin_le_nhds
      have h := (Real.continuous_exp.comp continuous_neg).continuousAt.tendsto.comp h0
      simp only [Function.comp_apply, neg_zero, Real.exp_zero] at h
      exact h
    have := (((tendsto_const_nhds (x := p.beta0)).add ((hs _ h1).const_mul p.beta1)).add
      (((hs _ h1).sub (he _ h1)).const_mul p.beta2)).add (((hs _ h2).sub (he _ h2)).const_mul p.beta3)
    rw [show p.beta0 + p.beta1 * 1 + p.beta2 * (1 - 1) + p.beta3 * (1 - 1) = p.beta0 + p.beta1 by ring] at this
    refine this.congr' ?_
    filter_upwards [self_mem_nhdsWithin] with t ht
    exact (hform t ht).symm
  · have hd : ∀ τ : ℝ, 0 < τ → Tendsto (fun t : ℝ => t / τ) atTop atTop :=
      fun τ hτ => tendsto_id.atTop_div_const hτ
    have he : ∀ τ : ℝ, 0 < τ → Tendsto (fun t : ℝ => Real.exp (-(t / τ))) atTop (𝓝 0) :=
      fun τ hτ => Real.tendsto_exp_neg_atTop_nhds_zero.comp (hd τ hτ)
    have hs : ∀ τ : ℝ, 0 < τ → Tendsto (fun t : ℝ => (1 - Real.exp (-(t / τ))) / (t / τ)) atTop (𝓝 0) := by
      intro τ hτ
      exact ((tendsto_const_nhds (x := (1 : ℝ))).sub (he τ hτ)).div_atTop (hd τ hτ)
    have := (((tendsto_const_nhds (x := p.beta0)).add ((hs _ h1).const_mul p.beta1)).add
      (((hs _ h1).sub (he _ h1)).const_mul p.beta2)).add (((hs _ h2).sub (he _ h2)).const_mul p.beta3)
    rw [show p.beta0 + p.beta1 * 0 + p.beta2 * (0 - 0) + p.beta3 * (0 - 0) = p.beta0 by ring] at this
    refine this.congr' ?_
    filter_upwards [eventually_gt_atTop 0] with t ht
    exact (hform t ht).symm

/-- C72: without the terms in `beta2` and `beta3` the yield lies between `beta0` and `beta0 + beta1`. -/
theorem C72_between (t : ℝ) (p : SvenssonParameters) (ht : 0 < t) (h1 : 0 < p.tau1) (h2 : p.tau2 ≠ 0) (hb2 : p.beta2 = 0)
    (hb3 : p.beta3 = 0) (hb1 : 0 ≤ p.beta1) :
    ∃ y, svensson t p = some y ∧ p.beta0 ≤ y ∧ y ≤ p.beta0 + p.beta1 := by
  refine ⟨_, svensson_eq t p ht.ne' h1.ne' h2, ?_⟩
  have hu : 0 < t / p.tau1 := div_pos ht h1
  generalize t / p.tau1 = u at hu
  have e1 : Real.exp (-u) ≤ 1 := Real.exp_le_one_iff.2 (by linarith)
  have e2 := Real.add_one_le_exp (-u)
  have q0 : 0 ≤ (1 - Real.exp (-u)) / u := div_nonneg (by linarith) hu.le
  have q1 : (1 - Real.exp (-u)) / u ≤ 1 := by rw [div_le_one hu]; linarith
  rw [hb2, hb3]
  constructor
  · nlinarith
  · nlinarith

/-- Deviation: at the time zero, where the limit is `beta0 + beta1`, the code divides zero by zero. -/
theorem C72_zero_deviation (p : SvenssonParameters) : svensson 0 p = none := by
  unfold svensson svenssonIntegrated
  rw [if_pos (zero_div _)]
  rfl

/-- A flat curve. -/
example (t : ℝ) (ht : 0 < t) : svensson t ⟨1 / 20, 0, 0, 0, 3 / 2, 20⟩ = some (1 / 20) := by
  rw [svensson_eq _ _ ht.ne' (by norm_num) (by norm_num)]
  norm_num

example : svensson 3 ⟨1 / 20, 1 / 100, 2 / 100, 0, 3, 1⟩ = some (1 / 20 + 3 / 100 * (1 - Real.exp (-1)) - 2 / 100 * Real.exp (-1)) := by
  rw [svensson_eq _ _ (by norm_num) (by norm_num) (by norm_num)]
  norm_num
  ring

end Props
