import Mathlib.MeasureTheory.Measure.LevyConvergence
import Mathlib.Probability.Distributions.Gaussian.Real
import Mathlib.Analysis.SpecialFunctions.Complex.LogBounds
import Mathlib.Analysis.SpecialFunctions.Trigonometric.Deriv
import Mathlib.Analysis.SpecialFunctions.Trigonometric.DerivHyp
import Mathlib.Analysis.SpecialFunctions.Exp
import Mathlib.Data.Nat.Choose.Sum

/-! # Weak limit of sums of binomial moves -/

namespace Lemmas
open MeasureTheory ProbabilityTheory Filter Complex
open scoped Topology

/-- Law of the log price after `n` moves by `delta` up with probability `p`, or down. -/
noncomputable def binomialLaw (n : ℕ) (p delta x0 : ℝ) : Measure ℝ :=
  ∑ k ∈ Finset.range (n + 1), ENNReal.ofReal ((n.choose k : ℝ) * p ^ k * (1 - p) ^ (n - k)) • Measure.dirac (x0 + (k : ℝ) * delta - ((n - k : ℕ) : ℝ) * delta)

theorem binomialWeight_nonneg (n k : ℕ) (p : ℝ) (h0 : 0 ≤ p) (h1 : p ≤ 1) : 0 ≤ (n.choose k : ℝ) * p ^ k * (1 - p) ^ (n - k) := by
  have : 0 ≤ 1 - p := by linarith
  positivity

theorem integral_binomialLaw {E : Type*} [NormedAddCommGroup E] [NormedSpace ℝ E] [CompleteSpace E] (n : ℕ) (p delta x0 : ℝ) (h0 : 0 ≤ p) (h1 : p ≤ 1) (f : ℝ → E) :
    ∫ x, f x ∂(binomialLaw n p delta x0) =
      ∑ k ∈ Finset.range (n + 1), ((n.choose k : ℝ) * p ^ k * (1 - p) ^ (n - k)) • f (x0 + (k : ℝ) * delta - ((n - k : ℕ) : ℝ) * delta) := by
  unfold binomialLaw
  rw [integral_finsetSum_measure]
  · refine Finset.sum_congr rfl fun k _ => ?_
    rw [integral_smul_measure, integral_dirac, ENNReal.toReal_ofReal (binomialWeight_nonneg n k p h0 h1)]
  · intro k _
    exact (integrable_dirac (by simp)).smul_measure ENNReal.ofReal_ne_top

theorem binomialLaw_prob (n : ℕ) (p delta x0 : ℝ) (h0 : 0 ≤ p) (h1 : p ≤ 1) : IsProbabilityMeasure (binomialLaw n p delta x0) := by
  constructor
  unfold binomialLaw
  rw [Measure.finsetSum_apply]
  simp only [Measure.smul_apply, measure_univ, smul_eq_mul, mul_one]
  rw [← ENNReal.ofReal_sum_of_nonneg (fun k _ => binomialWeight_nonneg n k p h0 h1)]
  have := add_pow p (1 - p) n
  rw [show p + (1 - p) = 1 by ring, one_pow] at this
  rw [show (∑ k ∈ Finset.range (n + 1), (n.choose k : ℝ) * p ^ k * (1 - p) ^ (n - k)) = 1 from
    (Finset.sum_congr rfl fun k _ => by ring).trans this.symm]
  simp

theorem charFun_binomialLaw (n : ℕ) (p delta x0 : ℝ) (h0 : 0 ≤ p) (h1 : p ≤ 1) (t : ℝ) :
    charFun (binomialLaw n p delta x0) t = cexp (t * x0 * I) * ((p : ℂ) * cexp (t * delta * I) + (1 - p : ℂ) * cexp (-(t * delta * I))) ^ n := by
  rw [charFun_apply_real, integral_binomialLaw n p delta x0 h0 h1, add_pow, Finset.mul_sum]
  refine Finset.sum_congr rfl fun k hk => ?_
  rw [Complex.real_smul, mul_pow, mul_pow, ← Complex.exp_nat_mul, ← Complex.exp_nat_mul]
  push_cast
  have e : (t : ℂ) * (x0 + k * delta - (n - k : ℕ) * delta) * I = t * x0 * I + (k * (t * delta * I) + ((n - k : ℕ) : ℂ) * -(t * delta * I)) := by ring
  rw [e, Complex.exp_add, Complex.exp_add]
  ring

/-- Quotients at zero. -/
theorem tendsto_sin_div (t : ℝ) : Tendsto (fun d : ℝ => Real.sin (t * d) / d) (𝓝[≠] 0) (𝓝 t) := by
  have h : HasDerivAt (fun d : ℝ => Real.sin (t * d)) t 0 := by
    have := ((hasDerivAt_id (0 : ℝ)).const_mul t).sin
    simpa using this
  have := h.tendsto_slope_zero
  refine this.congr' ?_
  filter_upwards with d
  simp [div_eq_inv_mul]

theorem tendsto_sinh_div (a : ℝ) : Tendsto (fun d : ℝ => Real.sinh (a * d) / d) (𝓝[≠] 0) (𝓝 a) := by
  have h : HasDerivAt (fun d : ℝ => Real.sinh (a * d)) a 0 := by
    have := ((hasDerivAt_id (0 : ℝ)).const_mul a).sinh
    simpa using this
  have := h.tendsto_slope_zero
  refine this.congr' ?_
  filter_upwards with d
  simp [div_eq_inv_mul]

theorem tendsto_exp_sq (c : ℝ) : Tendsto (fun d : ℝ => (Real.exp (c * d ^ 2) - 1) / d ^ 2) (𝓝[≠] 0) (𝓝 c) := by
  have h : HasDerivAt (fun y : ℝ => Real.exp (c * y)) c 0 := by
    have := ((hasDerivAt_id (0 : ℝ)).const_mul c).exp
    simpa using this
  have h1 := h.tendsto_slope_zero
  have h2 : Tendsto (fun d : ℝ => d ^ 2) (𝓝[≠] 0) (𝓝[≠] 0) := by
    refine tendsto_nhdsWithin_iff.2 ⟨?_, ?_⟩
    · have : Tendsto (fun d : ℝ => d ^ 2) (𝓝 0) (𝓝 (0 ^ 2)) := (continuous_pow 2).tendsto 0
      rw [zero_pow two_ne_zero] at this
      exact this.mono_left nhdsWithin_le_nhds
    · filter_upwards [self_mem_nhdsWithin] with d hd
      exact pow_ne_zero 2 hd
  refine (h1.comp h2).congr' ?_
  filter_upwards with d
  simp [div_eq_inv_mul]

theorem tendsto_cos_sq (t : ℝ) : Tendsto (fun d : ℝ => (Real.cos (t * d) - 1) / d ^ 2) (𝓝[≠] 0) (𝓝 (-(t ^ 2) / 2)) := by
  have h := ((tendsto_sin_div (t / 2)).pow 2).const_mul (-2)
  refine (h.congr' ?_).trans (le_of_eq (by congr 1; ring))
  filter_upwards with d
  have : Real.cos (t * d) = 1 - 2 * Real.sin (t / 2 * d) ^ 2 := by
    rw [show t * d = 2 * (t / 2 * d) by ring, Real.cos_two_mul, Real.cos_sq']; ring
  rw [this]; ring

theorem tendsto_cosh_sq : Tendsto (fun d : ℝ => (Real.cosh d - 1) / d ^ 2) (𝓝[≠] 0) (𝓝 (1 / 2)) := by
  have h := ((tendsto_sinh_div (1 / 2)).pow 2).const_mul 2
  refine (h.congr' ?_).trans (le_of_eq (by congr 1; norm_num))
  filter_upwards with d
  have : Real.cosh d = 1 + 2 * Real.sinh (1 / 2 * d) ^ 2 := by
    have := Real.cosh_two_mul (1 / 2 * d)
    rw [show 2 * (1 / 2 * d) = d by ring] at this
    rw [this, Real.cosh_sq]; ring
  rw [this]; ring

/-- Excess of the probability of an up move, with drift `c` per unit of variance. -/
noncomputable def upExcess (c d : ℝ) : ℝ := (Real.exp (c * d ^ 2) - Real.cosh d) / Real.sinh d

theorem tendsto_upExcess (c : ℝ) : Tendsto (fun d => upExcess c d / d) (𝓝[≠] 0) (𝓝 (c - 1 / 2)) := by
  have h := ((tendsto_exp_sq c).sub tendsto_cosh_sq).div (tendsto_sinh_div 1) one_ne_zero
  rw [div_one] at h
  refine h.congr' ?_
  filter_upwards [self_mem_nhdsWithin] with d hd
  have hd' : d ≠ 0 := hd
  have hs : Real.sinh d ≠ 0 := by
    intro h0
    exact hd' (Real.sinh_injective (by rw [h0, Real.sinh_zero]))
  simp only [Pi.div_apply, one_mul]
  unfold upExcess
  field_simp
  ring

/-- The characteristic function of one move, to the power of the number of moves. -/
theorem tendsto_move_pow (c v t : ℝ) (d : ℕ → ℝ) (hd : ∀ n : ℕ, 0 < n → 0 < d n ∧ (n : ℝ) * d n ^ 2 = v) :
    Tendsto (fun n : ℕ => (((1 + upExcess c (d n)) / 2 : ℝ) * cexp (t * d n * I) + (1 - ((1 + upExcess c (d n)) / 2 : ℝ) : ℂ) * cexp (-(t * d n * I))) ^ n) atTop
      (𝓝 (cexp (t * (v * (c - 1 / 2) : ℝ) * I - v * t ^ 2 / 2))) := by
  have hlim : Tendsto d atTop (𝓝[≠] 0) := by
    refine tendsto_nhdsWithin_iff.2 ⟨?_, ?_⟩
    · have h1 : Tendsto (fun n : ℕ => Real.sqrt (v / n)) atTop (𝓝 0) := by
        have := (Real.continuous_sqrt.tendsto 0).comp (tendsto_const_div_atTop_nhds_zero_nat v)
        rwa [Real.sqrt_zero] at this
      refine h1.congr' ?_
      filter_upwards [eventually_gt_atTop 0] with n hn
      have hn' : (0 : ℝ) < n := by exact_mod_cast hn
      have := hd n hn
      rw [← this.2, mul_div_cancel_left₀ _ hn'.ne', Real.sqrt_sq this.1.le]
    · filter_upwards [eventually_gt_atTop 0] with n hn
      exact (hd n hn).1.ne'
  have e : ∀ n : ℕ, ((1 + upExcess c (d n)) / 2 : ℝ) * cexp (t * d n * I) + (1 - ((1 + upExcess c (d n)) / 2 : ℝ) : ℂ) * cexp (-(t * d n * I)) =
      1 + (((Real.cos (t * d n) - 1 : ℝ) : ℂ) + ((upExcess c (d n) * Real.sin (t * d n) : ℝ) : ℂ) * I) := by
    intro n
    have e1 : cexp (t * d n * I) = Real.cos (t * d n) + Real.sin (t * d n) * I := by
      rw [Complex.exp_mul_I]; push_cast; rfl
    have e2 : cexp (-(t * d n * I)) = Real.cos (t * d n) - Real.sin (t * d n) * I := by
      rw [show -((t : ℂ) * d n * I) = (-(t * d n : ℂ)) * I by ring, Complex.exp_mul_I, Complex.cos_neg, Complex.sin_neg]; push_cast; ring
    rw [e1, e2]
    push_cast
    ring
  simp_rw [e]
  refine Complex.tendsto_one_add_pow_exp_of_tendsto ?_
  have l1 := ((tendsto_cos_sq t).comp hlim).const_mul v
  have l2 := (((tendsto_upExcess c).comp hlim).mul ((tendsto_sin_div t).comp hlim)).const_mul v
  have l3 : Tendsto (fun n : ℕ => (((n : ℝ) * (Real.cos (t * d n) - 1) : ℝ) : ℂ) + (((n : ℝ) * (upExcess c (d n) * Real.sin (t * d n)) : ℝ) : ℂ) * I) atTop
      (𝓝 (((v * (-(t ^ 2) / 2) : ℝ) : ℂ) + ((v * ((c - 1 / 2) * t) : ℝ) : ℂ) * I)) := by
    refine Tendsto.add ((Complex.continuous_ofReal.tendsto _).comp (l1.congr' ?_)) (Tendsto.mul_const I ((Complex.continuous_ofReal.tendsto _).comp (l2.congr' ?_)))
    · filter_upwards [eventually_gt_atTop 0] with n hn
      have := hd n hn
      have hd0 := this.1.ne'
      simp only [Function.comp]
      rw [← this.2]
      field_simp
    · filter_upwards [eventually_gt_atTop 0] with n hn
      have := hd n hn
      have hd0 := this.1.ne'
      simp only [Function.comp]
      rw [← this.2]
      field_simp
  refine (l3.congr' ?_).trans (le_of_eq ?_)
  · filter_upwards with n
    push_cast
    ring
  · congr 1
    push_cast
    ring

/-- Weak limit of the law of the log price. -/
theorem tendsto_binomialLaw (c v x0 : ℝ) (hv : 0 < v) (d : ℕ → ℝ) (hd : ∀ n : ℕ, 0 < n → 0 < d n ∧ (n : ℝ) * d n ^ 2 = v)
    (hp : ∀ᶠ n in atTop, 0 ≤ (1 + upExcess c (d n)) / 2 ∧ (1 + upExcess c (d n)) / 2 ≤ 1) (f : BoundedContinuousFunction ℝ ℝ) :
    Tendsto (fun n : ℕ => ∑ k ∈ Finset.range (n + 1), (n.choose k : ℝ) * ((1 + upExcess c (d n)) / 2) ^ k * (1 - (1 + upExcess c (d n)) / 2) ^ (n - k) *
      f (x0 + (k : ℝ) * d n - ((n - k : ℕ) : ℝ) * d n)) atTop
      (𝓝 (∫ x, f x ∂(gaussianReal (x0 + v * (c - 1 / 2)) (Real.toNNReal v)))) := by
  have lift : ∀ m : Measure ℝ, IsProbabilityMeasure m → ∃ P : ProbabilityMeasure ℝ, (P : Measure ℝ) = m := fun m h => ⟨⟨m, h⟩, rfl⟩
  have hex : ∀ n, ∃ P : ProbabilityMeasure ℝ, (0 ≤ (1 + upExcess c (d n)) / 2 ∧ (1 + upExcess c (d n)) / 2 ≤ 1) →
      (P : Measure ℝ) = binomialLaw n ((1 + upExcess c (d n)) / 2) (d n) x0 := by
    intro n
    by_cases h : 0 ≤ (1 + upExcess c (d n)) / 2 ∧ (1 + upExcess c (d n)) / 2 ≤ 1
    · obtain ⟨P, hP⟩ := lift _ (binomialLaw_prob n _ (d n) x0 h.1 h.2)
      exact ⟨P, fun _ => hP⟩
    · obtain ⟨P, _⟩ := lift (Measure.dirac 0) inferInstance
      exact ⟨P, fun h' => absurd h' h⟩
  choose mu hmu using hex
  obtain ⟨G, hG⟩ := lift (gaussianReal (x0 + v * (c - 1 / 2)) (Real.toNNReal v)) inferInstance
  have weak : Tendsto mu atTop (𝓝 G) := by
    refine ProbabilityMeasure.tendsto_iff_tendsto_charFun.2 fun t => ?_
    have lim := (tendsto_move_pow c v t d hd).const_mul (cexp (t * x0 * I))
    refine (lim.congr' ?_).trans (le_of_eq ?_)
    · filter_upwards [hp] with n hn
      rw [hmu n hn, charFun_binomialLaw _ _ _ _ hn.1 hn.2]
    · congr 1
      rw [hG, charFun_gaussianReal, ← Complex.exp_add, Real.coe_toNNReal _ hv.le]
      congr 1
      push_cast
      ring
  have := ProbabilityMeasure.tendsto_iff_forall_integral_tendsto.1 weak f
  rw [hG] at this
  refine this.congr' ?_
  filter_upwards [hp] with n hn
  rw [hmu n hn, integral_binomialLaw _ _ _ _ hn.1 hn.2]
  exact Finset.sum_congr rfl fun k _ => smul_eq_mul _ _

end Lemmas
