import Verif.Lemmas.Heston
import Mathlib.Analysis.Calculus.MeanValue

/-! # C61: the model of Heston -/

namespace Lemmas
open Model Spec MeasureTheory

/-- A solution of `f' = -c f` that starts at zero is zero. -/
theorem linear_zero (c : ℝ) (f : ℝ → ℝ) (h0 : f 0 = 0) (h : ∀ t, HasDerivAt f (-c * f t) t) (t : ℝ) : f t = 0 := by
  have hg : ∀ t, HasDerivAt (fun t => f t * Real.exp (c * t)) 0 t := by
    intro t
    have he : HasDerivAt (fun t : ℝ => Real.exp (c * t)) (Real.exp (c * t) * c) t := by
      simpa using ((hasDerivAt_id t).const_mul c).exp
    refine ((h t).mul he).congr_deriv ?_
    ring
  have hc := is_const_of_deriv_eq_zero (fun t => (hg t).differentiableAt) (fun t => (hg t).deriv) t 0
  simp only [h0, zero_mul] at hc
  exact (mul_eq_zero.1 hc).resolve_right (Real.exp_ne_zero _)

theorem hestonMean_deriv (p : HestonParams) (v t : ℝ) :
    HasDerivAt (hestonMean p v) (p.meanReversion * (p.theta - hestonMean p v t)) t := by
  have he : HasDerivAt (fun t : ℝ => Real.exp (-p.meanReversion * t)) (Real.exp (-p.meanReversion * t) * -p.meanReversion) t := by
    simpa using ((hasDerivAt_id t).const_mul (-p.meanReversion)).exp
  refine ((he.const_mul (v - p.theta)).const_add p.theta).congr_deriv ?_
  simp only [hestonMean]
  ring

theorem hestonVariance_deriv (p : HestonParams) (hk : p.meanReversion ≠ 0) (v t : ℝ) :
    HasDerivAt (hestonVariance p v) (p.volvol ^ 2 * hestonMean p v t - 2 * p.meanReversion * hestonVariance p v t) t := by
  have he : HasDerivAt (fun t : ℝ => Real.exp (-p.meanReversion * t)) (Real.exp (-p.meanReversion * t) * -p.meanReversion) t := by
    simpa using ((hasDerivAt_id t).const_mul (-p.meanReversion)).exp
  have h1 := ((he.const_mul (v * p.volvol ^ 2)).div_const p.meanReversion).mul (he.const_sub 1)
  have h2 := ((he.const_sub 1).pow 2).const_mul (p.theta * p.volvol ^ 2 / 2 / p.meanReversion)
  refine (h1.add h2).congr_deriv ?_
  simp only [hestonMean, hestonVariance]
  generalize Real.exp (-p.meanReversion * t) = e
  field_simp
  ring

/-- The moments computed by the code solve the equations of the moments. -/
theorem heston_moments (p : HestonParams) (hk : p.meanReversion ≠ 0) (v : ℝ) :
    IsCirMoments p.meanReversion p.theta p.volvol v (hestonMean p v) (hestonVariance p v) :=
  ⟨by simp [hestonMean], hestonMean_deriv p v, by simp [hestonVariance], hestonVariance_deriv p hk v⟩

/-- The equations of the moments have one solution. -/
theorem cirMoments_unique (k theta sigma v : ℝ) (m s m' s' : ℝ → ℝ) (h : IsCirMoments k theta sigma v m s) (h' : IsCirMoments k theta sigma v m' s')
    (t : ℝ) : m t = m' t ∧ s t = s' t := by
  have hm : ∀ t, m t = m' t := by
    intro t
    have := linear_zero k (fun t => m t - m' t) (by simp [h.mean_zero, h'.mean_zero])
      (fun t => ((h.mean_deriv t).sub (h'.mean_deriv t)).congr_deriv (by ring)) t
    linarith
  refine ⟨hm t, ?_⟩
  have := linear_zero (2 * k) (fun t => s t - s' t) (by simp [h.variance_zero, h'.variance_zero])
    (fun t => ((h.variance_deriv t).sub (h'.variance_deriv t)).congr_deriv (by rw [hm t]; ring)) t
  linarith

theorem uniform_eq (z : ℝ) : (0.5 : ℝ) * (1 + erf (z / Real.sqrt 2)) = normalCdf z := by
  rw [← ncdf_eq, ncdf]
  norm_num
  ring

/-- The quadratic scheme has the mean `m` and the variance `psi m²`. -/
theorem quadratic_moments (m psi : ℝ) (h0 : 0 < psi) (h1 : psi < 2) :
    normalExpectation 0 1 (quadraticVariance m psi) = m ∧
    normalExpectation 0 1 (fun z => quadraticVariance m psi z ^ 2) = m ^ 2 + psi * m ^ 2 := by
  have hx : 1 < 2 / psi := by rw [lt_div_iff₀ h0]; linarith
  set x := 2 / psi with hxd
  have hpsi : psi = 2 / x := by rw [hxd]; field_simp
  set r := Real.sqrt (x * (x - 1)) with hr
  have hr2 : r ^ 2 = x * (x - 1) := Real.sq_sqrt (by nlinarith)
  have hr0 : 0 ≤ r := Real.sqrt_nonneg _
  set B := x - 1 + r with hB
  have hB0 : 0 < B := by linarith
  set b := Real.sqrt B with hb
  have hb2 : b ^ 2 = B := Real.sq_sqrt hB0.le
  have hq : ∀ z, quadraticVariance m psi z = m / (1 + B) * (b + z) ^ 2 := fun z => rfl
  have hne : (1 + B) ≠ 0 := by linarith
  constructor
  · have : quadraticVariance m psi = fun z => m / (1 + B) * b ^ 2 + (2 * (m / (1 + B)) * b) * z + (m / (1 + B)) * z ^ 2 := by
      funext z; rw [hq]; ring
    rw [this, normalExpectation_quadratic, hb2]
    field_simp
    ring
  · have : (fun z => quadraticVariance m psi z ^ 2) = fun z => (m / (1 + B)) ^ 2 * b ^ 4 + (4 * (m / (1 + B)) ^ 2 * b ^ 3) * z +
        (6 * (m / (1 + B)) ^ 2 * b ^ 2) * z ^ 2 + (4 * (m / (1 + B)) ^ 2 * b) * z ^ 3 + (m / (1 + B)) ^ 2 * z ^ 4 := by
      funext z; rw [hq]; ring
    rw [this, normalExpectation_quartic, show b ^ 4 = (b ^ 2) ^ 2 by ring, hb2, hpsi]
    have key : (2 * B + 1) * x = (1 + B) ^ 2 := by rw [hB]; linear_combination -hr2
    have hx0 : x ≠ 0 := by linarith
    field_simp
    linear_combination 2 * m ^ 2 * key

/-- The exponential scheme has the mean `m` and the variance `psi m²`. -/
theorem exponentialVariance_moments (m psi : ℝ) (hm : m ≠ 0) (h1 : 1 < psi) :
    normalExpectation 0 1 (exponentialVariance m psi) = m ∧
    normalExpectation 0 1 (fun z => exponentialVariance m psi z ^ 2) = m ^ 2 + psi * m ^ 2 := by
  have hp0 : 0 < (psi - 1) / (psi + 1) := div_pos (by linarith) (by linarith)
  have hp1 : (psi - 1) / (psi + 1) < 1 := by rw [div_lt_one (by linarith)]; linarith
  have hpsi : psi = (1 + (psi - 1) / (psi + 1)) / (1 - (psi - 1) / (psi + 1)) := by
    have : psi + 1 ≠ 0 := by linarith
    have h2 : 1 - (psi - 1) / (psi + 1) ≠ 0 := by linarith
    field_simp
    ring
  obtain ⟨e1, e2⟩ := exponential_moments _ hp0 hp1
  set p := (psi - 1) / (psi + 1) with hp
  have hq : ∀ z, exponentialVariance m psi z = (if normalCdf z > p then Real.log (1 - p) - Real.log (1 - normalCdf z) else 0) * (m / (1 - p)) := by
    intro z
    simp only [exponentialVariance, uniform_eq, ← hp, div_div_eq_mul_div, mul_div_assoc]
  have hne : 1 - p ≠ 0 := by linarith
  constructor
  · have : exponentialVariance m psi = fun z => (if normalCdf z > p then Real.log (1 - p) - Real.log (1 - normalCdf z) else 0) * (m / (1 - p)) :=
      funext hq
    unfold normalExpectation at e1 ⊢
    rw [this, integral_mul_const, e1]
    field_simp
  · have : (fun z => exponentialVariance m psi z ^ 2) =
        fun z => (if normalCdf z > p then (Real.log (1 - p) - Real.log (1 - normalCdf z)) ^ 2 else 0) * (m / (1 - p)) ^ 2 := by
      funext z
      rw [hq, mul_pow]
      by_cases h : normalCdf z > p
      · rw [if_pos h, if_pos h]
      · rw [if_neg h, if_neg h]; simp
    unfold normalExpectation at e2 ⊢
    rw [this, integral_mul_const, e2, hpsi]
    field_simp
    ring

theorem hestonMean_pos (p : HestonParams) (v dt : ℝ) (hk : 0 < p.meanReversion) (ht : 0 < p.theta) (hv : 0 ≤ v) (hdt : 0 < dt) :
    0 < hestonMean p v dt := by
  have h1 : Real.exp (-p.meanReversion * dt) < 1 := by rw [Real.exp_lt_one_iff]; nlinarith
  have h2 := Real.exp_pos (-p.meanReversion * dt)
  simp only [hestonMean]
  nlinarith [mul_pos ht (sub_pos.2 h1), mul_nonneg hv h2.le]

theorem hestonVariance_pos (p : HestonParams) (v dt : ℝ) (hk : 0 < p.meanReversion) (ht : 0 < p.theta) (hs : p.volvol ≠ 0) (hv : 0 ≤ v) (hdt : 0 < dt) :
    0 < hestonVariance p v dt := by
  have h1 : Real.exp (-p.meanReversion * dt) < 1 := by rw [Real.exp_lt_one_iff]; nlinarith
  have h2 := Real.exp_pos (-p.meanReversion * dt)
  have h3 : 0 < 1 - Real.exp (-p.meanReversion * dt) := by linarith
  have h4 : 0 < p.volvol ^ 2 := by positivity
  simp only [hestonVariance]
  have : 0 ≤ v * p.volvol ^ 2 * Real.exp (-p.meanReversion * dt) / p.meanReversion * (1 - Real.exp (-p.meanReversion * dt)) := by positivity
  have : 0 < p.theta * p.volvol ^ 2 / 2 / p.meanReversion * (1 - Real.exp (-p.meanReversion * dt)) ^ 2 := by positivity
  linarith

end Lemmas

namespace Props
open Model Spec Lemmas MeasureTheory

/-- C61: the variance drawn by a step has the mean and the variance of the square root process. -/
theorem C61_variance_moments (p : HestonParams) (v dt : ℝ) (hk : 0 < p.meanReversion) (ht : 0 < p.theta) (hs : p.volvol ≠ 0) (hv : 0 ≤ v) (hdt : 0 < dt)
    (mean variance : ℝ → ℝ) (h : IsCirMoments p.meanReversion p.theta p.volvol v mean variance) :
    normalExpectation 0 1 (updateVariance p v dt) = mean dt ∧
    normalExpectation 0 1 (fun z => updateVariance p v dt z ^ 2) - mean dt ^ 2 = variance dt := by
  obtain ⟨e1, e2⟩ := cirMoments_unique _ _ _ _ _ _ _ _ h (heston_moments p hk.ne' v) dt
  have hm := hestonMean_pos p v dt hk ht hv hdt
  have hsq := hestonVariance_pos p v dt hk ht hs hv hdt
  have hpsi : 0 < hestonVariance p v dt / hestonMean p v dt ^ 2 := by positivity
  have hback : hestonVariance p v dt / hestonMean p v dt ^ 2 * hestonMean p v dt ^ 2 = hestonVariance p v dt := by field_simp
  rw [e1, e2]
  unfold updateVariance
  by_cases hc : hestonVariance p v dt / hestonMean p v dt ^ 2 < 1.5
  · simp only [hc, if_true]
    obtain ⟨a, b⟩ := quadratic_moments (hestonMean p v dt) _ hpsi (by norm_num at hc; linarith)
    refine ⟨a, ?_⟩
    rw [b, hback]; ring
  · simp only [hc, if_false]
    obtain ⟨a, b⟩ := exponentialVariance_moments (hestonMean p v dt) (hestonVariance p v dt / hestonMean p v dt ^ 2) hm.ne'
      (by norm_num at hc; linarith)
    refine ⟨a, ?_⟩
    rw [b, hback]; ring

/-- C61: the equations of the moments have a solution. -/
theorem C61_moments_exist (p : HestonParams) (hk : p.meanReversion ≠ 0) (v : ℝ) :
    ∃ mean variance, IsCirMoments p.meanReversion p.theta p.volvol v mean variance := ⟨_, _, heston_moments p hk v⟩

/-- C61: a step keeps the variance non-negative. -/
theorem C61_nonneg (p : HestonParams) (v dt z : ℝ) (hk : 0 < p.meanReversion) (ht : 0 < p.theta) (hs : p.volvol ≠ 0) (hv : 0 ≤ v) (hdt : 0 < dt) :
    0 ≤ updateVariance p v dt z := by
  have hm := hestonMean_pos p v dt hk ht hv hdt
  have hsq := hestonVariance_pos p v dt hk ht hs hv hdt
  have hpsi : 0 < hestonVariance p v dt / hestonMean p v dt ^ 2 := by positivity
  unfold updateVariance
  by_cases hc : hestonVariance p v dt / hestonMean p v dt ^ 2 < 1.5
  · simp only [hc, if_true]
    set psi := hestonVariance p v dt / hestonMean p v dt ^ 2
    have hx : 1 < 2 / psi := by rw [lt_div_iff₀ hpsi]; norm_num at hc; linarith
    have := Real.sqrt_nonneg (2 / psi * (2 / psi - 1))
    exact mul_nonneg (div_nonneg hm.le (by linarith)) (sq_nonneg _)
  · simp only [hc, if_false]
    set psi := hestonVariance p v dt / hestonMean p v dt ^ 2
    have hp1 : (psi - 1) / (psi + 1) < 1 := by rw [div_lt_one (by linarith)]; linarith
    simp only [exponentialVariance, uniform_eq]
    refine div_nonneg ?_ (div_nonneg (by linarith) hm.le)
    by_cases hu : normalCdf z > (psi - 1) / (psi + 1)
    · rw [if_pos hu]
      have := Real.log_le_log (by linarith [normalCdf_lt_one z] : 0 < 1 - normalCdf z) (by linarith : 1 - normalCdf z ≤ 1 - (psi - 1) / (psi + 1))
      linarith
    · rw [if_neg hu]

/-- C61: the logarithm of the spot moves by the solution of its equation given the variances at both ends, where the integral of the variance is
replaced by the trapezoidal rule. -/
theorem C61_log_spot (p : HestonParams) (v v' x dt z : ℝ) (hs : p.volvol ≠ 0) (integral : ℝ) (hI : integral = (v + v') / 2 * dt) :
    updateLogSpot p v v' x dt z = x - integral / 2 +
      p.rho * ((v' - v - p.meanReversion * (p.theta * dt - integral)) / p.volvol) + Real.sqrt ((1 - p.rho ^ 2) * integral) * z := by
  have h : 0.5 * dt * (1 - p.rho ^ 2) * v + 0.5 * dt * (1 - p.rho ^ 2) * v' = (1 - p.rho ^ 2) * integral := by rw [hI]; ring
  simp only [updateLogSpot]
  rw [h, hI]
  field_simp
  ring

/-- C61: the drift of the logarithm of the price is minus half of its variance, so that the price itself has no drift, and the drift of the variance is the mean reversion to
`theta`. -/
theorem C61_drift (p : HestonParams) (x : Fin 2 → ℝ) (hx : 0 ≤ x 1) :
    hestonDrift p x 0 + (hestonVol p x * (hestonVol p x).transpose) 0 0 / 2 = 0 ∧ hestonDrift p x 1 = p.meanReversion * (p.theta - x 1) := by
  have h1 : Real.sqrt |x 1| ^ 2 = x 1 := by rw [Real.sq_sqrt (abs_nonneg _), abs_of_nonneg hx]
  refine ⟨?_, rfl⟩
  simp [hestonDrift, hestonVol, Matrix.mul_apply, Fin.sum_univ_two]
  rw [abs_of_nonneg hx]
  ring

/-- C61: the covariance of the volatility matrix, with correlation `rho`. -/
theorem C61_covariance (p : HestonParams) (x : Fin 2 → ℝ) (hr : p.rho ^ 2 ≤ 1) (hx : 0 ≤ x 1) :
    hestonVol p x * (hestonVol p x).transpose =
      !![x 1, p.rho * p.volvol * x 1; p.rho * p.volvol * x 1, p.volvol ^ 2 * x 1] := by
  have h1 : Real.sqrt |x 1| ^ 2 = x 1 := by rw [Real.sq_sqrt (abs_nonneg _), abs_of_nonneg hx]
  have h2 : Real.sqrt (1 - p.rho ^ 2) ^ 2 = 1 - p.rho ^ 2 := Real.sq_sqrt (by linarith)
  ext i j
  fin_cases i <;> fin_cases j <;> simp [hestonVol, Matrix.mul_apply, Fin.sum_univ_two]
  · exact hx
  · linear_combination p.rho * p.volvol * h1
  · linear_combination p.rho * p.volvol * h1
  · linear_combination (p.volvol ^ 2 * p.rho ^ 2 + p.volvol ^ 2 * Real.sqrt (1 - p.rho ^ 2) ^ 2) * h1 + p.volvol ^ 2 * x 1 * h2

/-- C61: the expected total variance is the integral of the mean of the variance. -/
theorem C61_total_variance (k theta sigma v t : ℝ) (hk : k ≠ 0) (mean variance : ℝ → ℝ) (h : IsCirMoments k theta sigma v mean variance) :
    expectedTotalVariance k theta v t = ∫ s in (0 : ℝ)..t, mean s := by
  have hmean : ∀ s, mean s = theta + (v - theta) * Real.exp (-k * s) := fun s =>
    (cirMoments_unique _ _ _ _ _ _ _ _ h (heston_moments ⟨k, theta, sigma, 0⟩ hk v) s).1
  have hd : ∀ s : ℝ, HasDerivAt (fun s => expectedTotalVariance k theta v s) (theta + (v - theta) * Real.exp (-k * s)) s := by
    intro s
    have he : HasDerivAt (fun t : ℝ => Real.exp (-k * t)) (Real.exp (-k * s) * -k) s := by
      simpa using ((hasDerivAt_id s).const_mul (-k)).exp
    refine ((((he.const_sub 1).div_const k).const_mul (v - theta)).add ((hasDerivAt_id s).const_mul theta)).congr_deriv ?_
    field_simp
    ring
  have := intervalIntegral.integral_eq_sub_of_hasDerivAt (a := 0) (b := t) (fun s _ => hd s)
    (Continuous.intervalIntegrable (by fun_prop) _ _)
  simp only [funext hmean]
  rw [this]
  simp [expectedTotalVariance]

/-- Half of the variance is lost by the logarithm and one standard deviation is gained. -/
example : updateLogSpot ⟨1, 1, 1, 0⟩ 1 1 0 1 1 = 1 / 2 := by
  norm_num [updateLogSpot]

/-- The hypotheses of `C61_variance_moments` hold for these parameters. -/
example : normalExpectation 0 1 (updateVariance ⟨2, 1 / 25, 1 / 2, -1 / 2⟩ (1 / 16) 1) = 1 / 25 + 9 / 400 * Real.exp (-2) := by
  rw [(C61_variance_moments ⟨2, 1 / 25, 1 / 2, -1 / 2⟩ (1 / 16) 1 (by norm_num) (by norm_num) (by norm_num) (by norm_num) (by norm_num) _ _
    (heston_moments _ (by norm_num) _)).1]
  norm_num [hestonMean]

end Props
