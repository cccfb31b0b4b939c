import Verif.Model.Cir
import Verif.Spec.Cir
import Verif.Spec.Heston
import Mathlib.Analysis.SpecialFunctions.Gamma.Basic
import Mathlib.Analysis.SpecialFunctions.Pow.Deriv
import Mathlib.Analysis.SpecialFunctions.ExpDeriv
import Mathlib.Analysis.Normed.Algebra.Exponential
import Mathlib.Tactic.FieldSimp
import Mathlib.Tactic.Ring
import Mathlib.Tactic.Linarith
import Mathlib.Tactic.LinearCombination

/-!
# The exact law of the Cox–Ingersoll–Ross sampler (C63)
-/

namespace Props
open Model MeasureTheory

/-- The law of the state after one step of `_sample_at_time`: a Poisson draw and then a gamma draw; when `c` is not positive the gamma draw is
not used. -/
noncomputable def cirExpectation (m : Cir) (dt x : ℝ) (f : ℝ → ℝ) : ℝ :=
  if m.c dt > 0 then Spec.poissonExpectation (m.poissonMean dt x) fun n => Spec.gammaExpectation (m.gammaShape n) (m.gammaRate dt) fun g => f (m.next dt x g)
  else f (m.next dt x 0)

theorem gammaExpectation_eq (a r : ℝ) (ha : 0 < a) (hr : 0 < r) (f : ℝ → ℝ) :
    Spec.gammaExpectation a r f = ∫ y in Set.Ioi 0, r ^ a / Real.Gamma a * (y ^ (a - 1) * Real.exp (-(r * y)) * f y) := by
  rw [Spec.gammaExpectation, ProbabilityTheory.gammaMeasure]
  rw [integral_withDensity_eq_integral_toReal_smul (by unfold ProbabilityTheory.gammaPDF; fun_prop)
    (Filter.Eventually.of_forall fun x => by simp [ProbabilityTheory.gammaPDF])]
  have : (fun x => (ProbabilityTheory.gammaPDF a r x).toReal • f x) =
      Set.indicator (Set.Ici 0) fun y => r ^ a / Real.Gamma a * (y ^ (a - 1) * Real.exp (-(r * y)) * f y) := by
    funext x
    by_cases h : 0 ≤ x
    · rw [Set.indicator_of_mem (by exact h), ProbabilityTheory.gammaPDF, ENNReal.toReal_ofReal (ProbabilityTheory.gammaPDFReal_nonneg ha hr x),
        ProbabilityTheory.gammaPDFReal, if_pos h, smul_eq_mul]
      ring
    · rw [Set.indicator_of_notMem (by exact h), ProbabilityTheory.gammaPDF, ProbabilityTheory.gammaPDFReal, if_neg h]
      simp
  rw [this, integral_indicator measurableSet_Ici, integral_Ici_eq_integral_Ioi]

/-- The Laplace transform of a gamma variable. -/
theorem gamma_laplace (a r l : ℝ) (ha : 0 < a) (hr : 0 < r) (hl : 0 ≤ l) :
    Spec.gammaExpectation a r (fun y => Real.exp (-l * y)) = (r / (r + l)) ^ a := by
  rw [gammaExpectation_eq a r ha hr, integral_const_mul]
  have e : ∀ y : ℝ, y ^ (a - 1) * Real.exp (-(r * y)) * Real.exp (-l * y) = y ^ (a - 1) * Real.exp (-((r + l) * y)) := by
    intro y
    rw [mul_assoc, ← Real.exp_add]
    congr 2; ring
  simp only [e]
  rw [Real.integral_rpow_mul_exp_neg_mul_Ioi ha (by linarith)]
  have hG := (Real.Gamma_pos_of_pos ha).ne'
  rw [Real.div_rpow hr.le (by linarith), Real.div_rpow zero_le_one (by linarith), Real.one_rpow]
  field_simp

/-- The mean of a gamma variable. -/
theorem gamma_mean (a r : ℝ) (ha : 0 < a) (hr : 0 < r) : Spec.gammaExpectation a r (fun y => y) = a / r := by
  rw [gammaExpectation_eq a r ha hr, integral_const_mul]
  have e : ∀ y ∈ Set.Ioi (0 : ℝ), y ^ (a - 1) * Real.exp (-(r * y)) * y = y ^ ((a + 1) - 1) * Real.exp (-(r * y)) := by
    intro y hy
    have hy : 0 < y := hy
    rw [show y ^ (a + 1 - 1) = y ^ (a - 1) * y by rw [show a + 1 - 1 = a - 1 + 1 by ring, Real.rpow_add_one hy.ne']]
    ring
  rw [setIntegral_congr_fun measurableSet_Ioi e, Real.integral_rpow_mul_exp_neg_mul_Ioi (by linarith) hr, Real.Gamma_add_one ha.ne',
    Real.div_rpow zero_le_one hr.le, Real.one_rpow, Real.rpow_add_one hr.ne']
  have hG := (Real.Gamma_pos_of_pos ha).ne'
  have := (Real.rpow_pos_of_pos hr a).ne'
  field_simp

/-- The second moment of a gamma variable. -/
theorem gamma_second (a r : ℝ) (ha : 0 < a) (hr : 0 < r) : Spec.gammaExpectation a r (fun y => y ^ 2) = a * (a + 1) / r ^ 2 := by
  rw [gammaExpectation_eq a r ha hr, integral_const_mul]
  have e : ∀ y ∈ Set.Ioi (0 : ℝ), y ^ (a - 1) * Real.exp (-(r * y)) * y ^ 2 = y ^ ((a + 1 + 1) - 1) * Real.exp (-(r * y)) := by
    intro y hy
    have hy : 0 < y := hy
    rw [show y ^ (a + 1 + 1 - 1) = y ^ (a - 1) * y * y by
      rw [show a + 1 + 1 - 1 = a - 1 + 1 + 1 by ring, Real.rpow_add_one hy.ne', Real.rpow_add_one hy.ne']]
    ring
  rw [setIntegral_congr_fun measurableSet_Ioi e, Real.integral_rpow_mul_exp_neg_mul_Ioi (by linarith) hr, Real.Gamma_add_one (by linarith),
    Real.Gamma_add_one ha.ne', Real.div_rpow zero_le_one hr.le, Real.one_rpow, Real.rpow_add_one hr.ne', Real.rpow_add_one hr.ne']
  have hG := (Real.Gamma_pos_of_pos ha).ne'
  have := (Real.rpow_pos_of_pos hr a).ne'
  field_simp

/-- The exponential series with weights. -/
theorem poisson_geometric (mean q : ℝ) : HasSum (fun n => Spec.poissonWeight mean n * q ^ n) (Real.exp (-mean * (1 - q))) := by
  have h := (NormedSpace.expSeries_div_hasSum_exp (𝔸 := ℝ) (mean * q)).mul_left (Real.exp (-mean))
  rw [← Real.exp_eq_exp_ℝ, ← Real.exp_add, show -mean + mean * q = -mean * (1 - q) by ring] at h
  have e : (fun n => Spec.poissonWeight mean n * q ^ n) = fun n : ℕ => Real.exp (-mean) * ((mean * q) ^ n / n.factorial) := by
    funext n
    rw [Spec.poissonWeight, mul_pow]
    ring
  rw [e]
  exact h

theorem poisson_total (mean : ℝ) : HasSum (Spec.poissonWeight mean) 1 := by
  have := poisson_geometric mean 1
  simpa using this

theorem poisson_shift (mean : ℝ) (n : ℕ) : Spec.poissonWeight mean (n + 1) * ((n : ℝ) + 1) = mean * Spec.poissonWeight mean n := by
  rw [Spec.poissonWeight, Spec.poissonWeight, Nat.factorial_succ, pow_succ]
  have : (n.factorial : ℝ) ≠ 0 := by positivity
  push_cast
  have : (n : ℝ) + 1 ≠ 0 := by positivity
  field_simp

theorem poisson_mean (mean : ℝ) : HasSum (fun n => Spec.poissonWeight mean n * (n : ℝ)) mean := by
  rw [← hasSum_nat_add_iff' 1]
  have := (poisson_total mean).mul_left mean
  simp only [Finset.range_one, Finset.sum_singleton, Nat.cast_zero, mul_zero, sub_zero]
  rw [mul_one] at this
  have e : (fun n => Spec.poissonWeight mean (n + 1) * ((n + 1 : ℕ) : ℝ)) = fun n => mean * Spec.poissonWeight mean n := by
    funext n
    push_cast
    exact poisson_shift mean n
  rw [e]
  exact this

theorem poisson_second (mean : ℝ) : HasSum (fun n => Spec.poissonWeight mean n * ((n : ℝ) * ((n : ℝ) - 1))) (mean ^ 2) := by
  rw [← hasSum_nat_add_iff' 1]
  have := (poisson_mean mean).mul_left mean
  simp only [Finset.range_one, Finset.sum_singleton, Nat.cast_zero, zero_mul, mul_zero, sub_zero]
  rw [← pow_two] at this
  have e : (fun n => Spec.poissonWeight mean (n + 1) * (((n + 1 : ℕ) : ℝ) * (((n + 1 : ℕ) : ℝ) - 1))) = fun n => mean * (Spec.poissonWeight mean n * (n : ℝ)) := by
    funext n
    push_cast
    rw [← mul_assoc, poisson_shift]
    ring
  rw [e]
  exact this

theorem cir_zeta_pos (m : Cir) (dt : ℝ) (h : 0 < dt) : 0 < m.zeta dt := by
  rw [Cir.zeta]
  by_cases hk : m.meanReversion = 0
  · rw [if_pos hk]; exact h
  · rw [if_neg hk]
    rcases lt_or_gt_of_ne hk with hk | hk
    · refine div_pos_of_neg_of_neg ?_ hk
      have : 1 < Real.exp (-m.meanReversion * dt) := Real.one_lt_exp_iff.2 (mul_pos (by linarith) h)
      linarith
    · refine div_pos ?_ hk
      have : Real.exp (-m.meanReversion * dt) < 1 := Real.exp_lt_one_iff.2 (by nlinarith)
      linarith

theorem cir_c_pos (m : Cir) (hs : m.sigma ≠ 0) (dt : ℝ) (h : 0 < dt) : 0 < m.c dt := by
  have := cir_zeta_pos m dt h
  rw [Cir.c]
  positivity

/-- The denominator of the transform. -/
noncomputable def cirDenominator (m : Cir) (l dt : ℝ) : ℝ := 1 + m.sigma ^ 2 * l * m.zeta dt / 2

/-- The exponent of the transform. -/
noncomputable def cirExponent (m : Cir) (l dt : ℝ) : ℝ := l * Real.exp (-m.meanReversion * dt) / cirDenominator m l dt

/-- The transform in closed form. -/
noncomputable def cirTransform (m : Cir) (l dt x : ℝ) : ℝ :=
  cirDenominator m l dt ^ (-(2 * m.theta / m.sigma ^ 2)) * Real.exp (-cirExponent m l dt * x)

theorem cirDenominator_pos (m : Cir) (l dt : ℝ) (hl : 0 ≤ l) (hdt : 0 < dt) : 0 < cirDenominator m l dt := by
  have := cir_zeta_pos m dt hdt
  rw [cirDenominator]
  positivity

/-- C63: the expectation of `exp (-l X)` after one step of the sampler. -/
theorem cir_transform (m : Cir) (hs : m.sigma ≠ 0) (hθ : 0 < m.theta) (l dt x : ℝ) (hl : 0 ≤ l) (hdt : 0 < dt) :
    cirExpectation m dt x (fun y => Real.exp (-l * y)) = cirTransform m l dt x := by
  have hc := cir_c_pos m hs dt hdt
  have hz := cir_zeta_pos m dt hdt
  have hD := cirDenominator_pos m l dt hl hdt
  have hs2 : 0 < m.sigma ^ 2 := by positivity
  set a := 2 * m.theta / m.sigma ^ 2 with ha
  have hapos : 0 < a := by positivity
  have hq : m.c dt / 2 / (m.c dt / 2 + l) = (cirDenominator m l dt)⁻¹ := by
    rw [inv_eq_one_div, div_eq_div_iff (by positivity) hD.ne', cirDenominator, Cir.c]
    field_simp
    ring
  set q := (cirDenominator m l dt)⁻¹ with hqdef
  have hqpos : 0 < q := inv_pos.2 hD
  rw [cirExpectation, if_pos hc, Spec.poissonExpectation]
  have e : ∀ n : ℕ, Spec.gammaExpectation (m.gammaShape n) (m.gammaRate dt) (fun g => Real.exp (-l * m.next dt x g)) = q ^ n * q ^ a := by
    intro n
    simp only [Cir.next, if_pos hc]
    rw [gamma_laplace _ _ _ (by rw [Cir.gammaShape]; positivity) (by rw [Cir.gammaRate]; positivity) hl, Cir.gammaRate, hq, Cir.gammaShape,
      Real.rpow_add hqpos, Real.rpow_natCast]
  simp only [e, ← mul_assoc]
  rw [tsum_mul_right, (poisson_geometric _ q).tsum_eq, cirTransform, mul_comm]
  congr 1
  · rw [hqdef, Real.inv_rpow hD.le, Real.rpow_neg hD.le]
  · congr 1
    have h2 : 1 - q = m.sigma ^ 2 * l * m.zeta dt / 2 * q := by
      rw [hqdef]
      field_simp
      rw [cirDenominator]
      ring
    rw [h2, Cir.poissonMean, Cir.d, Cir.c, cirExponent, hqdef]
    field_simp
    ring

theorem cir_zeta_deriv (m : Cir) (t : ℝ) : HasDerivAt m.zeta (Real.exp (-m.meanReversion * t)) t := by
  by_cases hk : m.meanReversion = 0
  · have : m.zeta = fun t => t := by funext t; rw [Cir.zeta, if_pos hk]
    rw [this, hk]
    exact (hasDerivAt_id' t).congr_deriv (by simp)
  · have : m.zeta = fun t => (1 - Real.exp (-m.meanReversion * t)) / m.meanReversion := by funext t; rw [Cir.zeta, if_neg hk]
    rw [this]
    have h1 : HasDerivAt (fun t => -m.meanReversion * t) (-m.meanReversion) t := by simpa using (hasDerivAt_id t).const_mul (-m.meanReversion)
    refine (((hasDerivAt_const t (1 : ℝ)).sub h1.exp).div_const m.meanReversion).congr_deriv ?_
    field_simp
    ring

theorem cir_zeta_zero (m : Cir) : m.zeta 0 = 0 := by
  rw [Cir.zeta]
  by_cases hk : m.meanReversion = 0
  · rw [if_pos hk]
  · rw [if_neg hk]; simp

theorem cir_c_zero (m : Cir) : m.c 0 = 0 := by simp [Cir.c, cir_zeta_zero]

theorem cirDenominator_deriv (m : Cir) (l t : ℝ) : HasDerivAt (cirDenominator m l) (m.sigma ^ 2 * l * Real.exp (-m.meanReversion * t) / 2) t := by
  have := ((cir_zeta_deriv m t).const_mul (m.sigma ^ 2 * l)).div_const 2 |>.const_add 1
  exact this

/-- The equation of Riccati for the exponent. -/
theorem cirExponent_deriv (m : Cir) (l t : ℝ) (hD : cirDenominator m l t ≠ 0) :
    HasDerivAt (cirExponent m l) (-m.meanReversion * cirExponent m l t - m.sigma ^ 2 / 2 * cirExponent m l t ^ 2) t := by
  have h1 : HasDerivAt (fun t => -m.meanReversion * t) (-m.meanReversion) t := by simpa using (hasDerivAt_id t).const_mul (-m.meanReversion)
  refine ((h1.exp.const_mul l).div (cirDenominator_deriv m l t) hD).congr_deriv ?_
  rw [cirExponent]
  field_simp

theorem cirTransform_deriv (m : Cir) (hs : m.sigma ≠ 0) (l t x : ℝ) (hD : 0 < cirDenominator m l t) :
    HasDerivAt (fun t => cirTransform m l t x) (cirTransform m l t x *
      (-m.theta * cirExponent m l t + (m.meanReversion * cirExponent m l t + m.sigma ^ 2 / 2 * cirExponent m l t ^ 2) * x)) t := by
  have hp := (cirDenominator_deriv m l t).rpow_const (p := -(2 * m.theta / m.sigma ^ 2)) (Or.inl hD.ne')
  have he := ((cirExponent_deriv m l t hD.ne').neg.mul_const x).exp
  refine (hp.mul he).congr_deriv ?_
  simp only [cirTransform, Pi.neg_apply]
  rw [Real.rpow_sub_one hD.ne']
  have hE : cirExponent m l t * cirDenominator m l t = l * Real.exp (-m.meanReversion * t) := by
    rw [cirExponent]; field_simp
  generalize Real.exp (-cirExponent m l t * x) = E
  generalize cirDenominator m l t ^ (-(2 * m.theta / m.sigma ^ 2)) = A
  rw [show m.sigma ^ 2 * l * Real.exp (-m.meanReversion * t) / 2 = m.sigma ^ 2 / 2 * (cirExponent m l t * cirDenominator m l t) by rw [hE]; ring]
  field_simp
  ring

/-- C63: the sampled state after time `t` has exactly the law of the square root process with the drift and the volatility of the model: for every
`l ≥ 0` the expectation of `exp (-l X)` solves Kolmogorov's equation with the initial value, including the unchanged state at `t = 0`. -/
theorem C63_exact_law_partial (m : Cir) (hs : m.sigma ≠ 0) (hθ : 0 < m.theta) (l : ℝ) (hl : 0 ≤ l) :
    Spec.IsLaplaceTransform m.drift m.vol l fun t x => cirExpectation m t x fun y => Real.exp (-l * y) := by
  have h0 : ∀ x, cirExpectation m 0 x (fun y => Real.exp (-l * y)) = Real.exp (-l * x) := by
    intro x
    rw [cirExpectation, if_neg (by rw [cir_c_zero]; exact lt_irrefl _), Cir.next, if_neg (by rw [cir_c_zero]; exact lt_irrefl _)]
  refine ⟨h0, fun x _ => ?_, ?_⟩
  · have hc : Filter.Tendsto (fun t => cirTransform m l t x) (nhdsWithin 0 (Set.Ioi 0)) (nhds (cirTransform m l 0 x)) := by
      have hD : cirDenominator m l 0 = 1 := by rw [cirDenominator, cir_zeta_zero]; ring
      exact ((cirTransform_deriv m hs l 0 x (by rw [hD]; exact one_pos)).continuousAt.tendsto).mono_left nhdsWithin_le_nhds
    have e : cirTransform m l 0 x = cirExpectation m 0 x fun y => Real.exp (-l * y) := by
      rw [h0, cirTransform, cirExponent, cirDenominator, cir_zeta_zero]
      simp
    rw [e] at hc
    refine hc.congr' ?_
    filter_upwards [self_mem_nhdsWithin] with t ht
    exact (cir_transform m hs hθ l t x hl ht).symm
  · have hx : ∀ t x, HasDerivAt (fun x => cirTransform m l t x) (-cirExponent m l t * cirTransform m l t x) x := by
      intro t x
      have h1 : HasDerivAt (fun x => -cirExponent m l t * x) (-cirExponent m l t) x := by simpa using (hasDerivAt_id x).const_mul (-cirExponent m l t)
      refine (h1.exp.const_mul (cirDenominator m l t ^ (-(2 * m.theta / m.sigma ^ 2)))).congr_deriv ?_
      rw [cirTransform]; ring
    refine ⟨fun t x => -cirExponent m l t * cirTransform m l t x, fun t x => -cirExponent m l t * (-cirExponent m l t * cirTransform m l t x), ?_, ?_, ?_⟩
    · intro t ht x
      have : (fun x => cirExpectation m t x fun y => Real.exp (-l * y)) = fun x => cirTransform m l t x := by
        funext x; exact cir_transform m hs hθ l t x hl ht
      rw [this]; exact hx t x
    · intro t ht x
      exact (hx t x).const_mul _
    · intro t ht x hx0
      have hD := cirDenominator_pos m l t hl ht
      have he : (fun t => cirExpectation m t x fun y => Real.exp (-l * y)) =ᶠ[nhds t] fun t => cirTransform m l t x := by
        filter_upwards [lt_mem_nhds ht] with t' ht'
        exact cir_transform m hs hθ l t' x hl ht'
      refine ((cirTransform_deriv m hs l t x hD).congr_of_eventuallyEq he).congr_deriv ?_
      rw [Cir.drift, Cir.vol, mul_pow, Real.sq_sqrt hx0]
      ring

theorem cirExpectation_const_mul (m : Cir) (dt x a : ℝ) (f : ℝ → ℝ) : cirExpectation m dt x (fun y => a * f y) = a * cirExpectation m dt x f := by
  rw [cirExpectation, cirExpectation]
  by_cases h : m.c dt > 0
  · rw [if_pos h, if_pos h, Spec.poissonExpectation, Spec.poissonExpectation, ← tsum_mul_left]
    refine tsum_congr fun n => ?_
    simp only [Spec.gammaExpectation, integral_const_mul]
    ring
  · rw [if_neg h, if_neg h]

/-- C63: two steps have the law of one step over the sum of the times, so that the law at a requested time does not depend on the other requested
times. -/
theorem C63_steps (m : Cir) (hs : m.sigma ≠ 0) (hθ : 0 < m.theta) (l : ℝ) (hl : 0 ≤ l) (dt₁ dt₂ x : ℝ) (h₁ : 0 < dt₁) (h₂ : 0 < dt₂) :
    cirExpectation m dt₁ x (fun y => cirExpectation m dt₂ y fun z => Real.exp (-l * z)) = cirExpectation m (dt₁ + dt₂) x fun z => Real.exp (-l * z) := by
  have e : (fun y => cirExpectation m dt₂ y fun z => Real.exp (-l * z)) =
      fun y => cirDenominator m l dt₂ ^ (-(2 * m.theta / m.sigma ^ 2)) * Real.exp (-cirExponent m l dt₂ * y) := by
    funext y; rw [cir_transform m hs hθ l dt₂ y hl h₂, cirTransform]
  have hD2 := cirDenominator_pos m l dt₂ hl h₂
  have hψ : 0 ≤ cirExponent m l dt₂ := by rw [cirExponent]; positivity
  have hD1 := cirDenominator_pos m (cirExponent m l dt₂) dt₁ hψ h₁
  rw [e, cirExpectation_const_mul, cir_transform m hs hθ _ dt₁ x hψ h₁, cir_transform m hs hθ l (dt₁ + dt₂) x hl (by linarith), cirTransform, cirTransform,
    ← mul_assoc, ← Real.mul_rpow hD2.le hD1.le]
  have hζ : m.zeta (dt₁ + dt₂) = m.zeta dt₂ + Real.exp (-m.meanReversion * dt₂) * m.zeta dt₁ := by
    simp only [Cir.zeta]
    by_cases hk : m.meanReversion = 0
    · simp only [if_pos hk]; rw [hk]; simp; ring
    · simp only [if_neg hk]
      rw [show -m.meanReversion * (dt₁ + dt₂) = -m.meanReversion * dt₂ + -m.meanReversion * dt₁ by ring, Real.exp_add]
      field_simp
      ring
  have hD : cirDenominator m l dt₂ * cirDenominator m (cirExponent m l dt₂) dt₁ = cirDenominator m l (dt₁ + dt₂) := by
    have : cirExponent m l dt₂ * cirDenominator m l dt₂ = l * Real.exp (-m.meanReversion * dt₂) := by rw [cirExponent]; field_simp
    rw [cirDenominator.eq_1 m l (dt₁ + dt₂), hζ, cirDenominator.eq_1 m (cirExponent m l dt₂)]
    have h2 : cirDenominator m l dt₂ = 1 + m.sigma ^ 2 * l * m.zeta dt₂ / 2 := rfl
    linear_combination h2 + m.sigma ^ 2 * m.zeta dt₁ / 2 * this
  have hE : cirExponent m (cirExponent m l dt₂) dt₁ = cirExponent m l (dt₁ + dt₂) := by
    rw [cirExponent, cirExponent.eq_1 m l (dt₁ + dt₂), ← hD, cirExponent, show -m.meanReversion * (dt₁ + dt₂) = -m.meanReversion * dt₂ + -m.meanReversion * dt₁ by ring,
      Real.exp_add]
    have := hD1.ne'
    rw [cirExponent] at this
    field_simp
  rw [hD, hE]

/-- C63: the mean and the second moment of the sampled state. -/
theorem C63_moments (m : Cir) (hs : m.sigma ≠ 0) (hθ : 0 < m.theta) (dt x : ℝ) (hdt : 0 < dt) :
    cirExpectation m dt x (fun y => y) = x * Real.exp (-m.meanReversion * dt) + m.theta * m.zeta dt ∧
    cirExpectation m dt x (fun y => y ^ 2) - cirExpectation m dt x (fun y => y) ^ 2 =
      m.sigma ^ 2 * (x * Real.exp (-m.meanReversion * dt) * m.zeta dt + m.theta * m.zeta dt ^ 2 / 2) := by
  have hc := cir_c_pos m hs dt hdt
  have hz := cir_zeta_pos m dt hdt
  have hs2 : 0 < m.sigma ^ 2 := by positivity
  have hr : 0 < m.gammaRate dt := by rw [Cir.gammaRate]; positivity
  have hα : ∀ n : ℕ, 0 < m.gammaShape n := fun n => by rw [Cir.gammaShape]; positivity
  set a := 2 * m.theta / m.sigma ^ 2 with ha
  set r := m.gammaRate dt with hrdef
  set p := m.poissonMean dt x with hp
  have e1 : cirExpectation m dt x (fun y => y) = (p + a) / r := by
    rw [cirExpectation, if_pos hc, Spec.poissonExpectation]
    have : ∀ n : ℕ, Spec.poissonWeight p n * Spec.gammaExpectation (m.gammaShape n) r (fun g => m.next dt x g) =
        (Spec.poissonWeight p n * (n : ℝ) + Spec.poissonWeight p n * a) * r⁻¹ := by
      intro n
      simp only [Cir.next, if_pos hc]
      rw [gamma_mean _ _ (hα n) hr, Cir.gammaShape, ← ha]
      ring
    simp only [← hp, ← hrdef, this]
    rw [((poisson_mean p).add ((poisson_total p).mul_right a) |>.mul_right r⁻¹).tsum_eq]
    ring
  have e2 : cirExpectation m dt x (fun y => y ^ 2) = (p ^ 2 + 2 * (a + 1) * p + a * (a + 1)) / r ^ 2 := by
    rw [cirExpectation, if_pos hc, Spec.poissonExpectation]
    have : ∀ n : ℕ, Spec.poissonWeight p n * Spec.gammaExpectation (m.gammaShape n) r (fun g => m.next dt x g ^ 2) =
        (Spec.poissonWeight p n * ((n : ℝ) * ((n : ℝ) - 1)) + Spec.poissonWeight p n * (n : ℝ) * (2 * (a + 1)) + Spec.poissonWeight p n * (a * (a + 1))) * (r ^ 2)⁻¹ := by
      intro n
      simp only [Cir.next, if_pos hc]
      rw [gamma_second _ _ (hα n) hr, Cir.gammaShape, ← ha]
      ring
    simp only [← hp, ← hrdef, this]
    rw [(((poisson_second p).add ((poisson_mean p).mul_right (2 * (a + 1)))).add ((poisson_total p).mul_right (a * (a + 1))) |>.mul_right (r ^ 2)⁻¹).tsum_eq]
    ring
  have hr' : r = 2 / (m.sigma ^ 2 * m.zeta dt) := by rw [hrdef, Cir.gammaRate, Cir.c]; ring
  have hp' : p = r * (Real.exp (-m.meanReversion * dt) * x) := by rw [hp, Cir.poissonMean, Cir.d, hrdef, Cir.gammaRate]; ring
  constructor
  · rw [e1, hp', ha, hr']
    field_simp
  · rw [e1, e2, hp', ha, hr']
    field_simp
    ring

/-- C63: without volatility the sampler keeps the state, although the equation `dx = (theta - k x) dt` moves it. -/
theorem C63_no_volatility (m : Cir) (hs : m.sigma = 0) (dt x gamma : ℝ) : m.next dt x gamma = x := by
  rw [Cir.next, Cir.c, hs]
  simp

/-- C63: the samples are the states after the steps to the requested times, in order, and non-negative for non-negative draws. -/
theorem C63_path (m : Cir) (poisson : ℕ → ℝ → ℕ) (gamma : ℕ → ℝ → ℝ → ℝ) (times : List ℝ) (x0 : ℝ) :
    (m.samplePath poisson gamma times x0).length = times.length ∧
    (∀ i < times.length, (m.samplePath poisson gamma times x0).getD i 0 =
      let x := (x0 :: m.samplePath poisson gamma times x0).getD i 0
      let dt := (0 :: times).getD (i + 1) 0 - (0 :: times).getD i 0
      m.next dt x (gamma i (m.gammaShape (poisson i (m.poissonMean dt x))) (m.gammaRate dt))) ∧
    (0 ≤ x0 → (∀ i a r, 0 ≤ gamma i a r) → ∀ y ∈ m.samplePath poisson gamma times x0, 0 ≤ y) := by
  have key : ∀ (times : List ℝ) (s : ℕ) (t x : ℝ), (m.loop poisson gamma times s t x).length = times.length ∧
      (∀ i < times.length, (m.loop poisson gamma times s t x).getD i 0 =
        let y := (x :: m.loop poisson gamma times s t x).getD i 0
        let dt := (t :: times).getD (i + 1) 0 - (t :: times).getD i 0
        m.next dt y (gamma (s + i) (m.gammaShape (poisson (s + i) (m.poissonMean dt y))) (m.gammaRate dt))) ∧
      (0 ≤ x → (∀ i a r, 0 ≤ gamma i a r) → ∀ y ∈ m.loop poisson gamma times s t x, 0 ≤ y) := by
    intro times
    induction times with
    | nil => intro s t x; simp [Cir.loop]
    | cons t' rest ih =>
      intro s t x
      simp only [Cir.loop]
      set new := m.next (t' - t) x (gamma s (m.gammaShape (poisson s (m.poissonMean (t' - t) x))) (m.gammaRate (t' - t))) with hnew
      obtain ⟨h1, h2, h3⟩ := ih (s + 1) t' new
      refine ⟨by simp [h1], fun i hi => ?_, fun hx hg y hy => ?_⟩
      · cases i with
        | zero => simp [hnew]
        | succ i =>
          have := h2 i (by simpa using hi)
          simp only [List.getD_cons_succ] at this ⊢
          rw [this, show s + 1 + i = s + (i + 1) by omega]
      · have hn : 0 ≤ new := by
          rw [hnew, Cir.next]
          split_ifs
          · exact hg _ _ _
          · exact hx
        rcases List.mem_cons.1 hy with rfl | hy
        · exact hn
        · exact h3 hn hg y hy
  have := key times 0 0 x0
  simpa [Cir.samplePath] using this

/-- C63: with a stateless seed all the draws of a path use different seeds. -/
theorem C63_seeds (seed : Int × Int) (i j : Nat) :
    (cirPoissonSeed seed i = cirPoissonSeed seed j → i = j) ∧ (cirGammaSeed seed i = cirGammaSeed seed j → i = j) ∧ cirPoissonSeed seed i ≠ cirGammaSeed seed j := by
  refine ⟨fun h => ?_, fun h => ?_, fun h => ?_⟩
  · have := congrArg Prod.snd h; simp only [cirPoissonSeed] at this; omega
  · have := congrArg Prod.snd h; simp only [cirGammaSeed] at this; omega
  · have := congrArg Prod.fst h; simp only [cirPoissonSeed, cirGammaSeed] at this; omega

/-- Example: `theta = 2`, no mean reversion, `sigma = 2`, from 3 over the time 1/2. The mean is 4 and the variance 4 (3/2 + 1/4) = 7. -/
example : cirExpectation ⟨2, 0, 2⟩ (1 / 2) 3 (fun y => y) = 4 ∧
    cirExpectation ⟨2, 0, 2⟩ (1 / 2) 3 (fun y => y ^ 2) - cirExpectation ⟨2, 0, 2⟩ (1 / 2) 3 (fun y => y) ^ 2 = 7 := by
  have h := C63_moments ⟨2, 0, 2⟩ (by norm_num) (by norm_num) (1 / 2) 3 (by norm_num)
  norm_num [Cir.zeta] at h ⊢
  exact h

/-- Example: the transform at `l = 1` is the fraction `1/2` (shape 1, denominator 2) times `exp (-3/2)`. -/
example : cirExpectation ⟨2, 0, 2⟩ (1 / 2) 3 (fun y => Real.exp (-1 * y)) = 1 / 2 * Real.exp (-(3 / 2)) := by
  rw [cir_transform ⟨2, 0, 2⟩ (by norm_num) (by norm_num) 1 (1 / 2) 3 (by norm_num) (by norm_num)]
  norm_num [cirTransform, cirExponent, cirDenominator, Cir.zeta, Real.rpow_neg_one]

/-- Example: without volatility the state stays 3 where the equation `dx = (1 - x) dt` gives less than 3. -/
example (gamma : ℝ) : Cir.next ⟨1, 1, 0⟩ 1 3 gamma = 3 := C63_no_volatility _ rfl _ _ _

end Props
