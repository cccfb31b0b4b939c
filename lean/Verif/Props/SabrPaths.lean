import Verif.Lemmas.SabrPaths
import Verif.Lemmas.VanillaPrices
import Verif.Model.Sampling

/-! # C98: sampling of the SABR model -/

namespace Props
open Model Spec Lemmas MeasureTheory ProbabilityTheory

/-- The parameters that are accepted. -/
theorem C98_check (p : SabrPathParams) : sabrPathCheck p = .ok () ↔
    (0 ≤ p.beta ∧ p.beta ≤ 1 ∧ 0 ≤ p.volvol ∧ -1 < p.rho ∧ p.rho < 1 ∧ 1 ≤ p.psiThreshold ∧ p.psiThreshold ≤ 2) := by
  unfold sabrPathCheck
  by_cases h1 : 0 ≤ p.beta <;> by_cases h2 : p.beta ≤ 1 <;> by_cases h3 : 0 ≤ p.volvol <;> by_cases h4 : -1 < p.rho <;>
    by_cases h5 : p.rho < 1 <;> by_cases h6 : 1 ≤ p.psiThreshold <;> by_cases h7 : p.psiThreshold ≤ 2 <;>
    simp [h1, h2, h3, h4, h5, h6, h7, bind, Except.bind, throw, throwThe, MonadExceptOf.throw, pure, Except.pure]

/-- The volatility matrix of the Euler scheme has the covariance of the SABR model, away from the absorbing boundary. -/
theorem C98_covariance (p : SabrPathParams) (x : Fin 2 → ℝ) (hr : p.rho ^ 2 ≤ 1) (hx : p.beta = 0 ∨ 0 < x 0) :
    sabrVol p x * (sabrVol p x).transpose = sabrCovariance p.beta p.volvol p.rho (x 0) (x 1) := by
  have h2 : Real.sqrt (1 - p.rho ^ 2) ^ 2 = 1 - p.rho ^ 2 := Real.sq_sqrt (by linarith)
  have hn : ¬ (p.beta ≠ 0 ∧ x 0 ≤ 0) := by
    rintro ⟨h, h'⟩
    rcases hx with h0 | h0
    · exact h h0
    · linarith
  unfold sabrVol
  dsimp only
  rw [if_neg hn]
  ext i j
  fin_cases i <;> fin_cases j <;> simp [sabrCovariance, Matrix.mul_apply, Fin.sum_univ_two]
  · linear_combination (x 1 * x 0 ^ p.beta) ^ 2 * h2
  · left; ring
  · ring
  · ring

/-- The Euler scheme does not move a path whose forward is at or below zero. -/
theorem C98_absorbed (p : SabrPathParams) (x z : Fin 2 → ℝ) (t dt : ℝ) (hb : p.beta ≠ 0) (hx : x 0 ≤ 0) :
    eulerStep (fun _ => sabrDrift) (fun _ => sabrVol p) t dt x z = x := by
  funext k
  simp [eulerStep, sabrDrift, sabrVol, hb, hx]

/-- Each step of the Euler scheme is a martingale in forward and volatility. -/
theorem C98_euler_martingale (p : SabrPathParams) (x : Fin 2 → ℝ) (t dt : ℝ) (k : Fin 2) :
    ∫ z, eulerStep (fun _ => sabrDrift) (fun _ => sabrVol p) t dt x z k ∂(Measure.pi fun _ : Fin 2 => gaussianReal 0 1) = x k := by
  have hi : ∀ j : Fin 2, Integrable (fun z : Fin 2 → ℝ => z j) (Measure.pi fun _ : Fin 2 => gaussianReal 0 1) := fun j =>
    (integrable_comp_eval (μ := fun _ : Fin 2 => gaussianReal 0 1) (i := j) (f := fun z : ℝ => z) (by simpa using normal_pow_integrable 1))
  have hm : ∀ j : Fin 2, ∫ z : Fin 2 → ℝ, z j ∂(Measure.pi fun _ : Fin 2 => gaussianReal 0 1) = 0 := fun j => by
    rw [integral_comp_eval (μ := fun _ : Fin 2 => gaussianReal 0 1) (i := j) (f := fun z : ℝ => z) (by fun_prop)]
    exact integral_id_gaussianReal
  have he : ∀ z : Fin 2 → ℝ, eulerStep (fun _ => sabrDrift) (fun _ => sabrVol p) t dt x z k =
      x k + (sabrVol p x k 0 * Real.sqrt dt * z 0 + sabrVol p x k 1 * Real.sqrt dt * z 1) := by
    intro z
    simp only [eulerStep, sabrDrift, Matrix.mulVec, dotProduct, Fin.sum_univ_two]
    ring
  have hl : ∀ a b c : ℝ, ∫ z : Fin 2 → ℝ, (a + (b * z 0 + c * z 1)) ∂(Measure.pi fun _ : Fin 2 => gaussianReal 0 1) = a := by
    intro a b c
    have e1 := integral_add ((hi 0).const_mul b) ((hi 1).const_mul c)
    have e2 := integral_add (integrable_const a) (((hi 0).const_mul b).add ((hi 1).const_mul c))
    simp only [Pi.add_apply] at e2
    rw [e2, e1, integral_const_mul, integral_const_mul, hm, hm]
    simp
  rw [← hl (x k) (sabrVol p x k 0 * Real.sqrt dt) (sabrVol p x k 1 * Real.sqrt dt)]
  exact integral_congr_ae (Filter.Eventually.of_forall he)

/-- The Euler scheme reaches negative forwards, at which the path then stays. -/
theorem C98_negative : ∃ (p : SabrPathParams) (x z : Fin 2 → ℝ) (dt : ℝ), sabrPathCheck p = .ok () ∧ 0 < x 0 ∧ 0 < x 1 ∧ 0 < dt ∧
    eulerStep (fun _ => sabrDrift) (fun _ => sabrVol p) 0 dt x z 0 = -1 ∧
    ∀ t dt' z', eulerStep (fun _ => sabrDrift) (fun _ => sabrVol p) t dt'
      (eulerStep (fun _ => sabrDrift) (fun _ => sabrVol p) 0 dt x z) z' = eulerStep (fun _ => sabrDrift) (fun _ => sabrVol p) 0 dt x z := by
  have h : eulerStep (fun _ => sabrDrift) (fun _ => sabrVol { beta := 1 / 2, volvol := 1 }) 0 1 ![1, 1] ![-2, 0] 0 = -1 := by
    simp [eulerStep, sabrDrift, sabrVol, Matrix.mulVec, dotProduct, Fin.sum_univ_two]
    norm_num
  refine ⟨{ beta := 1 / 2, volvol := 1 }, ![1, 1], ![-2, 0], 1, ?_, by simp, by simp, one_pos, h, fun t dt' z' => ?_⟩
  · rw [C98_check]
    norm_num
  · exact C98_absorbed _ _ _ _ _ (by norm_num) (by rw [h]; norm_num)

/-- The volatility stops with the forward, although its equation does not contain the forward. -/
theorem C98_volatility_stops (p : SabrPathParams) (x z : Fin 2 → ℝ) (t dt : ℝ) (hb : p.beta ≠ 0) (hx : x 0 ≤ 0) :
    eulerStep (fun _ => sabrDrift) (fun _ => sabrVol p) t dt x z 1 = x 1 := by rw [C98_absorbed p x z t dt hb hx]

/-- The step of the volatility is exact: it has the mean of the martingale, and two steps are one step of the whole length. -/
theorem C98_volatility (p : SabrPathParams) (vol : ℝ) :
    (∀ dt, 0 ≤ dt → normalExpectation 0 1 (sabrNextVol p vol dt) = vol) ∧
    (∀ dt dt' z z', 0 ≤ dt → 0 ≤ dt' → 0 < dt + dt' → sabrNextVol p (sabrNextVol p vol dt z) dt' z' =
      sabrNextVol p vol (dt + dt') ((z * Real.sqrt dt + z' * Real.sqrt dt') / Real.sqrt (dt + dt'))) ∧
    (∀ dt z, 0 < vol → 0 < sabrNextVol p vol dt z) := by
  refine ⟨fun dt hdt => ?_, fun dt dt' z z' h h' h'' => ?_, fun dt z hv => mul_pos hv (Real.exp_pos _)⟩
  · have h1 := lognormal_mean vol (p.volvol * Real.sqrt dt)
    unfold normalExpectation
    rw [show Real.toNNReal ((1 : ℝ) ^ 2) = 1 by simp, integral_gaussianReal_eq_integral_smul (by simp)]
    rw [← h1]
    refine integral_congr_ae (Filter.Eventually.of_forall fun z => ?_)
    simp only [smul_eq_mul, phi, sabrNextVol]
    congr 3
    rw [mul_pow, Real.sq_sqrt hdt]
    ring
  · have hs : Real.sqrt (dt + dt') ≠ 0 := (Real.sqrt_pos.2 h'').ne'
    unfold sabrNextVol
    rw [mul_assoc, ← Real.exp_add]
    congr 2
    field_simp
    ring

/-- The integrated variance lies between those of the smaller and the larger of both volatilities. -/
theorem C98_integrated_variance (p : SabrPathParams) (vol nextVol dt lo hi : ℝ) (hr : p.rho ^ 2 ≤ 1) (hdt : 0 ≤ dt) (h0 : 0 ≤ lo)
    (h1 : lo ≤ vol) (h2 : vol ≤ hi) (h3 : lo ≤ nextVol) (h4 : nextVol ≤ hi) :
    (1 - p.rho ^ 2) * (lo ^ 2 * dt) ≤ sabrIntegratedVariance p vol nextVol dt ∧
    sabrIntegratedVariance p vol nextVol dt ≤ (1 - p.rho ^ 2) * (hi ^ 2 * dt) := by
  unfold sabrIntegratedVariance
  have a : 0 ≤ (1 - p.rho ^ 2) * dt := mul_nonneg (by linarith) hdt
  constructor
  · have : lo ^ 2 ≤ (vol ^ 2 + nextVol ^ 2) / 2 := by nlinarith
    have := mul_le_mul_of_nonneg_left this a
    linarith
  · have : (vol ^ 2 + nextVol ^ 2) / 2 ≤ hi ^ 2 := by nlinarith
    have := mul_le_mul_of_nonneg_left this a
    linarith

/-- What the code calls uniform is `Φ(√2 z)`. -/
theorem sabrUniform_eq (z : ℝ) : sabrUniform z = normalCdf (Real.sqrt 2 * z) := by
  rw [← uniform_eq, mul_div_cancel_left₀ _ (by positivity), sabrUniform]

/-- The distribution of the draws that are used as uniform ones. -/
theorem C98_uniform_law (x : ℝ) :
    (gaussianReal 0 1).real {z | sabrUniform z ≤ normalCdf (Real.sqrt 2 * x)} = normalCdf x := by
  have : {z | sabrUniform z ≤ normalCdf (Real.sqrt 2 * x)} = Set.Iic x := by
    ext z
    simp only [Set.mem_setOf_eq, sabrUniform_eq, normalCdf_strictMono.le_iff_le, Set.mem_Iic]
    exact mul_le_mul_iff_right₀ (by positivity)
  rw [this, normalCdf, cdf_eq_real]

/-- These draws are not uniformly distributed. -/
theorem C98_uniform_deviates : ∃ u, 0 < u ∧ u < 1 ∧ (gaussianReal 0 1).real {z | sabrUniform z ≤ u} < u := by
  refine ⟨normalCdf (Real.sqrt 2 * 1), normalCdf_pos _, normalCdf_lt_one _, ?_⟩
  rw [C98_uniform_law]
  refine normalCdf_strictMono ?_
  have : 1 < Real.sqrt 2 := Real.lt_sqrt_of_sq_lt (by norm_num)
  linarith

/-- A forward that is to be absorbed with a probability `q` below one half is absorbed with a larger probability. -/
theorem C98_absorption_deviates (q : ℝ) (h0 : 0 < q) (h1 : q < 1 / 2) : q < (gaussianReal 0 1).real {z | q > sabrUniform z} := by
  obtain ⟨x, hx⟩ := normalCdf_surj q h0 (by linarith)
  have hx0 : x < 0 := by
    have h := normalCdf_zero
    rw [← h, ← hx] at h1
    exact normalCdf_strictMono.lt_iff_lt.1 h1
  have hs : 0 < Real.sqrt 2 := by positivity
  have h1s : 1 < Real.sqrt 2 := Real.lt_sqrt_of_sq_lt (by norm_num)
  have he : {z | q > sabrUniform z} = Set.Iio (x / Real.sqrt 2) := by
    ext z
    simp only [Set.mem_setOf_eq, sabrUniform_eq, Set.mem_Iio, gt_iff_lt, ← hx, normalCdf_strictMono.lt_iff_lt]
    rw [lt_div_iff₀ hs, mul_comm]
  have hlt : x < x / Real.sqrt 2 := by
    rw [lt_div_iff₀ hs]
    nlinarith
  have hmid : x < (x + x / Real.sqrt 2) / 2 := by linarith
  rw [he]
  refine lt_of_lt_of_le (hx ▸ normalCdf_strictMono hmid) ?_
  rw [normalCdf, cdf_eq_real]
  exact measureReal_mono (fun z (hz : z ≤ (x + x / Real.sqrt 2) / 2) => Set.mem_Iio.2 (by linarith))

/-- The quadratic of a normal draw has the mean and the variance of the noncentral chi-square distribution with `2 - b` degrees of freedom and
noncentrality `a`. -/
theorem C98_quadratic_moments (p : SabrPathParams) (a : ℝ) (hm : 0 < sabrM p a) (h0 : 0 < sabrPsi p a) (h1 : sabrPsi p a ≤ 2) :
    normalExpectation 0 1 (sabrQuadratic (sabrM p a) (sabrPsi p a)) = noncentralMean (2 - sabrB p) a ∧
    normalExpectation 0 1 (fun z => sabrQuadratic (sabrM p a) (sabrPsi p a) z ^ 2) - noncentralMean (2 - sabrB p) a ^ 2 =
      noncentralVariance (2 - sabrB p) a := by
  have hmean : noncentralMean (2 - sabrB p) a = sabrM p a := rfl
  have hvar : noncentralVariance (2 - sabrB p) a = sabrPsi p a * sabrM p a ^ 2 := by
    unfold sabrPsi noncentralVariance
    rw [div_mul_cancel₀ _ (pow_ne_zero 2 hm.ne')]
  rw [hmean, hvar]
  generalize sabrM p a = m at *
  generalize sabrPsi p a = psi at *
  have hx : 1 ≤ 2 / psi := by rw [le_div_iff₀ h0]; linarith
  set x := 2 / psi with hxd
  have hpsi : psi = 2 / x := by rw [hxd]; field_simp
  set r := Real.sqrt x * Real.sqrt (x - 1) with hr
  have hr2 : r ^ 2 = x * (x - 1) := by rw [hr, mul_pow, Real.sq_sqrt (by linarith), Real.sq_sqrt (by linarith)]
  have hr0 : 0 ≤ r := mul_nonneg (Real.sqrt_nonneg _) (Real.sqrt_nonneg _)
  set B := x - 1 + r with hB
  have hB0 : 0 ≤ B := by linarith
  set b := Real.sqrt B with hb
  have hb2 : b ^ 2 = B := Real.sq_sqrt hB0
  have hq : ∀ z, sabrQuadratic m psi z = m / (1 + B) * (b + z) ^ 2 := fun z => rfl
  have hne : (1 + B) ≠ 0 := by linarith
  constructor
  · have : sabrQuadratic m psi = fun z => m / (1 + B) * b ^ 2 + (2 * (m / (1 + B)) * b) * z + (m / (1 + B)) * z ^ 2 := by
      funext z; rw [hq]; ring
    rw [this, normalExpectation_quadratic, hb2]
    field_simp
    ring
  · have : (fun z => sabrQuadratic m psi z ^ 2) = fun z => (m / (1 + B)) ^ 2 * b ^ 4 + (4 * (m / (1 + B)) ^ 2 * b ^ 3) * z +
        (6 * (m / (1 + B)) ^ 2 * b ^ 2) * z ^ 2 + (4 * (m / (1 + B)) ^ 2 * b) * z ^ 3 + (m / (1 + B)) ^ 2 * z ^ 4 := by
      funext z; rw [hq]; ring
    rw [this, normalExpectation_quartic, show b ^ 4 = (b ^ 2) ^ 2 by ring, hb2, hpsi]
    have key : (2 * B + 1) * x = (1 + B) ^ 2 := by rw [hB]; linear_combination -hr2
    have hx0 : x ≠ 0 := by linarith
    field_simp
    linear_combination 2 * key

/-- Without correlation the degrees of freedom are those of the constant elasticity of variance model. -/
theorem C98_cev (p : SabrPathParams) (hr : p.rho = 0) (hb : p.beta < 1) : sabrB p = 1 / (1 - p.beta) := by
  unfold sabrB
  have : 1 - p.beta ≠ 0 := by linarith
  rw [hr]
  field_simp
  ring

/-- Both ways to the next forward invert the change of variable in `a`. -/
theorem C98_inverse (p : SabrPathParams) (iv q vol : ℝ) (hr : p.rho = 0) (hb : p.beta < 1) (hiv : 0 < iv) (hq : 0 ≤ q) :
    sabrA p (sabrForwardQuadratic p iv q) vol vol iv = q ∧ sabrA p (sabrForwardRoot p iv q) vol vol iv = q := by
  have hb' : 0 < 1 - p.beta := by linarith
  have key : ∀ y : ℝ, 0 ≤ y → ((y ^ (0.5 / (1 - p.beta))) ^ (1 - p.beta)) ^ 2 = y := by
    intro y hy
    rw [← Real.rpow_mul hy, div_mul_cancel₀ _ hb'.ne', ← Real.rpow_natCast, ← Real.rpow_mul hy]
    norm_num
  have hbase : 0 ≤ (1 - p.beta) ^ 2 * iv * q := by positivity
  have h1 : sabrA p (sabrForwardQuadratic p iv q) vol vol iv = q := by
    unfold sabrA sabrForwardQuadratic
    rw [sub_self, mul_zero, add_zero, div_pow, key _ hbase]
    field_simp
  refine ⟨h1, ?_⟩
  have : sabrForwardRoot p iv q = sabrForwardQuadratic p iv q := by
    unfold sabrForwardRoot sabrForwardQuadratic
    congr 1
    · ring
    · rw [show 2 - 2 * p.beta = 2 * (1 - p.beta) by ring, div_eq_div_iff (by positivity) hb'.ne']
      norm_num
      ring
  rw [this, h1]

/-- The gradient is the derivative of the truncated sum. -/
theorem C98_gradient (x k l g : ℝ) (n : Nat) (h : (ncx2CdfAndGradient x k l n).2 = some g) :
    HasDerivAt (fun l => (ncx2CdfAndGradient x k l n).1) g l := by
  unfold ncx2CdfAndGradient at h ⊢
  dsimp only at h ⊢
  by_cases hl : l = 0
  · rw [if_pos hl] at h; cases h
  · rw [if_neg hl, Option.some.injEq] at h
    have he : HasDerivAt (fun l : ℝ => Real.exp (-0.5 * l)) (Real.exp (-0.5 * l) * -0.5) l := by
      simpa using ((hasDerivAt_id l).const_mul (-0.5 : ℝ)).exp
    refine (he.mul (ncx2Terms_hasDerivAt x k l n)).congr_deriv ?_
    rw [← h]
    ring

/-- At zero the gradient is not a number. -/
theorem C98_gradient_zero (x k : ℝ) (n : Nat) : (ncx2CdfAndGradient x k 0 n).2 = none := by
  simp [ncx2CdfAndGradient]

/-- The truncated sum is at most the distribution function, and misses it by at most the probability of the terms left out. -/
theorem C98_truncation (x k l : ℝ) (n : Nat) (hx : 0 ≤ x) (hk : 0 < k) (hl : 0 ≤ l) :
    (ncx2CdfAndGradient x k l n).1 ≤ noncentralCdf k l x ∧
    noncentralCdf k l x - (ncx2CdfAndGradient x k l n).1 ≤
      1 - ∑ j ∈ Finset.range (n + 1), Real.exp (-(l / 2)) * (l / 2) ^ j / j.factorial := by
  obtain ⟨w, hw⟩ : ∃ w : ℕ → ℝ, ∀ j, w j = Real.exp (-(l / 2)) * (l / 2) ^ j / j.factorial := ⟨_, fun _ => rfl⟩
  obtain ⟨c, hc⟩ : ∃ c : ℕ → ℝ, ∀ j, c j = chiSquareCdf (k + 2 * j) x := ⟨_, fun _ => rfl⟩
  have hw0 : ∀ j, 0 ≤ w j := fun j => by rw [hw]; positivity
  have hcb : ∀ j, 0 ≤ c j ∧ c j ≤ 1 := fun j => by
    rw [hc, ← igamma_chiSquare]
    exact igamma_bounds _ _ (by positivity) (by positivity)
  have hsum : HasSum w 1 := by
    have h1 := (NormedSpace.expSeries_div_hasSum_exp (𝔸 := ℝ) (l / 2)).mul_left (Real.exp (-(l / 2)))
    have h2 : Real.exp (-(l / 2)) * NormedSpace.exp (l / 2) = 1 := by
      rw [← Real.exp_eq_exp_ℝ, ← Real.exp_add]
      simp
    rw [h2] at h1
    have h3 : w = fun j : ℕ => Real.exp (-(l / 2)) * ((l / 2) ^ j / j.factorial) := by
      funext j
      rw [hw, mul_div_assoc]
    rw [h3]
    exact h1
  have hS : Summable fun j => w j * c j := Summable.of_nonneg_of_le (fun j => mul_nonneg (hw0 j) (hcb j).1)
    (fun j => mul_le_of_le_one_right (hw0 j) (hcb j).2) hsum.summable
  have hp : (ncx2CdfAndGradient x k l n).1 = ∑ j ∈ Finset.range (n + 1), w j * c j := by
    unfold ncx2CdfAndGradient
    dsimp only
    rw [ncx2Terms_sum, Finset.mul_sum]
    refine Finset.sum_congr rfl fun j _ => ?_
    rw [hw, hc, show -0.5 * l = -(l / 2) by norm_num; ring]
    ring
  have hn : noncentralCdf k l x = ∑' j, w j * c j := by
    unfold noncentralCdf
    refine tsum_congr fun j => ?_
    rw [hw, hc]
  have hws : ∑ j ∈ Finset.range (n + 1), Real.exp (-(l / 2)) * (l / 2) ^ j / j.factorial = ∑ j ∈ Finset.range (n + 1), w j :=
    Finset.sum_congr rfl fun j _ => (hw j).symm
  rw [hp, hn, hws]
  refine ⟨hS.sum_le_tsum _ fun j _ => mul_nonneg (hw0 j) (hcb j).1, ?_⟩
  have h1 := hS.sum_add_tsum_nat_add (n + 1)
  have h2 := hsum.summable.sum_add_tsum_nat_add (n + 1)
  rw [hsum.tsum_eq] at h2
  have h3 : ∑' j, w (j + (n + 1)) * c (j + (n + 1)) ≤ ∑' j, w (j + (n + 1)) :=
    Summable.tsum_le_tsum (fun j => mul_le_of_le_one_right (hw0 _) (hcb _).2) ((summable_nat_add_iff (n + 1)).2 hS)
      ((summable_nat_add_iff (n + 1)).2 hsum.summable)
  linarith

theorem propagateLoop_end {K S : Type} [Field K] [LinearOrder K] (step : K → S → Nat → S) (endTime timeStep : K) (fuel : Nat) (s : S) (i : Nat) :
    propagateLoop step endTime timeStep fuel (endTime, s, i) = (endTime, s, i) := by
  cases fuel <;> simp [propagateLoop]

theorem propagateLoop_eq {K S : Type} [Field K] [LinearOrder K] [IsStrictOrderedRing K] [FloorRing K] (step : K → S → Nat → S) (endTime timeStep : K)
    (hs : 0 < timeStep) (fuel : Nat) (t : K) (s : S) (i : Nat) (ht : t ≤ endTime) (hf : ⌈(endTime - t) / timeStep⌉.toNat ≤ fuel) :
    propagateLoop step endTime timeStep fuel (t, s, i) =
      (endTime, intervalState step timeStep (endTime - t) s i, i + ⌈(endTime - t) / timeStep⌉.toNat) := by
  induction fuel generalizing t s i with
  | zero =>
    have h0 : ⌈(endTime - t) / timeStep⌉ ≤ 0 := by omega
    have h1 : (endTime - t) / timeStep ≤ 0 := by simpa using Int.ceil_le.1 h0
    have h2 : endTime - t ≤ 0 := by
      by_contra hc
      exact absurd (div_pos (not_le.1 hc) hs) (not_lt.2 h1)
    have h3 : t = endTime := le_antisymm ht (by linarith)
    subst h3
    simp [propagateLoop, intervalState]
  | succ fuel ih =>
    rcases ht.lt_or_eq with hlt | heq
    · unfold propagateLoop
      rw [if_pos hlt]
      dsimp only
      by_cases hc : endTime - t ≤ timeStep
      · have hceil : ⌈(endTime - t) / timeStep⌉ = 1 := by
          rw [Int.ceil_eq_iff]
          constructor
          · simpa using div_pos (sub_pos.2 hlt) hs
          · simpa using (div_le_one hs).2 hc
        rw [if_pos hc, add_sub_cancel, propagateLoop_end, hceil]
        simp [intervalState, hceil, min_eq_right hc]
      · have hc' := not_le.1 hc
        have hstep : (endTime - (t + timeStep)) / timeStep = (endTime - t) / timeStep - 1 := by
          field_simp
          ring
        have hceil : ⌈(endTime - t) / timeStep⌉ = ⌈(endTime - (t + timeStep)) / timeStep⌉ + 1 := by
          rw [hstep, Int.ceil_sub_one]; ring
        have hpos : 0 < ⌈(endTime - (t + timeStep)) / timeStep⌉ := Int.ceil_pos.2 (div_pos (by linarith) hs)
        have hnat : ⌈(endTime - t) / timeStep⌉.toNat = ⌈(endTime - (t + timeStep)) / timeStep⌉.toNat + 1 := by omega
        rw [if_neg hc, ih (t + timeStep) _ (i + 1) (by linarith) (by omega), hnat]
        refine Prod.ext rfl (Prod.ext ?_ (by dsimp only; omega))
        dsimp only
        unfold intervalState
        rw [hnat, List.range_succ_eq_map, List.foldl_cons, List.foldl_map]
        have h0 : min timeStep (endTime - t - ((0 : Nat) : K) * timeStep) = timeStep := by
          rw [Nat.cast_zero, zero_mul, sub_zero, min_eq_left hc'.le]
        rw [h0, Nat.add_zero]
        congr 1
        funext s' j
        congr 1
        · congr 1
          push_cast
          ring
        · omega
    · subst heq
      rw [propagateLoop_end]
      simp [intervalState]

/-- Every requested time is reached, by steps of the length asked for and a shorter last one, and the draws that are prepared are enough. -/
theorem C98_times {K S : Type} [Field K] [LinearOrder K] [IsStrictOrderedRing K] [FloorRing K] (step : K → S → Nat → S) (timeStep : K)
    (hs : 0 < timeStep) (fuel : Nat) (times : List K) (t0 : K) (s : S) (i : Nat) (h0 : 0 ≤ t0) (hsort : (t0 :: times).Pairwise (· ≤ ·))
    (hf : ⌈(t0 :: times).getLastD 0 / timeStep⌉.toNat ≤ fuel) :
    (propagateTimes step timeStep fuel times (t0, s, i)).1 = timesStates step timeStep times t0 s i ∧
    ((propagateTimes step timeStep fuel times (t0, s, i)).2 : Int) ≤ i + (⌈((t0 :: times).getLastD 0 - t0) / timeStep⌉ + times.length) := by
  induction times generalizing t0 s i with
  | nil => simp [propagateTimes, timesStates]
  | cons t ts ih =>
    have hle : t0 ≤ t := (List.pairwise_cons.1 hsort).1 t (by simp)
    have hs' : (t :: ts).Pairwise (· ≤ ·) := (List.pairwise_cons.1 hsort).2
    have hlast : (t0 :: t :: ts).getLastD 0 = (t :: ts).getLastD 0 := by simp [List.getLastD]
    have hmem : (t :: ts).getLastD 0 ∈ (t :: ts) := by
      rw [List.getLastD_cons]
      exact List.getLastD_mem_cons
    have htl : t ≤ (t :: ts).getLastD 0 := by
      rcases List.mem_cons.1 hmem with h | h
      · exact h.ge
      · exact (List.pairwise_cons.1 hs').1 _ h
    have hfuel : ⌈(t - t0) / timeStep⌉.toNat ≤ fuel := by
      refine le_trans (Int.toNat_le_toNat (Int.ceil_mono ?_)) hf
      rw [hlast]
      exact div_le_div_of_nonneg_right (by linarith) hs.le
    have hloop := propagateLoop_eq step t timeStep hs fuel t0 s i hle hfuel
    obtain ⟨e1, e2⟩ := ih t (intervalState step timeStep (t - t0) s i) (i + ⌈(t - t0) / timeStep⌉.toNat) (h0.trans hle) hs' (hlast ▸ hf)
    unfold propagateTimes
    dsimp only
    rw [hloop]
    dsimp only
    refine ⟨by rw [e1]; rfl, le_trans e2 ?_⟩
    rw [hlast]
    have hc0 : 0 ≤ ⌈(t - t0) / timeStep⌉ := Int.ceil_nonneg (div_nonneg (by linarith) hs.le)
    have hadd : ⌈(t - t0) / timeStep⌉ + ⌈((t :: ts).getLastD 0 - t) / timeStep⌉ ≤ ⌈((t :: ts).getLastD 0 - t0) / timeStep⌉ + 1 := by
      have := Int.ceil_add_ceil_le ((t - t0) / timeStep) (((t :: ts).getLastD 0 - t) / timeStep)
      rwa [← add_div, show t - t0 + ((t :: ts).getLastD 0 - t) = (t :: ts).getLastD 0 - t0 by ring] at this
    simp only [List.length_cons]
    push_cast
    rw [Int.toNat_of_nonneg hc0]
    linarith

/-- The forwards are never negative. -/
theorem C98_nonneg (root : (ℝ → ℝ × Option ℝ) → ℝ → ℝ) (p : SabrPathParams) (f v dt v' u z f' : ℝ) (hr : p.rho ^ 2 ≤ 1) (hdt : 0 ≤ dt)
    (h : sabrNextForward root p f v v' (sabrIntegratedVariance p v v' dt) u z = some f') : 0 ≤ f' := by
  have hiv : 0 ≤ sabrIntegratedVariance p v v' dt := by
    unfold sabrIntegratedVariance
    have : 0 ≤ 1 - p.rho ^ 2 := by linarith
    positivity
  generalize sabrIntegratedVariance p v v' dt = iv at h hiv
  unfold sabrNextForward at h
  dsimp only at h
  split at h
  · simp at h; exact h.le
  split at h
  · cases h
  split at h
  · simp at h; exact h.le
  split at h
  · rename_i hm
    rw [Option.some.injEq] at h
    rw [← h]
    unfold sabrForwardQuadratic
    refine Real.rpow_nonneg (mul_nonneg (mul_nonneg (sq_nonneg _) hiv) ?_) _
    have ha : 0 ≤ sabrA p f v v' iv := by unfold sabrA; positivity
    have hpsi : 0 ≤ sabrPsi p (sabrA p f v v' iv) := by
      unfold sabrPsi
      have : 0 ≤ 2 - sabrB p + sabrA p f v v' iv := hm.1
      exact div_nonneg (by linarith) (sq_nonneg _)
    unfold sabrQuadratic
    dsimp only
    refine mul_nonneg (div_nonneg hm.1 ?_) (sq_nonneg _)
    have := div_nonneg (zero_le_two (α := ℝ)) hpsi
    have := mul_nonneg (Real.sqrt_nonneg (2 / sabrPsi p (sabrA p f v v' iv))) (Real.sqrt_nonneg (2 / sabrPsi p (sabrA p f v v' iv) - 1))
    linarith
  · rw [Option.some.injEq] at h
    rw [← h]
    unfold sabrForwardRoot sabrRootChi2
    exact Real.rpow_nonneg (mul_nonneg (mul_nonneg (le_max_right _ _) (sq_nonneg _)) hiv) _

/-- A forward that has been absorbed stays at zero. -/
theorem C98_stays_zero (root : (ℝ → ℝ × Option ℝ) → ℝ → ℝ) (p : SabrPathParams) (v dt : ℝ) (draw : ℝ × ℝ × ℝ) (hb : p.beta ≠ 0) :
    (sabrStep root p dt (some 0, v) draw).1 = some 0 := by
  simp [sabrStep, sabrNextForward, hb]

/-- A volatility of volatility of zero is accepted, but the forwards are not numbers. -/
theorem C98_volvol_deviates (root : (ℝ → ℝ × Option ℝ) → ℝ → ℝ) : ∃ p : SabrPathParams, sabrPathCheck p = .ok () ∧ sabrUnbiased true false p = true ∧
    ∀ f v dt draw, 0 < f → (sabrStep root p dt (some f, v) draw).1 = none := by
  refine ⟨{ beta := 1 / 2, volvol := 0 }, ?_, ?_, fun f v dt draw hf => ?_⟩
  · rw [C98_check]
    norm_num
  · norm_num [sabrUnbiased]
  · simp [sabrStep, sabrNextForward, not_le.2 hf]

/-- The reshaped draws are the draws, each of them used once. -/
theorem C98_draws (n i j : Nat) (hi : i < 3) (hj : j < n) :
    (sabrDrawIndex n i j).1 < n ∧ (sabrDrawIndex n i j).2 < 3 ∧
    (∀ i' j', i' < 3 → j' < n → sabrDrawIndex n i' j' = sabrDrawIndex n i j → i' = i ∧ j' = j) := by
  have hlt : i * n + j < 3 * n := by
    calc i * n + j < i * n + n := by omega
      _ = (i + 1) * n := by ring
      _ ≤ 3 * n := Nat.mul_le_mul_right n hi
  refine ⟨?_, Nat.mod_lt _ (by norm_num), fun i' j' _ hj' h => ?_⟩
  · unfold sabrDrawIndex; dsimp only; omega
  · unfold sabrDrawIndex at h
    have h1 := congrArg Prod.fst h
    have h2 := congrArg Prod.snd h
    dsimp only at h1 h2
    have h3 : i' * n + j' = i * n + j := by omega
    have hn : 0 < n := by omega
    have h4 : i' = i := by
      have e1 : (i' * n + j') / n = i' := by
        rw [mul_comm, Nat.mul_add_div hn, Nat.div_eq_of_lt hj', add_zero]
      have e2 : (i * n + j) / n = i := by
        rw [mul_comm, Nat.mul_add_div hn, Nat.div_eq_of_lt hj, add_zero]
      rw [← e1, ← e2, h3]
    subst h4
    exact ⟨rfl, by omega⟩

/-- But the draws of a path are not those of one sample: the second path gets its first draw from the first sample and its last one from another. -/
theorem C98_draws_mixed (n : Nat) (h : 2 ≤ n) : sabrDrawIndex n 0 1 = (0, 1) ∧ (sabrDrawIndex n 2 1).1 ≠ 0 := by
  refine ⟨by simp [sabrDrawIndex], ?_⟩
  unfold sabrDrawIndex
  dsimp only
  omega

/-- Without draws in advance the scheme fails for pseudo-random numbers. -/
theorem C98_needs_draws {K : Type} [Field K] [LinearOrder K] [FloorRing K] (timeStep : K) (times : List K) :
    (∃ e, sabrNumSteps false false timeStep times = .error e) ∧
    (∀ listed, sabrNumSteps true listed timeStep times = .ok (⌈times.getLastD 0 / timeStep⌉ + times.length)) :=
  ⟨⟨_, rfl⟩, fun _ => rfl⟩

/-- The parameters of the documentation are accepted, those with a correlation of one are not. -/
example : sabrPathCheck { beta := 1 / 2, volvol := 3 / 5, rho := -1 / 2 } = .ok () ∧ ¬ sabrPathCheck { beta := 1 / 2, volvol := 3 / 5, rho := 1 } = .ok () := by
  rw [C98_check, C98_check]
  norm_num

/-- For `beta = 1 / 2` without correlation and `a = 4`, the draws have mean 4 and variance 16. -/
example : normalExpectation 0 1 (sabrQuadratic 4 1) = 4 ∧ normalExpectation 0 1 (fun z => sabrQuadratic 4 1 z ^ 2) - 4 ^ 2 = 16 := by
  have hb : sabrB { beta := 1 / 2, volvol := 1 } = 2 := by rw [C98_cev _ rfl (by norm_num)]; norm_num
  have hm : sabrM { beta := 1 / 2, volvol := 1 } 4 = 4 := by rw [sabrM, hb]; norm_num
  have hp : sabrPsi { beta := 1 / 2, volvol := 1 } 4 = 1 := by rw [sabrPsi, hm, hb]; norm_num
  have h := C98_quadratic_moments { beta := 1 / 2, volvol := 1 } 4 (by rw [hm]; norm_num) (by rw [hp]; norm_num) (by rw [hp]; norm_num)
  rw [hm, hp, hb] at h
  norm_num [noncentralMean, noncentralVariance] at h ⊢
  exact h

/-- The covariance at forward 4 and volatility 3 for `beta = 1 / 2`, `volvol = 2` and correlation `1 / 2`. -/
example : sabrVol { beta := 1 / 2, volvol := 2, rho := 1 / 2 } ![4, 3] * (sabrVol { beta := 1 / 2, volvol := 2, rho := 1 / 2 } ![4, 3]).transpose =
    !![36, 18; 18, 36] := by
  rw [C98_covariance _ _ (by norm_num) (Or.inr (by norm_num))]
  have h : (4 : ℝ) ^ (1 / 2 : ℝ) = 2 := by
    rw [← Real.sqrt_eq_rpow, show (4 : ℝ) = 2 ^ 2 by norm_num, Real.sqrt_sq (by norm_num)]
  simp only [sabrCovariance, Matrix.cons_val_zero, Matrix.cons_val_one, h]
  norm_num

/-- Two requested times with steps of two fifths: the lengths of the steps and the draws. -/
example : propagateTimes (K := ℚ) (fun dt (s : List (ℚ × Nat)) i => s ++ [(dt, i)]) (2 / 5) 10 [1, 6 / 5] (0, [], 0) =
    ([[(2 / 5, 0), (2 / 5, 1), (1 / 5, 2)], [(2 / 5, 0), (2 / 5, 1), (1 / 5, 2), (1 / 5, 3)]], 4) := by decide +kernel

/-- With four paths the draws of the last path come from the samples 1, 2 and 3. -/
example : (List.range 3).map (fun i => sabrDrawIndex 4 i 3) = [(1, 0), (2, 1), (3, 2)] := by decide

/-- The variable in which the forward is a Bessel process. -/
noncomputable def sabrVariable (beta : ℝ) (f : ℝ) : ℝ := f ^ (1 - beta) / (1 - beta)

theorem sabrVariable_deriv (beta f : ℝ) (hb : beta < 1) (hf : 0 < f) : HasDerivAt (sabrVariable beta) (f ^ (-beta)) f := by
  have h := (Real.hasDerivAt_rpow_const (p := 1 - beta) (Or.inl hf.ne')).div_const (1 - beta)
  refine HasDerivAt.congr_deriv h ?_
  rw [show 1 - beta - 1 = -beta by ring]
  have : 1 - beta ≠ 0 := by linarith
  field_simp

/-- **C98, the noncentrality.** The root of the noncentrality is the variable `F^(1 - beta) / (1 - beta)` moved by the regression of its change on the change of the
volatility, divided by the root of the integrated variance. -/
theorem C98_noncentrality (p : SabrPathParams) (f v v' iv : ℝ) (hf : 0 < f) (hv : 0 < v) (hb : p.beta < 1) (hvv : p.volvol ≠ 0) :
    sabrA p f v v' iv = (sabrVariable p.beta f + deriv (sabrVariable p.beta) f * sabrCovariance p.beta p.volvol p.rho f v 0 1 / sabrCovariance p.beta p.volvol p.rho f v 1 1 *
      (v' - v)) ^ 2 / iv := by
  rw [(sabrVariable_deriv p.beta f hb hf).deriv]
  have hpow : f ^ (-p.beta) * f ^ p.beta = 1 := by rw [← Real.rpow_add hf]; simp
  have h : f ^ (-p.beta) * sabrCovariance p.beta p.volvol p.rho f v 0 1 / sabrCovariance p.beta p.volvol p.rho f v 1 1 = p.rho / p.volvol := by
    simp only [sabrCovariance, Matrix.of_apply, Matrix.cons_val', Matrix.cons_val_zero, Matrix.cons_val_one, Matrix.cons_val_fin_one]
    rw [div_eq_div_iff (by positivity) hvv]
    linear_combination (p.rho * p.volvol ^ 2 * v ^ 2) * hpow
  rw [h]
  unfold sabrA sabrVariable
  ring

/-- **C98, the dimension.** The drift of the variable is that of a Bessel process with `2 - b` degrees of freedom for the part of the variance that is independent of the volatility. -/
theorem C98_dimension (p : SabrPathParams) (f v : ℝ) (hf : 0 < f) (hb : p.beta < 1) (hr : p.rho ^ 2 < 1) :
    1 / 2 * sabrCovariance p.beta p.volvol p.rho f v 0 0 * deriv (deriv (sabrVariable p.beta)) f =
      ((2 - sabrB p) - 1) / (2 * sabrVariable p.beta f) * ((1 - p.rho ^ 2) * v ^ 2) := by
  have h1 : deriv (sabrVariable p.beta) =ᶠ[nhds f] fun x => x ^ (-p.beta) := by
    filter_upwards [lt_mem_nhds hf] with x hx
    exact (sabrVariable_deriv p.beta x hb hx).deriv
  rw [h1.deriv_eq, (Real.hasDerivAt_rpow_const (p := -p.beta) (Or.inl hf.ne')).deriv]
  have hpow : f ^ p.beta * f ^ p.beta * f ^ (-p.beta - 1) * f ^ (1 - p.beta) = 1 := by
    rw [← Real.rpow_add hf, ← Real.rpow_add hf, ← Real.rpow_add hf]
    rw [show p.beta + p.beta + (-p.beta - 1) + (1 - p.beta) = 0 by ring, Real.rpow_zero]
  have hpos : 0 < f ^ (1 - p.beta) := Real.rpow_pos_of_pos hf _
  simp only [sabrCovariance, Matrix.of_apply, Matrix.cons_val', Matrix.cons_val_zero, Matrix.cons_val_fin_one]
  unfold sabrB sabrVariable
  generalize f ^ p.beta = A at *
  generalize f ^ (-p.beta - 1) = B at *
  generalize f ^ (1 - p.beta) = D at *
  have hb' : 1 - p.beta ≠ 0 := by linarith
  have hr' : 1 - p.rho ^ 2 ≠ 0 := by linarith
  field_simp
  linear_combination (-p.beta * v ^ 2) * hpow

/-- With a correlation of one half and `beta = 1 / 2` the dimension is `2 - b = - 1 / 3`. -/
example : 2 - sabrB { beta := 1 / 2, volvol := 1, rho := 1 / 2 } = -1 / 3 := by
  unfold sabrB
  norm_num

/-- **C98, absorption.** A positive forward is set to zero when the uniform number is below the probability of absorption, which is one minus the chi-square distribution
function with `b` degrees of freedom at the noncentrality; otherwise it is found by one of the two ways. -/
theorem C98_absorption (root : (ℝ → ℝ × Option ℝ) → ℝ → ℝ) (p : SabrPathParams) (f v v' iv u z : ℝ) (hb : p.beta ≠ 0) (hf : 0 < f) (hvv : p.volvol ≠ 0) (hiv : iv ≠ 0) :
    (u < 1 - chiSquareCdf (sabrB p) (sabrA p f v v' iv) → sabrNextForward root p f v v' iv u z = some 0) ∧
    (1 - chiSquareCdf (sabrB p) (sabrA p f v v' iv) ≤ u → sabrM p (sabrA p f v v' iv) ≥ 0 ∧ sabrPsi p (sabrA p f v v' iv) ≤ p.psiThreshold →
      sabrNextForward root p f v v' iv u z =
        some (sabrForwardQuadratic p iv (sabrQuadratic (sabrM p (sabrA p f v v' iv)) (sabrPsi p (sabrA p f v v' iv)) z))) ∧
    (1 - chiSquareCdf (sabrB p) (sabrA p f v v' iv) ≤ u → ¬(sabrM p (sabrA p f v v' iv) ≥ 0 ∧ sabrPsi p (sabrA p f v v' iv) ≤ p.psiThreshold) →
      sabrNextForward root p f v v' iv u z = some (sabrForwardRoot p iv (sabrRootChi2 root p (sabrA p f v v' iv) (sabrB p) u))) := by
  have h1 : ¬(p.beta ≠ 0 ∧ f ≤ 0) := fun h => absurd h.2 (not_le.2 hf)
  have h2 : ¬(p.volvol = 0 ∨ iv = 0) := not_or.2 ⟨hvv, hiv⟩
  have hab : sabrAbsorption p (sabrA p f v v' iv) = 1 - chiSquareCdf (sabrB p) (sabrA p f v v' iv) := rfl
  unfold sabrNextForward
  rw [if_neg h1, if_neg h2]
  dsimp only
  rw [hab]
  refine ⟨fun h => if_pos ⟨hb, h⟩, fun h hc => ?_, fun h hc => ?_⟩
  · rw [if_neg (fun hn => absurd hn.2 (not_lt.2 h)), if_pos hc]
  · rw [if_neg (fun hn => absurd hn.2 (not_lt.2 h)), if_neg hc]

/-- **C98, inversion.** The equation given to the root finder is solved exactly where the noncentral distribution function, as a function of the noncentrality, is one minus
the uniform number, its gradient is the derivative of its value, and the search starts at the present state. -/
theorem C98_equation (p : SabrPathParams) (a b u : ℝ) : ∃ equation : ℝ → ℝ × Option ℝ,
    (∀ root : (ℝ → ℝ × Option ℝ) → ℝ → ℝ, sabrRootChi2 root p a b u = max (root equation a) 0) ∧
    (∀ c, (equation c).1 = 0 ↔ (ncx2CdfAndGradient a b c p.truncation).1 = 1 - u) ∧
    ∀ c g, (equation c).2 = some g → HasDerivAt (fun x => (equation x).1) g c := by
  refine ⟨fun c => (1 - (ncx2CdfAndGradient a b c p.truncation).1 - u, (ncx2CdfAndGradient a b c p.truncation).2.map (fun g => -g)), fun root => rfl, fun c => ?_, fun c g h => ?_⟩
  · dsimp only
    constructor <;> intro h <;> linarith
  · dsimp only at h ⊢
    rw [Option.map_eq_some_iff] at h
    obtain ⟨g', h1, rfl⟩ := h
    have := (((C98_gradient a b c g' p.truncation h1).const_sub 1).sub_const u)
    exact this

/-- **C98.** The scheme for the integrated variance is used where it is enabled, the parameters are constant and `beta` is not one. -/
theorem C98_scheme (enable callable : Bool) (p : SabrPathParams) : sabrUnbiased enable callable p = true ↔ enable = true ∧ callable = false ∧ p.beta ≠ 1 := by
  cases enable <;> cases callable <;> simp [sabrUnbiased]

end Props
