import Verif.Spec.LocalStochVol
import Verif.Model.LocalStochVol
import Verif.Props.LinearInterpolation
import Mathlib.Analysis.Calculus.Deriv.Mul
import Mathlib.Analysis.Calculus.Deriv.Comp
import Mathlib.Algebra.BigOperators.Ring.Finset
import Mathlib.Algebra.BigOperators.Field
import Mathlib.Algebra.Order.BigOperators.Group.Finset
import Mathlib.Algebra.Order.Archimedean.Basic
import Mathlib.Tactic.Linarith
import Mathlib.Tactic.FieldSimp
import Mathlib.Tactic.LinearCombination
import Mathlib.Tactic.FinCases
import Mathlib.Tactic.NormNum

/-!
# C100: local stochastic volatility
-/

namespace Props
open Model
open scoped BigOperators Matrix

/-- C100. The correlation matrix has a Cholesky factor exactly when the correlation is strictly between minus one and one, and the factor is a root of it. -/
theorem C100_cholesky (rho : ℝ) :
    (rho ^ 2 < 1 → cholesky2 (createCorrMatrix rho) = some !![1, 0; rho, Real.sqrt (1 - rho ^ 2)]) ∧
    (1 ≤ rho ^ 2 → cholesky2 (createCorrMatrix rho) = none) ∧
    ∀ L, cholesky2 (createCorrMatrix rho) = some L → L * Lᵀ = createCorrMatrix rho := by
  have h1 : rho ^ 2 < 1 → cholesky2 (createCorrMatrix rho) = some !![1, 0; rho, Real.sqrt (1 - rho ^ 2)] := by
    intro h
    simp [cholesky2, createCorrMatrix, (sq_lt_one_iff_abs_lt_one rho).1 h]
  have h2 : 1 ≤ rho ^ 2 → cholesky2 (createCorrMatrix rho) = none := by
    intro h
    simp [cholesky2, createCorrMatrix, h]
  refine ⟨h1, h2, fun L hL => ?_⟩
  rcases lt_or_ge (rho ^ 2) 1 with h | h
  · rw [h1 h, Option.some.injEq] at hL
    have hs : Real.sqrt (1 - rho ^ 2) * Real.sqrt (1 - rho ^ 2) = 1 - rho ^ 2 := Real.mul_self_sqrt (by linarith)
    subst hL
    ext i j
    rw [Matrix.mul_apply, Fin.sum_univ_two]
    fin_cases i <;> fin_cases j <;> simp [createCorrMatrix, hs]
    ring
  · rw [h2 h] at hL
    cases hL

/-- The matrix of the code with its two diffusions. -/
theorem lsvVolFn_covariance (rho : ℝ) (h : rho ^ 2 < 1) (p : LsvVariance) (leverage : ℝ → ℝ → ℝ) (t s v d1 d2 : ℝ)
    (h1 : d1 = leverage t s * s * Real.sqrt v) (h2 : d2 = p.alpha * Real.sqrt v) :
    lsvVolFn !![1, 0; rho, Real.sqrt (1 - rho ^ 2)] p leverage t s v * (lsvVolFn !![1, 0; rho, Real.sqrt (1 - rho ^ 2)] p leverage t s v)ᵀ =
      !![d1 ^ 2, rho * d1 ^ 2; rho * d1 ^ 2, rho ^ 2 * d1 ^ 2 + (1 - rho ^ 2) * d2 ^ 2] := by
  have hs : Real.sqrt (1 - rho ^ 2) * Real.sqrt (1 - rho ^ 2) = 1 - rho ^ 2 := Real.mul_self_sqrt (by linarith)
  subst h1 h2
  ext i j
  rw [Matrix.mul_apply, Fin.sum_univ_two, Matrix.transpose_apply, Matrix.transpose_apply]
  fin_cases i <;> fin_cases j <;> simp [lsvVolFn, LsvVariance.vol]
  · ring
  · ring
  · ring
  · linear_combination (p.alpha * Real.sqrt v) ^ 2 * hs

/-- C100. The drift is that of the model; absent rates are zero. The covariance per unit of time is that of the model without correlation. -/
theorem C100_dynamics_partial (rate dividend : Option ℝ) (p : LsvVariance) (leverage : ℝ → ℝ → ℝ) (t s v : ℝ) :
    lsvDriftFn rate dividend p s v 0 = (rate.getD 0 - dividend.getD 0) * s ∧ lsvDriftFn rate dividend p s v 1 = p.k * (p.m - v) ∧
    ∃ L, cholesky2 (createCorrMatrix 0) = some L ∧
      lsvVolFn L p leverage t s v * (lsvVolFn L p leverage t s v)ᵀ = Spec.lsvCovariance 0 (leverage t s * s * Real.sqrt v) (p.alpha * Real.sqrt v) := by
  refine ⟨rfl, rfl, _, (C100_cholesky 0).1 (by norm_num), ?_⟩
  rw [lsvVolFn_covariance 0 (by norm_num) p leverage t s v _ _ rfl rfl]
  simp [Spec.lsvCovariance]

/-- C100. With a correlation the covariance of the code is that of the model exactly when the diffusions of the spot and of the variance are equal, because the
factor is scaled by columns instead of rows: the variance of the spot is right, while the diffusion of the variance contains that of the spot. -/
theorem C100_correlation_deviates (rho : ℝ) (h : rho ^ 2 < 1) (p : LsvVariance) (leverage : ℝ → ℝ → ℝ) (t s v d1 d2 : ℝ)
    (h1 : d1 = leverage t s * s * Real.sqrt v) (h2 : d2 = p.alpha * Real.sqrt v) :
    ∃ L, cholesky2 (createCorrMatrix rho) = some L ∧
      (lsvVolFn L p leverage t s v * (lsvVolFn L p leverage t s v)ᵀ) 0 0 = d1 ^ 2 ∧
      (lsvVolFn L p leverage t s v * (lsvVolFn L p leverage t s v)ᵀ) 1 1 = rho ^ 2 * d1 ^ 2 + (1 - rho ^ 2) * d2 ^ 2 ∧
      (lsvVolFn L p leverage t s v * (lsvVolFn L p leverage t s v)ᵀ = Spec.lsvCovariance rho d1 d2 ↔ rho = 0 ∨ d1 = d2) := by
  refine ⟨_, (C100_cholesky rho).1 h, ?_⟩
  rw [lsvVolFn_covariance rho h p leverage t s v d1 d2 h1 h2]
  refine ⟨by simp, by simp, ?_, ?_⟩
  · intro he
    have a := congrFun (congrFun he 0) 1
    have b := congrFun (congrFun he 1) 1
    simp [Spec.lsvCovariance] at a b
    by_cases hr : rho = 0
    · exact Or.inl hr
    · right
      have hr2 : rho ^ 2 ≠ 0 := pow_ne_zero 2 hr
      have ha : d1 * (d1 - d2) = 0 := mul_left_cancel₀ hr (by linear_combination a)
      have hb : d1 ^ 2 - d2 ^ 2 = 0 := mul_left_cancel₀ hr2 (by linear_combination b)
      rcases mul_eq_zero.1 ha with h0 | h0
      · rw [h0] at hb ⊢
        have : d2 ^ 2 = 0 := by linarith
        exact (pow_eq_zero_iff (two_ne_zero)).1 this |>.symm
      · linarith
  · rintro (rfl | rfl)
    · simp [Spec.lsvCovariance]
    · ext i j
      fin_cases i <;> fin_cases j <;> simp [Spec.lsvCovariance] <;> ring

/-- A spot of 100 with 20 % volatility, volatility of variance 1 and correlation a half: the diffusion of the variance is about 100 instead of 0.04. -/
example : ∃ L, cholesky2 (createCorrMatrix (1 / 2)) = some L ∧
    (lsvVolFn L ⟨1, 4 / 100, 1⟩ (fun _ _ => 1) 0 100 (4 / 100) * (lsvVolFn L ⟨1, 4 / 100, 1⟩ (fun _ _ => 1) 0 100 (4 / 100))ᵀ) 1 1 = 100 + 3 / 100 := by
  have hs : Real.sqrt (4 / 100 : ℝ) = 2 / 10 := by
    rw [show (4 / 100 : ℝ) = (2 / 10) ^ 2 by norm_num]
    exact Real.sqrt_sq (by norm_num)
  obtain ⟨L, hL, -, h, -⟩ := C100_correlation_deviates (1 / 2) (by norm_num) ⟨1, 4 / 100, 1⟩ (fun _ _ => 1) 0 100 (4 / 100) 20 (2 / 10)
    (by rw [hs]; norm_num) (by rw [hs]; norm_num)
  exact ⟨L, hL, by rw [h]; norm_num⟩

/-- C100. The constructor fails without a data type, and the leverage function of market data fails with the documented defaults of the rates. -/
theorem C100_defaults_deviate (dim : Nat) (r d : Option ℝ) :
    lsvDtype none = .error "AttributeError" ∧ (∀ t, lsvDtype (some t) = .ok t) ∧
    ((∃ x, lsvLeverageArguments dim r d = .ok x) ↔ dim ≤ 1 ∧ r.isSome ∧ d.isSome) ∧
    (∀ x, lsvLeverageArguments dim r d = .ok x → r = some x.1 ∧ d = some x.2) := by
  refine ⟨rfl, fun _ => rfl, ?_, ?_⟩
  · unfold lsvLeverageArguments
    by_cases h : 1 < dim
    · simp [h]
    · cases r <;> cases d <;> simp [h]
      omega
  · intro x hx
    unfold lsvLeverageArguments at hx
    by_cases h : 1 < dim
    · simp [h] at hx
    · cases r <;> cases d <;> simp [h] at hx
      subst hx
      exact ⟨rfl, rfl⟩

example : lsvLeverageArguments 1 none none = .error "ValueError: None values not supported" := by simp [lsvLeverageArguments]

/-- C100. The grid starts and ends at the bounds and increases strictly. -/
theorem C100_grid (xMin xMax xStar alpha : ℝ) (n : Nat) (ha : 0 < alpha) (hn : 0 < n) (hx : xMin < xMax) :
    tavellaRandell xMin xMax xStar n alpha 0 = xMin ∧ tavellaRandell xMin xMax xStar n alpha n = xMax ∧
    ∀ i j, i < j → tavellaRandell xMin xMax xStar n alpha i < tavellaRandell xMin xMax xStar n alpha j := by
  have hn' : (0 : ℝ) < n := Nat.cast_pos.2 hn
  refine ⟨?_, ?_, ?_⟩
  · simp only [tavellaRandell, Nat.cast_zero, mul_zero, zero_div, sub_zero, mul_one, zero_add, Real.sinh_arsinh]
    field_simp
    ring
  · simp only [tavellaRandell, mul_div_assoc, div_self hn'.ne', sub_self, mul_one, mul_zero, add_zero, Real.sinh_arsinh]
    field_simp
    ring
  · intro i j hij
    have hc : Real.arsinh ((xMin - xStar) / alpha) < Real.arsinh ((xMax - xStar) / alpha) :=
      Real.arsinh_lt_arsinh.2 ((div_lt_div_iff_of_pos_right ha).2 (by linarith))
    have hij' : (i : ℝ) / n < j / n := (div_lt_div_iff_of_pos_right hn').2 (Nat.cast_lt.2 hij)
    simp only [tavellaRandell]
    have : Real.sinh (Real.arsinh ((xMax - xStar) / alpha) * i / n + Real.arsinh ((xMin - xStar) / alpha) * (1 - i / n)) <
        Real.sinh (Real.arsinh ((xMax - xStar) / alpha) * j / n + Real.arsinh ((xMin - xStar) / alpha) * (1 - j / n)) := by
      rw [Real.sinh_lt_sinh, mul_div_assoc, mul_div_assoc]
      nlinarith [mul_pos (sub_pos.2 hc) (sub_pos.2 hij')]
    linarith [mul_lt_mul_of_pos_left this ha]

/-- C100. In the original variables the grid reaches from the lower to the upper bound of the spot and of the variance. -/
theorem C100_grid_bounds (s0 v0 : ℝ) (lo hi : ℝ × ℝ) (n : Nat) (hn : 0 < n) (hs : 0 < s0) (hv : 0 < v0) (hl : 0 < lo.1) (hl1 : lo.1 < hi.1) (hl2 : lo.2 < hi.2) :
    Real.exp (lsvGridX s0 v0 (some lo) (some hi) n 0 + Real.log s0) = lo.1 ∧ Real.exp (lsvGridX s0 v0 (some lo) (some hi) n n + Real.log s0) = hi.1 ∧
    lsvGridY s0 v0 (some lo) (some hi) n 0 * v0 = lo.2 ∧ lsvGridY s0 v0 (some lo) (some hi) n n * v0 = hi.2 := by
  have hh : 0 < hi.1 := hl.trans hl1
  have hx := C100_grid (Real.log (lo.1 / s0)) (Real.log (hi.1 / s0)) 0 (3 / 10) n (by norm_num) hn
    (Real.log_lt_log (by positivity) ((div_lt_div_iff_of_pos_right hs).2 hl1))
  have hy := C100_grid (lo.2 / v0) (hi.2 / v0) 1 (3 / 10) n (by norm_num) hn ((div_lt_div_iff_of_pos_right hv).2 hl2)
  refine ⟨?_, ?_, ?_, ?_⟩
  · simp only [lsvGridX, gridBound, Option.elim]
    rw [hx.1, ← Real.log_mul (by positivity) hs.ne', Real.exp_log (by positivity)]
    field_simp
  · simp only [lsvGridX, gridBound, Option.elim]
    rw [hx.2.1, ← Real.log_mul (by positivity) hs.ne', Real.exp_log (by positivity)]
    field_simp
  · simp only [lsvGridY, gridBound, Option.elim]
    rw [hy.1]
    field_simp
  · simp only [lsvGridY, gridBound, Option.elim]
    rw [hy.2.1]
    field_simp

/-- C100. Without bounds the spot reaches from a hundredth to ten times the initial spot and the variance from 0.0001 to 5 times the initial variance. -/
theorem C100_grid_default (s0 v0 : ℝ) (n : Nat) (hn : 0 < n) (hs : 0 < s0) :
    Real.exp (lsvGridX s0 v0 none none n 0 + Real.log s0) = s0 / 100 ∧ Real.exp (lsvGridX s0 v0 none none n n + Real.log s0) = 10 * s0 ∧
    lsvGridY s0 v0 none none n 0 * v0 = v0 / 10000 ∧ lsvGridY s0 v0 none none n n * v0 = 5 * v0 := by
  have hx := C100_grid (Real.log (1 / 100)) (Real.log 10) 0 (3 / 10) n (by norm_num) hn (Real.log_lt_log (by norm_num) (by norm_num))
  have hy := C100_grid (1 / 10000) 5 1 (3 / 10) n (by norm_num) hn (by norm_num)
  refine ⟨?_, ?_, ?_, ?_⟩
  · simp only [lsvGridX, gridBound, Option.elim]
    rw [hx.1, ← Real.log_mul (by norm_num) hs.ne', Real.exp_log (by positivity)]
    ring
  · simp only [lsvGridX, gridBound, Option.elim]
    rw [hx.2.1, ← Real.log_mul (by norm_num) hs.ne', Real.exp_log (by positivity)]
  · simp only [lsvGridY, gridBound, Option.elim]
    rw [hy.1]
    ring
  · simp only [lsvGridY, gridBound, Option.elim]
    rw [hy.2.1]

example (i j : Nat) (h : i < j) : lsvGridX 100 (4 / 100) none none 100 i < lsvGridX 100 (4 / 100) none none 100 j :=
  (C100_grid _ _ 0 (3 / 10) 100 (by norm_num) (by norm_num) (by
    simp only [gridBound, Option.elim]; exact Real.log_lt_log (by norm_num) (by norm_num))).2.2 i j h

/-- C100. The integration is the sum over the cells of the grid. -/
theorem C100_integration (nx ny : Nat) (x y : Nat → ℝ) (p : Nat → Nat → ℝ) :
    twoDIntegration (nx + 1) (ny + 1) x y p = Spec.cellIntegral nx ny x y p := by
  simp only [twoDIntegration, Spec.cellIntegral, Nat.add_sub_cancel, Finset.sum_mul]
  rw [Finset.sum_comm]
  refine Finset.sum_congr rfl fun i _ => Finset.sum_congr rfl fun j _ => ?_
  ring

/-- C100. After each step the density is not negative, and it integrates to one if it has any positive mass. -/
theorem C100_density (nx ny : Nat) (x y : Nat → ℝ) (p : Nat → Nat → ℝ) (hx : ∀ j, x j ≤ x (j + 1)) (hy : ∀ i, y i ≤ y (i + 1)) :
    (∀ i j, 0 ≤ lsvNormalize nx ny x y p i j) ∧
    (twoDIntegration nx ny x y (fun i j => max (p i j) 0) ≠ 0 → twoDIntegration nx ny x y (lsvNormalize nx ny x y p) = 1) := by
  refine ⟨fun i j => ?_, fun h => ?_⟩
  · refine div_nonneg (le_max_right _ _) ?_
    simp only [twoDIntegration]
    refine Finset.sum_nonneg fun j _ => mul_nonneg ?_ (by linarith [hx j])
    exact Finset.sum_nonneg fun i _ => mul_nonneg (le_max_right _ _) (by linarith [hy i])
  · obtain ⟨a, ha⟩ : ∃ a, twoDIntegration nx ny x y (fun i j => max (p i j) 0) = a := ⟨_, rfl⟩
    have : twoDIntegration nx ny x y (lsvNormalize nx ny x y p) = twoDIntegration nx ny x y (fun i j => max (p i j) 0) / a := by
      have e : lsvNormalize nx ny x y p = fun i j => max (p i j) 0 / a := by
        funext i j
        simp only [lsvNormalize, ha]
      rw [e]
      simp only [twoDIntegration, Finset.sum_div, Finset.sum_mul]
      refine Finset.sum_congr rfl fun j _ => ?_
      refine Finset.sum_congr rfl fun i _ => ?_
      ring
    rw [this, ha]
    exact div_self (by rwa [ha] at h)

/-- C100. The conditional variance is a weighted mean: it lies between any bounds of the variances of the grid. Without mass it is zero. -/
theorem C100_conditional_variance (ny : Nat) (y : Nat → ℝ) (p : Nat → Nat → ℝ) (j : Nat) (lo hi : ℝ)
    (hy : ∀ i, i < ny - 1 → y i ≤ y (i + 1)) (hp : ∀ i, i < ny - 1 → 0 ≤ p i j) (hb : ∀ i, i < ny - 1 → lo ≤ y i ∧ y i ≤ hi) :
    ((∃ i, i < ny - 1 ∧ p i j * (y (i + 1) - y i) ≠ 0) → lo ≤ varianceGivenLogspot ny y p j ∧ varianceGivenLogspot ny y p j ≤ hi) ∧
    ((∀ i, i < ny - 1 → p i j * (y (i + 1) - y i) = 0) → varianceGivenLogspot ny y p j = 0) := by
  have hw : ∀ i ∈ Finset.range (ny - 1), 0 ≤ p i j * (y (i + 1) - y i) := fun i hi' => by
    have := Finset.mem_range.1 hi'
    exact mul_nonneg (hp i this) (by linarith [hy i this])
  constructor
  · rintro ⟨i, h1, h2⟩
    have hpos : 0 < ∑ i ∈ Finset.range (ny - 1), p i j * (y (i + 1) - y i) :=
      Finset.sum_pos' hw ⟨i, Finset.mem_range.2 h1, lt_of_le_of_ne (hw i (Finset.mem_range.2 h1)) (Ne.symm h2)⟩
    simp only [varianceGivenLogspot]
    rw [le_div_iff₀ hpos, div_le_iff₀ hpos, Finset.mul_sum, Finset.mul_sum]
    refine ⟨Finset.sum_le_sum fun i hi' => ?_, Finset.sum_le_sum fun i hi' => ?_⟩
    · rw [mul_assoc]
      exact mul_le_mul_of_nonneg_right (hb i (Finset.mem_range.1 hi')).1 (hw i hi')
    · rw [mul_assoc]
      exact mul_le_mul_of_nonneg_right (hb i (Finset.mem_range.1 hi')).2 (hw i hi')
  · intro h
    simp only [varianceGivenLogspot]
    rw [Finset.sum_eq_zero (fun i hi' => h i (Finset.mem_range.1 hi')), div_zero]

private theorem range_map_sorted (n : Nat) (x : Nat → ℝ) (hx : ∀ i j, i < j → x i < x j) : ((List.range n).map x).Pairwise (· < ·) := by
  rw [List.pairwise_map]
  exact List.pairwise_lt_range.imp (fun h => hx _ _ h)

/-- C100. At a grid point with mass the leverage function satisfies `L^2 E[v | S] = sigma^2` and has the sign of the local volatility, unless the local
volatility exceeds 10000; the interpolation returns the values of the grid points. -/
theorem C100_leverage (nx ny : Nat) (xScale yScale : ℝ) (localVol : ℝ → ℝ → ℝ) (x y : Nat → ℝ) (p : Nat → Nat → ℝ) (t : ℝ) (j : Nat) (hj : j < nx)
    (hx : ∀ i j, i < j → x i < x j) (hvar : 0 < varianceGivenLogspot ny (fun k => y k * yScale) p j) (hlv : |localVol t (Real.exp (x j + xScale))| ≤ 10000) :
    leverageFn nx ny xScale yScale localVol x y p t (x j + xScale) =
      localVol t (Real.exp (x j + xScale)) / Real.sqrt (varianceGivenLogspot ny (fun k => y k * yScale) p j) ∧
    leverageFn nx ny xScale yScale localVol x y p t (x j + xScale) ^ 2 * varianceGivenLogspot ny (fun k => y k * yScale) p j =
      localVol t (Real.exp (x j + xScale)) ^ 2 := by
  have hx' : ∀ i j, i < j → x i + xScale < x j + xScale := fun i j h => by linarith [hx i j h]
  have hc : conditionalVariance nx ny (fun k => x k + xScale) (fun k => y k * yScale) p (x j + xScale) = varianceGivenLogspot ny (fun k => y k * yScale) p j :=
    C21_knot _ _ 0 0 j _ _ (range_map_sorted nx _ hx') (by simp) (by simp [hj]) (by simp [hj])
  have h1 : leverageFn nx ny xScale yScale localVol x y p t (x j + xScale) =
      localVol t (Real.exp (x j + xScale)) / Real.sqrt (varianceGivenLogspot ny (fun k => y k * yScale) p j) := by
    refine C21_knot _ _ 0 0 j _ _ (range_map_sorted nx _ hx') (by simp) (by simp [hj]) ?_
    rw [List.getElem?_map, List.getElem?_range hj, Option.map_some]
    refine congrArg some ?_
    simp only [leverageValue]
    rw [hc, if_neg (not_lt.2 hlv)]
  refine ⟨h1, ?_⟩
  rw [h1, div_pow, Real.sq_sqrt hvar.le, div_mul_cancel₀ _ hvar.ne']

/-- C100. A local volatility above 10000, or a point without mass, gives leverage zero. -/
theorem C100_leverage_zero (nx ny : Nat) (xScale yScale : ℝ) (localVol : ℝ → ℝ → ℝ) (x y : Nat → ℝ) (p : Nat → Nat → ℝ) (t : ℝ) (j : Nat) (hj : j < nx)
    (hx : ∀ i j, i < j → x i < x j)
    (h : 10000 < |localVol t (Real.exp (x j + xScale))| ∨ ∀ i, i < ny - 1 → p i j = 0) :
    leverageFn nx ny xScale yScale localVol x y p t (x j + xScale) = 0 := by
  have hx' : ∀ i j, i < j → x i + xScale < x j + xScale := fun i j h => by linarith [hx i j h]
  refine C21_knot _ _ 0 0 j _ _ (range_map_sorted nx _ hx') (by simp) (by simp [hj]) ?_
  rw [List.getElem?_map, List.getElem?_range hj, Option.map_some]
  refine congrArg some ?_
  simp only [leverageValue]
  rcases h with h | h
  · rw [if_pos h, zero_div]
  · have hv : varianceGivenLogspot ny (fun k => y k * yScale) p j = 0 := by
      simp only [varianceGivenLogspot]
      rw [Finset.sum_eq_zero (s := Finset.range (ny - 1)) (f := fun i => p i j * _), div_zero]
      intro i hi
      rw [h i (Finset.mem_range.1 hi), zero_mul]
    have hc : conditionalVariance nx ny (fun k => x k + xScale) (fun k => y k * yScale) p (x j + xScale) = 0 :=
      C21_knot _ _ 0 0 j _ _ (range_map_sorted nx _ hx') (by simp) (by simp [hj]) (by simp [hj, hv])
    rw [hc, Real.sqrt_zero, div_zero]

/-- C100. The leverage at the start is one everywhere. -/
theorem C100_initial_leverage (x : ℝ) : initialLeverage x = 1 := by
  have h := C21_affine x 0 1 0 1 [0, 1] 0 0 (by simp) rfl rfl (fun _ => rfl) (fun _ => rfl)
  simpa [initialLeverage] using h

/-- C100. The density at the start is not negative and positive exactly near the initial point. -/
theorem C100_initial_value (dx dy tol : ℝ) (x y : Nat → ℝ) (i j : Nat) (hx : 0 < dx) (hy : 0 < dy) :
    0 ≤ lsvInitialValue dx dy tol x y i j ∧ (0 < lsvInitialValue dx dy tol x y i j ↔ |x j| < dx + tol ∧ |y i - 1| < dy + tol) := by
  have : 0 < 1 / (dx * dy * 4) := by positivity
  unfold lsvInitialValue
  split_ifs with h
  · rw [sub_zero] at h
    exact ⟨this.le, fun _ => h, fun _ => this⟩
  · rw [sub_zero] at h
    exact ⟨le_refl _, fun h' => absurd h' (lt_irrefl _), fun h' => absurd h' h⟩

/-- C100. The coefficients are those of the Fokker-Planck equation in the scaled variables; the mixed coefficient is half of it, since the solver adds it twice. -/
theorem C100_coefficients (rate dividend rho xScale yScale : ℝ) (p : LsvVariance) (l : ℝ → ℝ) (gx gy : ℝ) (hy : 0 < yScale) :
    let c := lsvCoefficients rate dividend rho xScale yScale p l gx gy
    let f := Spec.fokkerPlanck rate dividend rho (fun v => p.k * (p.m - v)) (fun v => p.alpha * Real.sqrt v) (l (gx + xScale)) (gy * yScale)
    c.xx = f.spot ∧ 2 * c.xy * yScale = f.mixed ∧ c.yy * yScale ^ 2 = f.variance ∧ c.x = f.spotDrift ∧ c.y * yScale = f.varianceDrift := by
  simp only [lsvCoefficients, Spec.fokkerPlanck, LsvVariance.vol, LsvVariance.drift]
  refine ⟨by ring, ?_, ?_, by ring, ?_⟩ <;> field_simp

/-- Scaling the variable divides the coefficient of a derivative by the scale. -/
theorem C100_scaling (s : ℝ) (hs : s ≠ 0) (b q : ℝ → ℝ) (v D : ℝ) (h : HasDerivAt (fun y => b (y * s) / s * q y) D (v / s)) :
    HasDerivAt (fun v => b v * q (v / s)) D v := by
  have h1 : HasDerivAt (fun v : ℝ => v / s) (1 / s) v := (hasDerivAt_id v).div_const s
  have h2 := (HasDerivAt.comp v h h1).mul_const s
  have : (fun v => b v * q (v / s)) = fun w => ((fun y => b (y * s) / s * q y) ∘ fun v => v / s) w * s := by
    funext w
    simp only [Function.comp]
    rw [div_mul_cancel₀ _ hs]
    field_simp
  rw [this]
  refine h2.congr_deriv ?_
  field_simp

/-- C100. The coefficients which the stepper receives at the variance `y i` and the logarithm `x j` are those of the variance `y j`; so the coefficients of the
spot are right exactly if the two variances are equal (at a positive leverage). -/
theorem C100_coefficients_deviate (rate dividend rho xScale yScale : ℝ) (p : LsvVariance) (l : ℝ → ℝ) (x y : Nat → ℝ) (i j : Nat) (hy : 0 < yScale)
    (hl : l (x j + xScale) ≠ 0) :
    let c := lsvAdiCoeffs rate dividend rho xScale yScale p l x y
    let q : GridIndex 2 := ![i, j]
    let f (v : ℝ) := Spec.fokkerPlanck rate dividend rho (fun v => p.k * (p.m - v)) (fun v => p.alpha * Real.sqrt v) (l (x j + xScale)) (v * yScale)
    (∃ a b : GridIndex 2 → ℝ, c.innerSecond 1 1 = some a ∧ c.innerFirst 1 = some b ∧ a q = -(f (y j)).spot ∧ b q = (f (y j)).spotDrift ∧
      (a q = -(f (y i)).spot ↔ y i = y j) ∧ (b q = (f (y i)).spotDrift ↔ y i = y j)) ∧
    (∃ b : GridIndex 2 → ℝ, c.innerFirst 0 = some b ∧ b q * yScale = (f (y j)).varianceDrift ∧
      (p.k ≠ 0 → (b q * yScale = (f (y i)).varianceDrift ↔ y i = y j))) := by
  intro c q f
  have hc := C100_coefficients rate dividend rho xScale yScale p l (x j) (y j) hy
  have hl2 : 0 < l (x j + xScale) ^ 2 := by positivity
  refine ⟨⟨_, _, rfl, rfl, ?_, ?_, ?_, ?_⟩, ⟨_, rfl, ?_, ?_⟩⟩
  · simpa [c, q, f, lsvAdiCoeffs] using hc.1
  · simpa [c, q, f, lsvAdiCoeffs] using hc.2.2.2.1
  · have h1 := hc.1
    simp only [q, f, Matrix.cons_val_one, Matrix.cons_val_zero, Matrix.of_apply, Matrix.cons_val', Matrix.cons_val_fin_one, neg_inj] at h1 ⊢
    rw [h1]
    simp only [Spec.fokkerPlanck]
    constructor
    · intro h
      have : (y j - y i) * (yScale * l (x j + xScale) ^ 2) = 0 := by linear_combination 2 * h
      rcases mul_eq_zero.1 this with h0 | h0
      · linarith
      · exact absurd h0 (by positivity)
    · intro h
      rw [h]
  · have h1 := hc.2.2.2.1
    simp only [q, f, Matrix.cons_val_one, Matrix.cons_val_zero, Matrix.cons_val_fin_one] at h1 ⊢
    rw [h1]
    simp only [Spec.fokkerPlanck]
    constructor
    · intro h
      have : (y j - y i) * (yScale * l (x j + xScale) ^ 2) = 0 := by linear_combination -2 * h
      rcases mul_eq_zero.1 this with h0 | h0
      · linarith
      · exact absurd h0 (by positivity)
    · intro h
      rw [h]
  · simpa [c, q, f, lsvAdiCoeffs] using hc.2.2.2.2
  · intro hk
    have h1 := hc.2.2.2.2
    simp only [q, f, Matrix.cons_val_one, Matrix.cons_val_zero, Matrix.cons_val_fin_one] at h1 ⊢
    rw [h1]
    simp only [Spec.fokkerPlanck]
    constructor
    · intro h
      have : (y i - y j) * (p.k * yScale) = 0 := by linear_combination h
      rcases mul_eq_zero.1 this with h0 | h0
      · linarith
      · exact absurd h0 (mul_ne_zero hk hy.ne')
    · intro h
      rw [h]

/-- C100. The first dimension of the density is the variance, but the stepper takes its step from the grid of the spot: the entry of the matrix for the drift and
diffusion of the variance has the first step of the spot. -/
theorem C100_steps_deviate (nx ny : Nat) (rate dividend rho xScale yScale : ℝ) (p : LsvVariance) (l : ℝ → ℝ) (x y : Nat → ℝ) (q : GridIndex 2) :
    (lsvAdiGrid nx ny x y).delta 0 = x 1 - x 0 ∧ (lsvAdiGrid nx ny x y).delta 1 = y 1 - y 0 ∧
    (lsvAdiGrid nx ny x y).size 0 = ny ∧ (lsvAdiGrid nx ny x y).size 1 = nx ∧
    (lsvAdiGrid nx ny x y).innerSuper (lsvAdiCoeffs rate dividend rho xScale yScale p l x y) 0 q =
      (lsvCoefficients rate dividend rho xScale yScale p l (x (q 1)) (y (q 1))).yy / (x 1 - x 0) ^ 2 -
        (lsvCoefficients rate dividend rho xScale yScale p l (x (q 1)) (y (q 1))).y / (2 * (x 1 - x 0)) := by
  refine ⟨rfl, rfl, rfl, rfl, ?_⟩
  have hq : (q.up 0) 1 = q 1 := by simp [GridIndex.up, Function.update]
  simp only [AdiGrid.innerSuper, AdiGrid.weighted, lsvAdiCoeffs, lsvAdiGrid, Option.elim, hq, Matrix.cons_val_zero, Matrix.of_apply, Matrix.cons_val', Matrix.cons_val_fin_one]
  ring

/-- The step of the spot is 1 and that of the variance is 2; the stepper uses 1 for the variance, dimension 0. -/
example : (lsvAdiGrid 3 3 (fun i => (i : ℝ) - 1) (fun i => 2 * (i : ℝ))).delta 0 = 1 ∧ (lsvAdiGrid 3 3 (fun i => (i : ℝ) - 1) (fun i => 2 * (i : ℝ))).delta 1 = 2 := by
  constructor <;> simp [lsvAdiGrid]

section
variable {D L : Type} (evolve : L → ℝ → D → D) (leverage : ℝ → D → L) (dt maxTime : ℝ) (l0 : L)

/-- The densities of the code: every step uses the leverage of the start. -/
def lsvDensities (d0 : D) : Nat → D
  | 0 => d0
  | k + 1 => evolve l0 (k * dt) (lsvDensities d0 k)

private theorem lsvLoop_run (hdt : 0 < dt) (d0 : D) (n : Nat) (hn : ∀ k : Nat, k < n ↔ (k : ℝ) * dt < maxTime) :
    ∀ (fuel k : Nat) (w : List (Nat × L)), k ≤ n → n ≤ k + fuel →
      lsvLoop evolve leverage dt maxTime l0 fuel (k + 1) (k * dt) (lsvDensities evolve dt l0 d0 k) w =
        (n + 1, n * dt, lsvDensities evolve dt l0 d0 n,
          w ++ (List.range' k (n - k)).map (fun m => (m + 1, leverage ((m + 1 : ℕ) * dt) (lsvDensities evolve dt l0 d0 (m + 1))))) := by
  intro fuel
  induction fuel with
  | zero =>
    intro k w h1 h2
    have : k = n := by omega
    subst this
    simp [lsvLoop]
  | succ fuel ih =>
    intro k w h1 h2
    rcases Nat.lt_or_ge k n with h | h
    · have ht : (k : ℝ) * dt < maxTime := (hn k).1 h
      simp only [lsvLoop]
      rw [if_pos ht]
      have e : (k : ℝ) * dt + dt = ((k + 1 : ℕ) : ℝ) * dt := by push_cast; ring
      rw [e, show evolve l0 (k * dt) (lsvDensities evolve dt l0 d0 k) = lsvDensities evolve dt l0 d0 (k + 1) from rfl, ih (k + 1) _ (by omega) (by omega)]
      rw [show n - k = (n - (k + 1)) + 1 by omega, List.range'_succ]
      simp
    · have : k = n := by omega
      subst this
      have ht : ¬ ((k : ℝ) * dt < maxTime) := fun h' => by have := (hn k).2 h'; omega
      simp only [lsvLoop]
      rw [if_neg ht]
      simp

/-- C100. The loop takes `ceil(max_time / time_step)` steps and writes each of the entries after the first one exactly once, in order, with the leverage of the
density at the time of the entry; the array has room for exactly these. All densities come from the leverage of the start. -/
theorem C100_loop (hdt : 0 < dt) (hmax : 0 < maxTime) (d0 : D) (fuel : Nat) (hf : ⌈maxTime / dt⌉₊ ≤ fuel) :
    lsvTimesSize dt maxTime = ⌈maxTime / dt⌉₊ + 1 ∧
    lsvLoop evolve leverage dt maxTime l0 fuel 1 0 d0 [] =
      (⌈maxTime / dt⌉₊ + 1, ⌈maxTime / dt⌉₊ * dt, lsvDensities evolve dt l0 d0 ⌈maxTime / dt⌉₊,
        (List.range ⌈maxTime / dt⌉₊).map (fun m => (m + 1, leverage ((m + 1 : ℕ) * dt) (lsvDensities evolve dt l0 d0 (m + 1))))) := by
  constructor
  · unfold lsvTimesSize
    rw [add_div, div_self hdt.ne', Nat.ceil_add_one (by positivity)]
  · have h := lsvLoop_run evolve leverage dt maxTime l0 hdt d0 ⌈maxTime / dt⌉₊ (fun k => by rw [Nat.lt_ceil, lt_div_iff₀ hdt]) fuel 0 [] (by omega) (by omega)
    simpa [lsvDensities, List.range_eq_range'] using h

/-- C100. The densities do not depend on how the leverage is computed, that is on the local volatility: the last density and the number of steps are the same for
any two leverage computations. -/
theorem C100_density_ignores_leverage (leverage' : ℝ → D → L) (d0 : D) (fuel i : Nat) (t : ℝ) (w w' : List (Nat × L)) :
    (lsvLoop evolve leverage dt maxTime l0 fuel i t d0 w).2.2.1 = (lsvLoop evolve leverage' dt maxTime l0 fuel i t d0 w').2.2.1 := by
  induction fuel generalizing i t d0 w w' with
  | zero => rfl
  | succ fuel ih =>
    simp only [lsvLoop]
    split_ifs
    · exact ih _ _ _ _ _
    · rfl

/-- C100. They are those of the specification if the solver does not depend on the leverage or there is a single step. -/
theorem C100_evolution_partial (d0 : D) :
    lsvDensities evolve dt l0 d0 1 = (Spec.lsvEvolution evolve leverage dt l0 d0 1).1 ∧
    ((∀ l l', evolve l = evolve l') → ∀ k, lsvDensities evolve dt l0 d0 k = (Spec.lsvEvolution evolve leverage dt l0 d0 k).1) := by
  refine ⟨rfl, fun h k => ?_⟩
  induction k with
  | zero => rfl
  | succ k ih =>
    simp only [lsvDensities, Spec.lsvEvolution]
    rw [ih, h l0]
end

/-- C100. In general they differ after the second step. -/
theorem C100_evolution_deviates : ∃ (evolve : (ℝ → ℝ) → ℝ → ℝ → ℝ) (leverage : ℝ → ℝ → ℝ → ℝ) (d0 : ℝ),
    lsvDensities evolve 1 initialLeverage d0 2 ≠ (Spec.lsvEvolution evolve leverage 1 initialLeverage d0 2).1 := by
  refine ⟨fun l _ d => d + l 0, fun _ _ _ => 2, 0, ?_⟩
  simp [lsvDensities, Spec.lsvEvolution, C100_initial_leverage]

example : lsvTimesSize (1 / 4) 1 = 5 := by
  unfold lsvTimesSize
  norm_num

end Props
