import Verif.Props.EulerGbm
import Verif.Props.Milstein
import Verif.Props.MonteCarloLimit

/-! # C134 The Euler and Milstein schemes for geometric Brownian motion with parameters that depend on time -/

namespace Lemmas
open Model Spec MeasureTheory ProbabilityTheory Filter Topology
open scoped BigOperators

/-- The sum of the values of a unit step at the ends of intervals. -/
theorem right_sum_step (a δ : ℝ) (hδ : 0 ≤ δ) (t : ℕ → ℝ) (n : ℕ) (hmono : ∀ j < n, t j ≤ t (j + 1)) (hstep : ∀ j < n, t (j + 1) - t j ≤ δ) :
    (t n ≤ a → ∑ j ∈ Finset.range n, (if a < t (j + 1) then (1 : ℝ) else 0) * (t (j + 1) - t j) = 0) ∧
    |∑ j ∈ Finset.range n, (if a < t (j + 1) then (1 : ℝ) else 0) * (t (j + 1) - t j) - (max (t n - a) 0 - max (t 0 - a) 0)| ≤ δ := by
  have h0 : ∀ i ≤ n, t 0 ≤ t i := by
    intro i hi
    induction i with
    | zero => exact le_rfl
    | succ i ih => exact (ih (by omega)).trans (hmono i (by omega))
  have key : ∀ i ≤ n, (t i ≤ a → ∑ j ∈ Finset.range i, (if a < t (j + 1) then (1 : ℝ) else 0) * (t (j + 1) - t j) = 0) ∧
      0 ≤ ∑ j ∈ Finset.range i, (if a < t (j + 1) then (1 : ℝ) else 0) * (t (j + 1) - t j) - (max (t i - a) 0 - max (t 0 - a) 0) ∧
      ∑ j ∈ Finset.range i, (if a < t (j + 1) then (1 : ℝ) else 0) * (t (j + 1) - t j) - (max (t i - a) 0 - max (t 0 - a) 0) ≤ δ := by
    intro i hi
    induction i with
    | zero => simp [hδ]
    | succ i ih =>
      obtain ⟨i1, i2, i3⟩ := ih (by omega)
      have hm := hmono i (by omega)
      have hs := hstep i (by omega)
      have h0i := h0 i (by omega)
      rw [Finset.sum_range_succ]
      by_cases h : a < t (i + 1)
      · rw [if_pos h, one_mul, max_eq_left (show 0 ≤ t (i + 1) - a by linarith)]
        refine ⟨fun h' => absurd h' (not_le.2 h), ?_⟩
        by_cases h2 : t i ≤ a
        · rw [i1 h2, max_eq_right (show t 0 - a ≤ 0 by linarith)]
          constructor <;> linarith
        · rw [max_eq_left (show 0 ≤ t i - a by linarith)] at i2 i3
          constructor <;> linarith
      · have h' := not_lt.1 h
        have z : ∑ j ∈ Finset.range i, (if a < t (j + 1) then (1 : ℝ) else 0) * (t (j + 1) - t j) = 0 := i1 (by linarith)
        rw [z, if_neg h, max_eq_right (show t (i + 1) - a ≤ 0 by linarith), max_eq_right (show t 0 - a ≤ 0 by linarith)]
        simp [hδ]
  obtain ⟨k1, k2, k3⟩ := key n le_rfl
  exact ⟨k1, abs_le.2 ⟨by linarith, k3⟩⟩

/-- The sum of the values of a parameter at the ends of intervals. -/
theorem right_sum_param (p : TimeParam) (hp : TimeParamOk p) : ∃ C : ℝ, 0 ≤ C ∧ ∀ (δ : ℝ) (t : ℕ → ℝ) (n : ℕ), 0 ≤ δ → (∀ j < n, t j ≤ t (j + 1)) →
    (∀ j < n, t (j + 1) - t j ≤ δ) → |∑ j ∈ Finset.range n, p.eval (t (j + 1)) * (t (j + 1) - t j) - ∫ x in (t 0)..(t n), p.eval x| ≤ C * δ := by
  cases p with
  | constant c =>
    refine ⟨0, le_rfl, fun δ t n _ _ _ => ?_⟩
    simp only [TimeParam.eval]
    rw [← Finset.mul_sum, Finset.sum_range_sub, intervalIntegral.integral_const, smul_eq_mul, mul_comm c, sub_self, abs_zero, zero_mul]
  | piecewise jumps values =>
    obtain ⟨hs, hne, hl⟩ := hp
    refine ⟨∑ j ∈ Finset.range jumps.length, |values.getD (j + 1) 0 - values.getD j 0|, Finset.sum_nonneg fun _ _ => abs_nonneg _, fun δ t n hδ hmono hstep => ?_⟩
    have hmo : ∀ y : ℝ, Monotone (fun x : ℝ => if y < x then (1 : ℝ) else 0) := by
      intro y x x' hxy
      simp only
      split
      · rw [if_pos (lt_of_lt_of_le (by assumption) hxy)]
      · split <;> simp
    have hI : ∫ x in (t 0)..(t n), (TimeParam.piecewise jumps values).eval x = values.getD 0 0 * (t n - t 0) +
        ∑ q ∈ Finset.range jumps.length, (values.getD (q + 1) 0 - values.getD q 0) * (max (t n - jumps.getD q 0) 0 - max (t 0 - jumps.getD q 0) 0) := by
      simp only [TimeParam.eval, Props.piecewiseConstant_steps jumps values hs]
      rw [intervalIntegral.integral_add intervalIntegrable_const, intervalIntegral.integral_finsetSum]
      · simp_rw [intervalIntegral.integral_const_mul, Props.step_integral]
        rw [intervalIntegral.integral_const, smul_eq_mul, mul_comm]
      · exact fun q _ => (hmo _).intervalIntegrable.const_mul _
      · have := IntervalIntegrable.sum (μ := MeasureTheory.volume) (a := t 0) (b := t n) (Finset.range jumps.length)
          (f := fun j x => (values.getD (j + 1) 0 - values.getD j 0) * (if jumps.getD j 0 < x then (1 : ℝ) else 0))
          (fun j _ => (hmo _).intervalIntegrable.const_mul _)
        have e : (∑ j ∈ Finset.range jumps.length, fun x : ℝ => (values.getD (j + 1) 0 - values.getD j 0) * (if jumps.getD j 0 < x then (1 : ℝ) else 0)) =
            fun x => ∑ j ∈ Finset.range jumps.length, (values.getD (j + 1) 0 - values.getD j 0) * (if jumps.getD j 0 < x then (1 : ℝ) else 0) := by
          funext x; simp
        rwa [e] at this
    have hS : ∑ j ∈ Finset.range n, (TimeParam.piecewise jumps values).eval (t (j + 1)) * (t (j + 1) - t j) = values.getD 0 0 * (t n - t 0) +
        ∑ q ∈ Finset.range jumps.length, (values.getD (q + 1) 0 - values.getD q 0) *
          ∑ j ∈ Finset.range n, (if jumps.getD q 0 < t (j + 1) then (1 : ℝ) else 0) * (t (j + 1) - t j) := by
      simp only [TimeParam.eval, Props.piecewiseConstant_steps jumps values hs, add_mul, Finset.sum_add_distrib]
      rw [← Finset.mul_sum, Finset.sum_range_sub]
      congr 1
      simp_rw [Finset.sum_mul, Finset.mul_sum]
      rw [Finset.sum_comm]
      refine Finset.sum_congr rfl fun q _ => Finset.sum_congr rfl fun j _ => by ring
    rw [hI, hS, add_sub_add_left_eq_sub, ← Finset.sum_sub_distrib, Finset.sum_mul]
    refine (Finset.abs_sum_le_sum_abs _ _).trans (Finset.sum_le_sum fun q _ => ?_)
    rw [← mul_sub, abs_mul]
    exact mul_le_mul_of_nonneg_left (right_sum_step (jumps.getD q 0) δ hδ t n hmono hstep).2 (abs_nonneg _)

theorem param_bound (p : TimeParam) : ∃ A : ℝ, 0 ≤ A ∧ ∀ t, |p.eval t| ≤ A := by
  cases p with
  | constant c => exact ⟨|c|, abs_nonneg c, fun _ => le_rfl⟩
  | piecewise jumps values =>
    refine ⟨∑ q ∈ Finset.range values.length, |values.getD q 0|, Finset.sum_nonneg fun _ _ => abs_nonneg _, fun t => ?_⟩
    show |values.getD (searchLeft jumps t) 0| ≤ _
    by_cases h : searchLeft jumps t < values.length
    · exact Finset.single_le_sum (f := fun q => |values.getD q 0|) (fun _ _ => abs_nonneg _) (Finset.mem_range.2 h)
    · rw [List.getD_eq_default _ _ (by omega), abs_zero]
      exact Finset.sum_nonneg fun _ _ => abs_nonneg _

/-- The mean square distance of two lognormal variables with the same normal variable. -/
theorem lognormal_distance (a b a' b' : ℝ) : MemLp (exactGrowth a b) 2 (gaussianReal 0 1) ∧
    ∫ w, (exactGrowth a b w - exactGrowth a' b' w) ^ 2 ∂(gaussianReal 0 1) = Real.exp (2 * a + b ^ 2) - 2 * Real.exp (a + a' + b * b') + Real.exp (2 * a' + b' ^ 2) := by
  obtain ⟨i1, e1⟩ := exactGrowth_sq a b
  obtain ⟨i2, e2⟩ := exactGrowth_sq a' b'
  refine ⟨(memLp_two_iff_integrable_sq (exactGrowth_measurable a b).aestronglyMeasurable).2 i1, ?_⟩
  have ep : ∀ w, exactGrowth a b w * exactGrowth a' b' w = Real.exp (a + a' - b ^ 2 / 2 - b' ^ 2 / 2) * Real.exp ((b + b') * w) := by
    intro w
    rw [exactGrowth, exactGrowth, ← Real.exp_add, ← Real.exp_add]
    congr 1
    ring
  have i3 : Integrable (fun w => 2 * (Real.exp (a + a' - b ^ 2 / 2 - b' ^ 2 / 2) * Real.exp ((b + b') * w))) (gaussianReal 0 1) := ((gauss_integrable_exp _).const_mul _).const_mul _
  have ex : ∀ w, (exactGrowth a b w - exactGrowth a' b' w) ^ 2 = exactGrowth a b w ^ 2 - 2 * (Real.exp (a + a' - b ^ 2 / 2 - b' ^ 2 / 2) * Real.exp ((b + b') * w)) +
      exactGrowth a' b' w ^ 2 := by
    intro w
    rw [← ep]
    ring
  simp_rw [ex]
  have i4 : Integrable (fun w => exactGrowth a b w ^ 2 - 2 * (Real.exp (a + a' - b ^ 2 / 2 - b' ^ 2 / 2) * Real.exp ((b + b') * w))) (gaussianReal 0 1) := i1.sub i3
  rw [integral_add i4 i2, integral_sub i1 i3, e1, e2, integral_const_mul, integral_const_mul, gauss_exp, ← Real.exp_add]
  congr 4
  ring

/-- A linear combination of normal variables that are functions of independent values. -/
theorem combination_law {Z : Type} [MeasurableSpace Z] (ν : Measure Z) [IsProbabilityMeasure ν] (ξ : Z → ℝ) (hξ : Measurable ξ) (hlaw : ν.map ξ = gaussianReal 0 1)
    {n : ℕ} (w : Fin n → ℝ) (g : ℝ → ℝ) (hg : Measurable g) :
    ∫ z : Fin n → Z, g (∑ i, w i * ξ (z i)) ∂(Measure.pi fun _ => ν) = ∫ y, g (Real.sqrt (∑ i, w i ^ 2) * y) ∂(gaussianReal 0 1) := by
  have hm : Measurable (fun (z : Fin n → Z) (i : Fin n) => ξ (z i)) := measurable_pi_lambda _ fun i => hξ.comp (measurable_pi_apply i)
  have h1 : (Measure.pi fun _ : Fin n => ν).map (fun z i => ξ (z i)) = Measure.pi fun _ : Fin n => gaussianReal 0 1 := by
    have hp : ∀ _ : Fin n, SigmaFinite (ν.map ξ) := fun _ => by rw [hlaw]; infer_instance
    have := Measure.pi_map_pi (μ := fun _ : Fin n => ν) (f := fun _ => ξ) (fun _ => hξ.aemeasurable)
    rw [this, hlaw]
  have hs0 : 0 ≤ ∑ i, w i ^ 2 := Finset.sum_nonneg fun i _ => sq_nonneg _
  have ml : Measurable (fun y : Fin n → ℝ => 0 + ∑ i, w i * y i) := by fun_prop
  have h2 := integral_map (μ := Measure.pi fun _ : Fin n => ν) hm.aemeasurable (f := fun y : Fin n → ℝ => g (0 + ∑ i, w i * y i)) (hg.comp ml).aestronglyMeasurable
  rw [h1] at h2
  have h3 := integral_map (μ := Measure.pi fun _ : Fin n => gaussianReal 0 1) ml.aemeasurable (f := g) hg.aestronglyMeasurable
  rw [pi_linear_law] at h3
  have h4 := gaussianReal_map_const_mul (μ := 0) (v := 1) (Real.sqrt (∑ i, w i ^ 2))
  have h5 := integral_map (μ := gaussianReal 0 1) (φ := fun y => Real.sqrt (∑ i, w i ^ 2) * y) (by fun_prop) (f := g) hg.aestronglyMeasurable
  have hv : NNReal.mk (Real.sqrt (∑ i, w i ^ 2) ^ 2) (sq_nonneg _) = Real.toNNReal (∑ i, w i ^ 2) := by
    refine NNReal.coe_injective ?_
    rw [Real.coe_toNNReal _ hs0, NNReal.coe_mk]
    exact Real.sq_sqrt hs0
  have h4' : (gaussianReal 0 1).map (fun y => Real.sqrt (∑ i, w i ^ 2) * y) = gaussianReal 0 (Real.toNNReal (∑ i, w i ^ 2)) := by
    rw [h4, mul_zero, mul_one, ← hv]
  rw [h4'] at h5
  simp only [zero_add] at h2 h3
  rw [← h2, ← h3, h5]

/-- Expectations under a scheme on fine grids, for one state with parameters that depend on time. -/
theorem time_scheme_limit {S Z : Type} [MeasurableSpace Z] (ν : Measure Z) [IsProbabilityMeasure ν] (ξ : Z → ℝ) (hξ : Measurable ξ) (hlaw : ν.map ξ = gaussianReal 0 1)
    (step : ℝ → ℝ → S → Z → S) (φ : S → ℝ) (θ : ℝ) (hθ : 0 ≤ θ) (hθ1 : θ ≤ 1) (mean vol : TimeParam) (hm : TimeParamOk mean) (hv : TimeParamOk vol)
    (hstep : ∀ (t dt : ℝ) (x : S) (z : Z), 0 ≤ dt → φ (step t dt x z) = φ x * growth θ (mean.eval t * dt) (vol.eval t * Real.sqrt dt) (ξ z))
    (x0 s0 : S) (z0 : Z) (f : ℝ → ℝ) (K : ℝ) (hf : ∀ x y, |f x - f y| ≤ K * |x - y|) (t : ℝ) (ht : 0 ≤ t) :
    ∀ ε > 0, ∃ δ > 0, ∀ (ts : List ℝ) (i : ℕ), (0 :: ts).Pairwise (· ≤ ·) → i < ts.length → ts.getD i 0 = t →
      (∀ q ≤ i, (0 :: ts).getD (q + 1) 0 - (0 :: ts).getD q 0 ≤ δ) →
      Measurable (fun z : Fin ts.length → Z => f (φ ((schemeStates step 0 x0 ts (List.ofFn z)).getD (i + 1) s0))) ∧
      Integrable (fun z : Fin ts.length → Z => f (φ ((schemeStates step 0 x0 ts (List.ofFn z)).getD (i + 1) s0))) (Measure.pi fun _ => ν) ∧
      |∫ z : Fin ts.length → Z, f (φ ((schemeStates step 0 x0 ts (List.ofFn z)).getD (i + 1) s0)) ∂(Measure.pi fun _ => ν) -
        ∫ w, f (φ x0 * exactGrowth (∫ x in (0 : ℝ)..t, mean.eval x) (Real.sqrt (∫ x in (0 : ℝ)..t, vol.eval x ^ 2)) w) ∂(gaussianReal 0 1)| ≤ ε := by
  intro ε hε
  set a₀ := ∫ x in (0 : ℝ)..t, mean.eval x with ha₀
  set v₀ := ∫ x in (0 : ℝ)..t, vol.eval x ^ 2 with hv₀
  have hv0 : 0 ≤ v₀ := intervalIntegral.integral_nonneg ht fun x _ => sq_nonneg _
  obtain ⟨A1, hA1, hA1'⟩ := param_bound mean
  obtain ⟨A2, hA2, hA2'⟩ := param_bound vol
  obtain ⟨A, hA0, hAm, hAv⟩ : ∃ A : ℝ, 0 ≤ A ∧ (∀ t, |mean.eval t| ≤ A) ∧ ∀ t, vol.eval t ^ 2 ≤ A := by
    refine ⟨A1 + A2 ^ 2, by positivity, fun t => (hA1' t).trans (by nlinarith [sq_nonneg A2]), fun t => ?_⟩
    have := sq_le_sq' (neg_le_of_abs_le (hA2' t)) (le_of_abs_le (hA2' t))
    linarith
  obtain ⟨C1, hC1, hsum1⟩ := right_sum_param mean hm
  obtain ⟨C2, hC2, hsum2⟩ := right_sum_param vol.squared (squared_ok vol hv)
  simp only [squared_eval] at hsum2
  have hf' : ∀ x y : Fin 1 → ℝ, |f (x 0) - f (y 0)| ≤ |K| * ∑ k, |x k - y k| := by
    intro x y
    rw [Fin.sum_univ_one]
    exact (hf _ _).trans (mul_le_mul_of_nonneg_right (le_abs_self K) (abs_nonneg _))
  have hfc : Continuous f := by
    have h := slope_continuous (fun x : Fin 1 → ℝ => f (x 0)) |K| hf'
    have h2 : Continuous (fun y : ℝ => (fun _ : Fin 1 => y)) := by fun_prop
    exact h.comp h2
  -- the size of the steps
  have hc : Continuous (fun δ : ℝ => |K| * Real.sqrt (φ x0 ^ 2 * (3 * Real.exp (3 * A * t) * (Real.exp (32 * A ^ 2 * δ * t) - 1)))) := by fun_prop
  have hc2 : Continuous (fun δ : ℝ => 3 * (A * δ)) := by fun_prop
  have h1 : ∀ᶠ δ : ℝ in 𝓝 0, |K| * Real.sqrt (φ x0 ^ 2 * (3 * Real.exp (3 * A * t) * (Real.exp (32 * A ^ 2 * δ * t) - 1))) ≤ ε / 2 :=
    (hc.tendsto 0).eventually_le_const (by simpa using hε)
  have h2 : ∀ᶠ δ : ℝ in 𝓝 0, 3 * (A * δ) ≤ 1 := (hc2.tendsto 0).eventually_le_const (by norm_num)
  have hc3 : Continuous (fun q : ℝ × ℝ => |K| * Real.sqrt (φ x0 ^ 2 * (Real.exp (2 * q.1 + Real.sqrt q.2 ^ 2) - 2 * Real.exp (q.1 + a₀ + Real.sqrt q.2 * Real.sqrt v₀) +
      Real.exp (2 * a₀ + Real.sqrt v₀ ^ 2)))) := by fun_prop
  have h3 : ∀ᶠ q : ℝ × ℝ in 𝓝 (a₀, v₀), |K| * Real.sqrt (φ x0 ^ 2 * (Real.exp (2 * q.1 + Real.sqrt q.2 ^ 2) - 2 * Real.exp (q.1 + a₀ + Real.sqrt q.2 * Real.sqrt v₀) +
      Real.exp (2 * a₀ + Real.sqrt v₀ ^ 2))) ≤ ε / 2 := by
    refine (hc3.tendsto (a₀, v₀)).eventually_le_const ?_
    have e : Real.exp (2 * a₀ + Real.sqrt v₀ ^ 2) - 2 * Real.exp (a₀ + a₀ + Real.sqrt v₀ * Real.sqrt v₀) + Real.exp (2 * a₀ + Real.sqrt v₀ ^ 2) = 0 := by
      rw [show a₀ + a₀ + Real.sqrt v₀ * Real.sqrt v₀ = 2 * a₀ + Real.sqrt v₀ ^ 2 by ring]; ring
    simp only [e, mul_zero, Real.sqrt_zero]
    linarith
  obtain ⟨δ, hδ0, hδ⟩ := Metric.eventually_nhds_iff.1 (h1.and h2)
  obtain ⟨η, hη0, hη⟩ := Metric.eventually_nhds_iff.1 h3
  have hC : 0 < 2 * (C1 + C2 + 1) := by linarith
  set d := min (δ / 2) (η / (2 * (C1 + C2 + 1))) with hd
  have hd0 : 0 < d := lt_min (by linarith) (div_pos hη0 hC)
  have hdδ : d ≤ δ / 2 := min_le_left _ _
  have hdη : (C1 + C2 + 1) * d < η := by
    have h : d ≤ η / (2 * (C1 + C2 + 1)) := min_le_right _ _
    rw [le_div_iff₀ hC] at h
    nlinarith
  obtain ⟨h4, h5⟩ := hδ (y := d) (by rw [Real.dist_eq, sub_zero, abs_of_pos hd0]; linarith)
  refine ⟨d, hd0, fun ts i hs hi hti hmesh => ?_⟩
  set T : ℕ → ℝ := fun q => (0 :: ts).getD q 0 with hT
  have hT0 : T 0 = 0 := by simp [hT]
  have hTi : T (i + 1) = t := by rw [← hti]; simp [hT]
  have hmono : ∀ j < i + 1, T j ≤ T (j + 1) := fun j hj => getD_mono _ hs j (j + 1) (by omega) (by simp; omega)
  have hsteps : ∀ j < i + 1, T (j + 1) - T j ≤ d := fun j hj => hmesh j (by omega)
  obtain ⟨r1, r2, r3⟩ := grid_distance ν ξ hξ hlaw θ hθ hθ1 (fun j => mean.eval (T (j + 1))) (fun j => vol.eval (T (j + 1))) T ts.length (i + 1) hi A d hA0
    (fun _ _ => hAm _) (fun _ _ => hAv _) hmono hsteps h5 z0
  rw [hT0, hTi, sub_zero] at r3
  set a := ∑ j ∈ Finset.range (i + 1), mean.eval (T (j + 1)) * (T (j + 1) - T j) with ha
  set v := ∑ j ∈ Finset.range (i + 1), vol.eval (T (j + 1)) ^ 2 * (T (j + 1) - T j) with hvd
  have ga := hsum1 d T (i + 1) hd0.le hmono hsteps
  have gv := hsum2 d T (i + 1) hd0.le hmono hsteps
  rw [hT0, hTi] at ga gv
  have hv1 : 0 ≤ v := Finset.sum_nonneg fun j hj => mul_nonneg (sq_nonneg _) (by linarith [hmono j (Finset.mem_range.1 hj)])
  have gav := hη (y := (a, v)) (by
    rw [Prod.dist_eq, Real.dist_eq, Real.dist_eq]
    refine max_lt ?_ ?_
    · refine lt_of_le_of_lt ga (lt_of_le_of_lt ?_ hdη)
      nlinarith
    · refine lt_of_le_of_lt gv (lt_of_le_of_lt ?_ hdη)
      nlinarith)
  simp only at gav
  -- the states
  set X : (Fin ts.length → Z) → ℝ := fun z => ∏ j ∈ Finset.range (i + 1), growth θ (mean.eval (T (j + 1)) * (T (j + 1) - T j)) (vol.eval (T (j + 1)) * Real.sqrt (T (j + 1) - T j))
    (ξ ((List.ofFn z).getD j z0)) with hX
  set Y : (Fin ts.length → Z) → ℝ := fun z => ∏ j ∈ Finset.range (i + 1), exactGrowth (mean.eval (T (j + 1)) * (T (j + 1) - T j)) (vol.eval (T (j + 1)) * Real.sqrt (T (j + 1) - T j))
    (ξ ((List.ofFn z).getD j z0)) with hY
  have eX : ∀ z : Fin ts.length → Z, φ ((schemeStates step 0 x0 ts (List.ofFn z)).getD (i + 1) s0) = φ x0 * X z := fun z =>
    states_product step φ (fun t dt z => growth θ (mean.eval t * dt) (vol.eval t * Real.sqrt dt) (ξ z)) hstep z0 s0 0 ts hs x0 (List.ofFn z) (by simp) (i + 1) (by omega)
  have hmeas : Measurable (fun z : Fin ts.length → Z => φ ((schemeStates step 0 x0 ts (List.ofFn z)).getD (i + 1) s0)) :=
    product_measurable step φ (fun t dt z => growth θ (mean.eval t * dt) (vol.eval t * Real.sqrt dt) (ξ z)) hstep (fun t dt => (growth_measurable _ _ _).comp hξ) z0 s0 ts hs x0 (i + 1) (by omega)
  obtain ⟨s1, _, s3⟩ := slope_gap (Measure.pi fun _ : Fin ts.length => ν) (fun x : Fin 1 → ℝ => f (x 0)) |K| hf' (abs_nonneg K) (fun z _ => φ x0 * X z) (fun z _ => φ x0 * Y z)
    (fun _ => r1.const_mul _) (fun _ => r2.const_mul _) (fun _ => φ x0 ^ 2 * (3 * Real.exp (3 * A * t) * (Real.exp (32 * A ^ 2 * d * t) - 1))) (fun _ => by
      simp_rw [← mul_sub, mul_pow]
      rw [integral_const_mul]
      exact mul_le_mul_of_nonneg_left r3 (sq_nonneg _))
  rw [Fin.sum_univ_one] at s3
  obtain ⟨_, _, s4⟩ := slope_gap (gaussianReal 0 1) (fun x : Fin 1 → ℝ => f (x 0)) |K| hf' (abs_nonneg K) (fun w _ => φ x0 * exactGrowth a (Real.sqrt v) w)
    (fun w _ => φ x0 * exactGrowth a₀ (Real.sqrt v₀) w) (fun _ => (lognormal_distance a (Real.sqrt v) 0 0).1.const_mul _) (fun _ => (lognormal_distance a₀ (Real.sqrt v₀) 0 0).1.const_mul _)
    (fun _ => φ x0 ^ 2 * (Real.exp (2 * a + Real.sqrt v ^ 2) - 2 * Real.exp (a + a₀ + Real.sqrt v * Real.sqrt v₀) + Real.exp (2 * a₀ + Real.sqrt v₀ ^ 2))) (fun _ => by
      simp_rw [← mul_sub, mul_pow]
      rw [integral_const_mul, (lognormal_distance a (Real.sqrt v) a₀ (Real.sqrt v₀)).2])
  rw [Fin.sum_univ_one] at s4
  -- the law of the exact values
  have hYlaw : ∫ z : Fin ts.length → Z, f (φ x0 * Y z) ∂(Measure.pi fun _ => ν) = ∫ w, f (φ x0 * exactGrowth a (Real.sqrt v) w) ∂(gaussianReal 0 1) := by
    set w : Fin ts.length → ℝ := fun k => if k.1 < i + 1 then vol.eval (T (k.1 + 1)) * Real.sqrt (T (k.1 + 1) - T k.1) else 0 with hw
    have key : ∀ g : ℕ → ℝ, ∑ k : Fin ts.length, (if k.1 < i + 1 then g k.1 else 0) = ∑ j ∈ Finset.range (i + 1), g j := by
      intro g
      rw [Fin.sum_univ_eq_sum_range (fun k => if k < i + 1 then g k else 0) ts.length, ← Finset.sum_filter]
      congr 1
      ext q
      simp only [Finset.mem_filter, Finset.mem_range]
      omega
    have hw2 : ∑ k, w k ^ 2 = v := by
      rw [hvd, ← key]
      refine Finset.sum_congr rfl fun k _ => ?_
      rw [hw]
      beta_reduce
      by_cases h : k.1 < i + 1
      · rw [if_pos h, if_pos h, mul_pow, Real.sq_sqrt (by linarith [hmono k.1 h])]
      · rw [if_neg h, if_neg h]; norm_num
    have hYz : ∀ z : Fin ts.length → Z, Y z = Real.exp (a - v / 2 + ∑ k, w k * ξ (z k)) := by
      intro z
      have e1 : ∑ k, w k * ξ (z k) = ∑ j ∈ Finset.range (i + 1), vol.eval (T (j + 1)) * Real.sqrt (T (j + 1) - T j) * ξ ((List.ofFn z).getD j z0) := by
        rw [← key]
        refine Finset.sum_congr rfl fun k _ => ?_
        rw [hw]
        beta_reduce
        by_cases h : k.1 < i + 1
        · rw [if_pos h, if_pos h, List.getD_eq_getElem _ _ (by rw [List.length_ofFn]; exact k.2), List.getElem_ofFn]
        · rw [if_neg h, if_neg h, zero_mul]
      rw [e1, hY, ha, hvd, Finset.sum_div, ← Finset.sum_sub_distrib, ← Finset.sum_add_distrib, Real.exp_sum]
      refine Finset.prod_congr rfl fun j hj => ?_
      rw [exactGrowth, mul_pow, Real.sq_sqrt (by linarith [hmono j (Finset.mem_range.1 hj)])]
    simp_rw [hYz]
    have h := combination_law ν ξ hξ hlaw w (fun y => f (φ x0 * Real.exp (a - v / 2 + y))) (hfc.measurable.comp (by fun_prop))
    rw [h, hw2]
    simp only [exactGrowth, Real.sq_sqrt hv1]
  refine ⟨hfc.measurable.comp hmeas, ?_, ?_⟩
  · simp_rw [eX]; exact s1
  · simp_rw [eX]
    rw [hYlaw] at s3
    have := abs_sub_le (∫ z : Fin ts.length → Z, f (φ x0 * X z) ∂(Measure.pi fun _ => ν)) (∫ w, f (φ x0 * exactGrowth a (Real.sqrt v) w) ∂(gaussianReal 0 1))
      (∫ w, f (φ x0 * exactGrowth a₀ (Real.sqrt v₀) w) ∂(gaussianReal 0 1))
    linarith

end Lemmas

namespace Props
open Model Lemmas Spec MeasureTheory ProbabilityTheory Filter Topology
open scoped BigOperators

/-- The limit in terms of the lognormal law. -/
theorem limit_lognormal (F V x0 a : ℝ) (hx : 0 < x0) (hF : F = x0 * Real.exp a) (f : ℝ → ℝ) (hf : Measurable f) :
    ∫ w, f (x0 * exactGrowth a (Real.sqrt V) w) ∂(gaussianReal 0 1) = lognormalExpectation F (Real.sqrt V) f := by
  subst hF
  unfold lognormalExpectation
  rw [normalExpectation_std _ _ (fun x => f (Real.exp x)) (hf.comp Real.measurable_exp)]
  have hm : Measurable (fun w => f (x0 * exactGrowth a (Real.sqrt V) w)) := hf.comp (measurable_const.mul (exactGrowth_measurable _ _))
  have h4 := normalExpectation_std 0 1 _ hm
  unfold normalExpectation at h4
  rw [show Real.toNNReal ((1 : ℝ) ^ 2) = 1 by simp] at h4
  rw [h4]
  refine integral_congr_ae (Eventually.of_forall fun w => ?_)
  beta_reduce
  rw [zero_add, one_mul]
  congr 1
  congr 1
  rw [exactGrowth, Real.log_mul hx.ne' (Real.exp_pos _).ne', Real.log_exp]
  conv_lhs => rw [← Real.exp_log hx]
  rw [← Real.exp_add]
  congr 1
  ring

/-- C134: prices simulated with the Milstein sampler converge for the geometric Brownian motion with one state and constant or piecewise constant parameters. For each number of
time steps the average over the paths of a function of the sampled value with bounded slope converges almost surely, and the limits converge with the number of time
steps to the expectation under the lognormal law of the process. -/
theorem C134_milstein_sampler (mean vol : TimeParam) (hm : TimeParamOk mean) (hv : TimeParamOk vol) (x0 : ℝ) (hx : 0 < x0) (times : List ℝ) (tol last : ℝ)
    (hpos : ∀ t ∈ times, 0 < t) (hlast : times.getLast? = some last) (hinc : times.Pairwise (· < ·)) (j : ℕ) (t : ℝ) (hj : times[j]? = some t) (f : ℝ → ℝ) (K : ℝ)
    (hf : ∀ x y, |f x - f y| ≤ K * |x - y|) :
    let F := x0 * Real.exp (∫ s in (0 : ℝ)..t, mean.eval s)
    let V := ∫ s in (0 : ℝ)..t, vol.eval s ^ 2
    ∃ v : ℕ → ℝ, Tendsto v atTop (𝓝 (lognormalExpectation F (Real.sqrt V) f)) ∧
      ∀ᶠ N : ℕ in atTop, ∃ all mask indices, prepareGrid times (last / N) tol (some N) none = some (all, mask, indices) ∧
        ∀ (Ω : Type) (_ : MeasurableSpace Ω) (P : Measure Ω) (D : ℕ → Ω → Fin (all.length - 1) → ℝ), PathDraws P (Measure.pi fun _ => gaussianReal 0 1) D →
          ∀ᵐ ω ∂P, Tendsto (fun n : ℕ => (∑ p ∈ Finset.range n, f (((whileSample (milsteinStepOne (gbmDrift mean) (gbmVolatility vol)
            (fun s x => deriv (gbmVolatility vol s) x)) times.length all mask x0 (List.ofFn (D p ω))).getD j none).getD 0)) / n) atTop (𝓝 (v N)) := by
  intro F V
  have ht0 : 0 < t := hpos t (List.mem_of_getElem? hj)
  have hd : ∀ s x : ℝ, deriv (gbmVolatility vol s) x = vol.eval s := by
    intro s x
    have : gbmVolatility vol s = fun x => vol.eval s * x := rfl
    rw [this, deriv_const_mul_field, deriv_id'', mul_one]
  have hfc : Measurable f := by
    have h := slope_continuous (fun x : Fin 1 → ℝ => f (x 0)) K (fun x y => by rw [Fin.sum_univ_one]; exact hf _ _)
    have h2 : Continuous (fun y : ℝ => (fun _ : Fin 1 => y)) := by fun_prop
    exact (h.comp h2).measurable
  rw [← limit_lognormal F V x0 _ hx rfl f hfc]
  refine sampler_limit (gaussianReal 0 1) _ x0 0 f times tol last hpos hlast hinc j t hj _ ?_
  refine time_scheme_limit (gaussianReal 0 1) id measurable_id Measure.map_id _ id 1 zero_le_one le_rfl mean vol hm hv ?_ x0 0 0 f K hf t ht0.le
  intro s dt x z hdt
  have hs : Real.sqrt dt * Real.sqrt dt = dt := Real.mul_self_sqrt hdt
  simp only [id, milsteinStepOne, milstein1d, gbmDrift, growth, hd]
  simp only [gbmVolatility]
  linear_combination (x * vol.eval s ^ 2 / 2) * hs

/-- C134: the same for the Euler sampler. -/
theorem C134_euler_sampler (mean vol : TimeParam) (hm : TimeParamOk mean) (hv : TimeParamOk vol) (x0 : ℝ) (hx : 0 < x0) (times : List ℝ) (tol last : ℝ)
    (hpos : ∀ t ∈ times, 0 < t) (hlast : times.getLast? = some last) (hinc : times.Pairwise (· < ·)) (j : ℕ) (t : ℝ) (hj : times[j]? = some t) (f : ℝ → ℝ) (K : ℝ)
    (hf : ∀ x y, |f x - f y| ≤ K * |x - y|) :
    let F := x0 * Real.exp (∫ s in (0 : ℝ)..t, mean.eval s)
    let V := ∫ s in (0 : ℝ)..t, vol.eval s ^ 2
    ∃ v : ℕ → ℝ, Tendsto v atTop (𝓝 (lognormalExpectation F (Real.sqrt V) f)) ∧
      ∀ᶠ N : ℕ in atTop, ∃ all mask indices, prepareGrid times (last / N) tol (some N) none = some (all, mask, indices) ∧
        ∀ (Ω : Type) (_ : MeasurableSpace Ω) (P : Measure Ω) (D : ℕ → Ω → Fin (all.length - 1) → Fin 1 → ℝ), PathDraws P (stepNormals (all.length - 1) 1) D →
          ∀ᵐ ω ∂P, Tendsto (fun n : ℕ => (∑ p ∈ Finset.range n, f (((whileSample (eulerStep (fun s x k => gbmDrift mean s (x k)) (fun s x => Matrix.of fun k _ => gbmVolatility vol s (x k)))
            times.length all mask (fun _ => x0) (List.ofFn (D p ω))).getD j none).getD 0 0)) / n) atTop (𝓝 (v N)) := by
  intro F V
  have ht0 : 0 < t := hpos t (List.mem_of_getElem? hj)
  have hfc : Measurable f := by
    have h := slope_continuous (fun x : Fin 1 → ℝ => f (x 0)) K (fun x y => by rw [Fin.sum_univ_one]; exact hf _ _)
    have h2 : Continuous (fun y : ℝ => (fun _ : Fin 1 => y)) := by fun_prop
    exact (h.comp h2).measurable
  rw [← limit_lognormal F V x0 _ hx rfl f hfc]
  have hstep : ∀ (s dt : ℝ) (x z : Fin 1 → ℝ), 0 ≤ dt → eulerStep (fun s x k => gbmDrift mean s (x k)) (fun s x => Matrix.of fun k _ => gbmVolatility vol s (x k)) s dt x z 0 =
      x 0 * growth 0 (mean.eval s * dt) (vol.eval s * Real.sqrt dt) (z 0) := by
    intro s dt x z _
    simp [eulerStep, gbmDrift, gbmVolatility, growth, Matrix.mulVec, dotProduct]
    ring
  generalize eulerStep (fun s (x : Fin 1 → ℝ) k => gbmDrift mean s (x k)) (fun s x => Matrix.of fun k (_ : Fin 1) => gbmVolatility vol s (x k)) = step at hstep ⊢
  have H := time_scheme_limit (Measure.pi fun _ : Fin 1 => gaussianReal 0 1) (fun z : Fin 1 → ℝ => z 0) (measurable_pi_apply 0)
    (measurePreserving_eval (fun _ : Fin 1 => gaussianReal 0 1) 0).map_eq step (fun x : Fin 1 → ℝ => x 0) 0 le_rfl
    zero_le_one mean vol hm hv hstep (fun _ => x0) (0 : Fin 1 → ℝ) (0 : Fin 1 → ℝ) f K hf t ht0.le
  exact sampler_limit (S := Fin 1 → ℝ) (Z := Fin 1 → ℝ) (Measure.pi fun _ : Fin 1 => gaussianReal 0 1) step (fun _ => x0) (0 : Fin 1 → ℝ) (fun x : Fin 1 → ℝ => f (x 0)) times tol last hpos hlast hinc j t hj _ H

/-- C134: the mean of a component sampled with the Milstein scheme for several states, if the Wiener processes of the states are independent: each step multiplies it with one
plus the time step times the mean parameter minus half of the square of the volatility. -/
theorem C134_milstein_many_mean {d p : ℕ} (means vols : Fin d → ℝ) (x0 : Fin d → ℝ) (ts : List ℝ) (hs : (0 :: ts).Pairwise (· ≤ ·)) (k : Fin d) (i : ℕ) (hi : i < ts.length)
    (ν : Measure ((Fin d → ℝ) × (Fin 3 → Fin d → Fin (p + 1) → ℝ))) [IsProbabilityMeasure ν] (hν : ν.map (fun z => z.1 k) = gaussianReal 0 1) :
    ∫ z : Fin ts.length → (Fin d → ℝ) × (Fin 3 → Fin d → Fin (p + 1) → ℝ), (schemeStates (milsteinStepMany (fun _ x => multiGbmDrift means x) (fun _ x => multiGbmVolatility vols none x)
      (fun _ x m => Matrix.of fun k j => deriv (fun y => multiGbmVolatility vols none (Function.update x m y) k j) (x m))) 0 x0 ts (List.ofFn z)).getD (i + 1) 0 k ∂(Measure.pi fun _ => ν) =
    x0 k * ∏ j ∈ Finset.range (i + 1), (1 + (means k - vols k ^ 2 / 2) * ((0 :: ts).getD (j + 1) 0 - (0 :: ts).getD j 0)) := by
  have hgrad : ∀ (x : Fin d → ℝ) (m k j : Fin d), deriv (fun y => multiGbmVolatility vols none (Function.update x m y) k j) (x m) = if m = k ∧ k = j then vols k else 0 := by
    intro x m k j
    by_cases h1 : m = k
    · subst h1
      by_cases h2 : m = j
      · subst h2
        simp [multiGbmVolatility]
      · simp [multiGbmVolatility, h2]
    · have : (fun y => multiGbmVolatility vols none (Function.update x m y) k j) = fun _ => multiGbmVolatility vols none x k j := by
        funext y
        simp [multiGbmVolatility, Function.update_of_ne (Ne.symm h1)]
      rw [this, deriv_const, if_neg (fun h => h1 h.1)]
  have hξ : Measurable (fun z : (Fin d → ℝ) × (Fin 3 → Fin d → Fin (p + 1) → ℝ) => z.1 k) := by fun_prop
  have hstep : ∀ (t dt : ℝ) (x : Fin d → ℝ) (z : (Fin d → ℝ) × (Fin 3 → Fin d → Fin (p + 1) → ℝ)), 0 ≤ dt →
      milsteinStepMany (fun _ x => multiGbmDrift means x) (fun _ x => multiGbmVolatility vols none x)
        (fun _ x m => Matrix.of fun k j => deriv (fun y => multiGbmVolatility vols none (Function.update x m y) k j) (x m)) t dt x z k =
      x k * growth 1 ((means k - vols k ^ 2 / 2) * dt) (vols k * Real.sqrt dt) (z.1 k) := by
    intro t dt x z hdt
    have hsq : Real.sqrt dt * Real.sqrt dt = dt := Real.mul_self_sqrt hdt
    simp only [milsteinStepMany, hgrad]
    have e : (multiGbmVolatility vols none x) = Matrix.of fun i j => if i = j then (fun i => vols i * x i) i else 0 := rfl
    rw [e, C59_diagonal z.1 dt x (multiGbmDrift means x) (fun i => vols i * x i) vols (z.2 0) (z.2 1) (z.2 2)
      (fun i j => z.1 i * Real.sqrt dt * (z.1 j * Real.sqrt dt) / 2) (by intro i j; ring) k]
    have e3 : ∀ i j₁ j₂ : Fin d, (if i = j₁ then vols i * x i else 0) * (if i = k ∧ k = j₂ then vols k else 0) =
        if i = k then (if j₁ = k then (if j₂ = k then vols k * (vols k * x k) else 0) else 0) else 0 := by
      intro i j₁ j₂
      by_cases h1 : i = k <;> by_cases h2 : j₁ = k <;> by_cases h3 : j₂ = k
      all_goals simp_all [eq_comm, mul_comm]
    have d3 : (∑ j, ∑ i, (if i = j then vols i * x i else 0) * (if i = k ∧ k = j then vols k else 0)) = vols k * (vols k * x k) := by
      rw [Finset.sum_comm]
      simp only [e3]
      simp
    simp only [milsteinStep, d3]
    simp only [e3]
    simp only [Finset.sum_ite_eq', Finset.mem_univ, if_true, ite_mul, zero_mul, Finset.sum_ite_eq]
    rw [Finset.sum_eq_single (f := fun j₁ => ∑ _, _) k (fun j _ hj => by simp [hj]) (by simp), Finset.sum_eq_single k (fun j _ hj => by simp [hj]) (by simp)]
    simp only [if_true, growth, multiGbmDrift]
    linear_combination (vols k ^ 2 * x k / 2) * hsq
  generalize milsteinStepMany (p := p) (fun _ x => multiGbmDrift means x) (fun _ x => multiGbmVolatility vols none x)
    (fun _ x m => Matrix.of fun k j => deriv (fun y => multiGbmVolatility vols none (Function.update x m y) k j) (x m)) = step at hstep ⊢
  have e1 : ∀ z : Fin ts.length → (Fin d → ℝ) × (Fin 3 → Fin d → Fin (p + 1) → ℝ), (schemeStates step 0 x0 ts (List.ofFn z)).getD (i + 1) 0 k =
      x0 k * ∏ j ∈ Finset.range (i + 1), growth 1 ((means k - vols k ^ 2 / 2) * ((0 :: ts).getD (j + 1) 0 - (0 :: ts).getD j 0))
        (vols k * Real.sqrt ((0 :: ts).getD (j + 1) 0 - (0 :: ts).getD j 0)) (((List.ofFn z).getD j 0).1 k) := fun z =>
    states_product step (fun x => x k) (fun _ dt z => growth 1 ((means k - vols k ^ 2 / 2) * dt) (vols k * Real.sqrt dt) (z.1 k)) hstep 0 0 0 ts hs x0 (List.ofFn z) (by simp) (i + 1)
      (by omega)
  simp_rw [e1]
  rw [integral_const_mul]
  congr 1
  have e2 := fun z : Fin ts.length → (Fin d → ℝ) × (Fin 3 → Fin d → Fin (p + 1) → ℝ) => ofFn_prod z 0
    (fun j (y : (Fin d → ℝ) × (Fin 3 → Fin d → Fin (p + 1) → ℝ)) => growth 1 ((means k - vols k ^ 2 / 2) * ((0 :: ts).getD (j + 1) 0 - (0 :: ts).getD j 0))
      (vols k * Real.sqrt ((0 :: ts).getD (j + 1) 0 - (0 :: ts).getD j 0)) (y.1 k)) (i + 1) (by omega)
  simp_rw [e2]
  have e4 := integral_fintype_prod_eq_prod (𝕜 := ℝ) (μ := fun _ : Fin ts.length => ν) (f := fun (m : Fin ts.length) (y : (Fin d → ℝ) × (Fin 3 → Fin d → Fin (p + 1) → ℝ)) =>
    if m.1 < i + 1 then growth 1 ((means k - vols k ^ 2 / 2) * ((0 :: ts).getD (m.1 + 1) 0 - (0 :: ts).getD m.1 0))
      (vols k * Real.sqrt ((0 :: ts).getD (m.1 + 1) 0 - (0 :: ts).getD m.1 0)) (y.1 k) else 1)
  rw [e4]
  have e5 : ∀ a b : ℝ, ∫ y, growth 1 a b (y.1 k) ∂ν = 1 + a := by
    intro a b
    have h := integral_map (μ := ν) hξ.aemeasurable (f := growth 1 a b) (growth_measurable 1 a b).aestronglyMeasurable
    rw [hν] at h
    rw [← h]
    have h2 := normalExpectation_quadratic (1 + a - b ^ 2 / 2) b (b ^ 2 / 2)
    unfold normalExpectation at h2
    rw [show Real.toNNReal ((1 : ℝ) ^ 2) = 1 by simp] at h2
    have e6 : growth 1 a b = fun z => 1 + a - b ^ 2 / 2 + b * z + b ^ 2 / 2 * z ^ 2 := by
      funext z; simp only [growth]; ring
    rw [e6, h2]
    ring
  have e7 : ∀ m : Fin ts.length, (∫ y : (Fin d → ℝ) × (Fin 3 → Fin d → Fin (p + 1) → ℝ), (if m.1 < i + 1 then growth 1 ((means k - vols k ^ 2 / 2) * ((0 :: ts).getD (m.1 + 1) 0 - (0 :: ts).getD m.1 0))
      (vols k * Real.sqrt ((0 :: ts).getD (m.1 + 1) 0 - (0 :: ts).getD m.1 0)) (y.1 k) else 1) ∂ν) =
      (fun q => if q < i + 1 then 1 + (means k - vols k ^ 2 / 2) * ((0 :: ts).getD (q + 1) 0 - (0 :: ts).getD q 0) else 1) m.1 := by
    intro m
    beta_reduce
    by_cases h : m.1 < i + 1
    · simp only [if_pos h]; exact e5 _ _
    · simp only [if_neg h]; simp
  simp_rw [e7]
  rw [Fin.prod_univ_eq_prod_range (fun q => if q < i + 1 then 1 + (means k - vols k ^ 2 / 2) * ((0 :: ts).getD (q + 1) 0 - (0 :: ts).getD q 0) else 1) ts.length, ← Finset.prod_filter]
  congr 1
  ext q
  simp only [Finset.mem_filter, Finset.mem_range]
  omega

/-- C134 (deviation): so the values do not converge to the process. For mean 0, volatilities 1 and initial values 1 the process has mean 1 at all times, but the mean of the
sampled values is at most the exponential function of minus half of the time, however fine the grid is. -/
theorem C134_milstein_many_fails {d p : ℕ} (ts : List ℝ) (hs : (0 :: ts).Pairwise (· ≤ ·)) (k : Fin d) (i : ℕ) (hi : i < ts.length)
    (hstep : ∀ j ≤ i, (0 :: ts).getD (j + 1) 0 - (0 :: ts).getD j 0 ≤ 2)
    (ν : Measure ((Fin d → ℝ) × (Fin 3 → Fin d → Fin (p + 1) → ℝ))) [IsProbabilityMeasure ν] (hν : ν.map (fun z => z.1 k) = gaussianReal 0 1) :
    ∫ z : Fin ts.length → (Fin d → ℝ) × (Fin 3 → Fin d → Fin (p + 1) → ℝ), (schemeStates (milsteinStepMany (fun _ x => multiGbmDrift 0 x) (fun _ x => multiGbmVolatility 1 none x)
      (fun _ x m => Matrix.of fun k j => deriv (fun y => multiGbmVolatility 1 none (Function.update x m y) k j) (x m))) 0 1 ts (List.ofFn z)).getD (i + 1) 0 k ∂(Measure.pi fun _ => ν) ≤
      Real.exp (-(ts.getD i 0) / 2) ∧
    ∫ z : Fin d → ℝ, (multiGbmPath 0 1 none 1 [ts.getD i 0] [z] k).getD 0 0 ∂(Measure.pi fun _ => gaussianReal 0 1) = 1 := by
  have hti : 0 ≤ ts.getD i 0 := by
    have := getD_mono _ hs 0 (i + 1) (by omega) (by simp; omega)
    simpa using this
  constructor
  · rw [C134_milstein_many_mean 0 1 1 ts hs k i hi ν hν]
    have h1 : ∀ j ∈ Finset.range (i + 1), 0 ≤ 1 + ((0 : Fin d → ℝ) k - (1 : Fin d → ℝ) k ^ 2 / 2) * ((0 :: ts).getD (j + 1) 0 - (0 :: ts).getD j 0) := by
      intro j hj
      have := hstep j (by have := Finset.mem_range.1 hj; omega)
      simp only [Pi.zero_apply, Pi.one_apply]
      linarith
    have h2 : ∀ j ∈ Finset.range (i + 1), 1 + ((0 : Fin d → ℝ) k - (1 : Fin d → ℝ) k ^ 2 / 2) * ((0 :: ts).getD (j + 1) 0 - (0 :: ts).getD j 0) ≤
        Real.exp (-(1 / 2) * ((0 :: ts).getD (j + 1) 0 - (0 :: ts).getD j 0)) := by
      intro j _
      have := Real.add_one_le_exp (-(1 / 2) * ((0 :: ts).getD (j + 1) 0 - (0 :: ts).getD j 0))
      simp only [Pi.zero_apply, Pi.one_apply]
      linarith
    have h3 := Finset.prod_le_prod h1 h2
    rw [← Real.exp_sum, ← Finset.mul_sum, Finset.sum_range_sub (fun j => (0 :: ts).getD j 0)] at h3
    simp only [Pi.one_apply, one_mul] at h3 ⊢
    refine h3.trans (le_of_eq ?_)
    congr 1
    simp
    ring
  · have e : ∀ z : Fin d → ℝ, (multiGbmPath 0 1 none 1 [ts.getD i 0] [z] k).getD 0 0 = Real.exp (-(ts.getD i 0) / 2) * Real.exp (Real.sqrt (ts.getD i 0) * z k) := by
      intro z
      rw [List.getD_eq_getElem?_getD, multiGbmPath_get 0 1 none 1 [ts.getD i 0] [z] rfl k 0 (by simp), Option.getD_some, ← Real.exp_add]
      simp [stochasticIncrement]
      ring
    simp_rw [e]
    have h := integral_map (μ := Measure.pi fun _ : Fin d => gaussianReal 0 1) (φ := fun z => z k) (measurable_pi_apply k).aemeasurable (f := fun w => Real.exp (Real.sqrt (ts.getD i 0) * w))
      (by fun_prop)
    rw [(measurePreserving_eval (fun _ : Fin d => gaussianReal 0 1) k).map_eq] at h
    rw [integral_const_mul, ← h, gauss_exp, Real.sq_sqrt hti, ← Real.exp_add]
    simp
    ring

/-- One Milstein step with a volatility that jumps from 1 to 2 at time 1: the step from 0 to 1 has the left value. -/
example : milsteinStepOne (gbmDrift (.constant 3)) (gbmVolatility (.piecewise [1] [1, 2])) (fun s x => deriv (gbmVolatility (.piecewise [1] [1, 2]) s) x) 1 1 2 2 = 15 := by
  have e : (TimeParam.piecewise [1] [1, 2]).eval 1 = 1 := by simp [TimeParam.eval, piecewiseConstant, searchLeft]
  have h : deriv (gbmVolatility (.piecewise [1] [1, 2]) 1) 2 = 1 := by
    have : gbmVolatility (.piecewise [1] [1, 2]) 1 = fun x => (TimeParam.piecewise [1] [1, 2]).eval 1 * x := rfl
    rw [this, e, deriv_const_mul_field, deriv_id'', mul_one]
  simp only [milsteinStepOne, milstein1d, h]
  have e2 : piecewiseConstant [1] [1, 2] true (1 : ℝ) = 1 := e
  simp only [gbmDrift, gbmVolatility, TimeParam.eval, e2]
  norm_num

/-- Draws with the law that the theorems on several states need exist. -/
example (d p : ℕ) (k : Fin d) : ∃ ν : Measure ((Fin d → ℝ) × (Fin 3 → Fin d → Fin (p + 1) → ℝ)), IsProbabilityMeasure ν ∧ ν.map (fun z => z.1 k) = gaussianReal 0 1 := by
  refine ⟨(Measure.pi fun _ => gaussianReal 0 1).prod (Measure.pi fun _ => Measure.pi fun _ => Measure.pi fun _ => gaussianReal 0 1), inferInstance, ?_⟩
  have h1 := measurePreserving_fst (μ := Measure.pi fun _ : Fin d => gaussianReal 0 1) (ν := Measure.pi fun _ : Fin 3 => Measure.pi fun _ : Fin d => Measure.pi fun _ : Fin (p + 1) => gaussianReal 0 1)
  exact ((measurePreserving_eval (fun _ : Fin d => gaussianReal 0 1) k).comp h1).map_eq

end Props
