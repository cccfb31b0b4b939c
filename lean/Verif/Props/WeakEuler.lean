import Verif.Lemmas.WeakScheme
import Verif.Model.SchemeSteps
import Verif.Model.ItoProcess
import Verif.Props.EulerGbm
import Mathlib.Probability.Distributions.Gaussian.Real
import Mathlib.Probability.Independence.Integration

/-! # C136 Simulated expectations of an Itô process converge to the solution of its backward equation -/

namespace Lemmas
open Model Spec Set MeasureTheory ProbabilityTheory Filter Topology
open scoped BigOperators

/-- The limit for a sampler whose steps have the right moments. -/
theorem weak_sampler_limit {d : ℕ} {Z : Type} [MeasurableSpace Z] (ν : Measure Z) [IsProbabilityMeasure ν] (step : ℝ → ℝ → (Fin d → ℝ) → Z → Fin d → ℝ)
    (b : ℝ → (Fin d → ℝ) → Fin d → ℝ) (a : ℝ → (Fin d → ℝ) → Matrix (Fin d) (Fin d) ℝ) (t : ℝ) (ht : 0 < t) (p : WeakStep ν step b a t) (u : ℝ → (Fin d → ℝ) → ℝ)
    (s : BackwardSolution b a t u) (x0 : Fin d → ℝ) :
    ∃ A : ℝ, 0 ≤ A ∧ ∀ (δ : ℝ) (ts : List ℝ) (i : ℕ), (0 :: ts).Pairwise (· ≤ ·) → i < ts.length → ts.getD i 0 = t →
      (∀ q ≤ i, (0 :: ts).getD (q + 1) 0 - (0 :: ts).getD q 0 ≤ δ) →
      Measurable (fun z : Fin ts.length → Z => u t ((schemeStates step 0 x0 ts (List.ofFn z)).getD (i + 1) 0)) ∧
      Integrable (fun z : Fin ts.length → Z => u t ((schemeStates step 0 x0 ts (List.ofFn z)).getD (i + 1) 0)) (Measure.pi fun _ => ν) ∧
      |∫ z : Fin ts.length → Z, u t ((schemeStates step 0 x0 ts (List.ofFn z)).getD (i + 1) 0) ∂(Measure.pi fun _ => ν) - u 0 x0| ≤ A * Real.sqrt δ := by
  have hn : Even (2 * (s.m + 1)) := even_two_mul _
  have hC := BackwardSolution.C_nonneg s ht.le
  have hE := p.errorConst_nonneg ht.le s.C hC s.m (2 * (s.m + 1) + 2)
  have hV := lyapunov_one (2 * (s.m + 1) + 2) (hn.add (by decide)) x0
  refine ⟨p.errorConst s.C s.m (2 * (s.m + 1) + 2) * t * Real.exp (p.rate (2 * (s.m + 1) + 2) * t) * lyapunov (2 * (s.m + 1) + 2) x0, by positivity, ?_⟩
  intro δ ts i hs hi hti hstep
  have e : (0 :: ts).getD (i + 1) 0 = t := by rw [List.getD_cons_succ, hti]
  have h1 := solution_states s p (2 * (s.m + 1)) hn (by omega) ts 0 le_rfl hs (i + 1) hi (by rw [e]) (by rw [e]; exact ht.le) x0
  have h2 := grid_error s p (2 * (s.m + 1)) hn (by omega) δ ts 0 le_rfl hs (i + 1) hi (by rw [e]) (fun q hq => hstep q (by omega)) x0
  rw [e] at h1 h2
  refine ⟨?_, h1, ?_⟩
  · exact (BackwardSolution.continuous s t ⟨ht.le, le_rfl⟩).measurable.comp ((states_measurable p ts 0 hs (i + 1) hi).comp (measurable_const.prodMk measurable_id))
  · refine h2.trans (le_of_eq ?_)
    rw [sub_zero]
    ring

/-- Small steps make the error small. -/
theorem sqrt_small (A ε : ℝ) (hε : 0 < ε) : ∃ δ > 0, A * Real.sqrt δ ≤ ε := by
  have h : Tendsto (fun δ : ℝ => A * Real.sqrt δ) (𝓝 0) (𝓝 0) := by
    have : Continuous (fun δ : ℝ => A * Real.sqrt δ) := by fun_prop
    simpa using this.tendsto 0
  obtain ⟨η, hη, h1⟩ := Metric.eventually_nhds_iff.1 (h.eventually_le_const hε)
  exact ⟨η / 2, by linarith, h1 (by rw [Real.dist_eq, sub_zero, abs_of_pos (by linarith)]; linarith)⟩

/-! ## Moments of normal vectors -/

theorem pi_eval_integral {d : ℕ} (j : Fin d) (g : ℝ → ℝ) (hg : Measurable g) : ∫ z : Fin d → ℝ, g (z j) ∂(Measure.pi fun _ => gaussianReal 0 1) = ∫ y, g y ∂(gaussianReal 0 1) := by
  have h := measurePreserving_eval (fun _ : Fin d => gaussianReal 0 1) j
  have h2 := integral_map (μ := Measure.pi fun _ : Fin d => gaussianReal 0 1) h.measurable.aemeasurable (f := g) hg.aestronglyMeasurable
  rw [h.map_eq] at h2
  exact h2.symm

theorem pi_eval_memLp {d : ℕ} (j : Fin d) (p : NNReal) : MemLp (fun z : Fin d → ℝ => z j) p (Measure.pi fun _ => gaussianReal 0 1) := by
  have h := measurePreserving_eval (fun _ : Fin d => gaussianReal 0 1) j
  have := (memLp_id_gaussianReal (μ := 0) (v := 1) p).comp_measurePreserving h
  exact this

theorem pi_size_integrable {d : ℕ} (n : ℕ) : Integrable (fun z : Fin d → ℝ => (1 + ∑ j, |z j|) ^ n) (Measure.pi fun _ => gaussianReal 0 1) := by
  have h0 : ∀ j ∈ (Finset.univ : Finset (Fin d)), MemLp (fun z : Fin d → ℝ => |z j|) (n : NNReal) (Measure.pi fun _ => gaussianReal 0 1) := fun j _ => by
    have := (pi_eval_memLp j (n : NNReal)).norm
    simpa only [Real.norm_eq_abs] using this
  have h1 := memLp_finsetSum (Finset.univ : Finset (Fin d)) h0
  have h : MemLp (fun z : Fin d → ℝ => 1 + ∑ j, |z j|) (n : NNReal) (Measure.pi fun _ => gaussianReal 0 1) :=
    (memLp_const (1 : ℝ)).add h1
  rcases Nat.eq_zero_or_pos n with rfl | hn
  · simp
  · have h2 := h.integrable_norm_rpow (by simpa using hn.ne') (by simp)
    refine h2.congr (Eventually.of_forall fun z => ?_)
    have h0 : (0 : ℝ) ≤ 1 + ∑ j, |z j| := by positivity
    simp only [Real.norm_eq_abs, abs_of_nonneg h0]
    simp

theorem pi_mean {d : ℕ} (j : Fin d) : ∫ z : Fin d → ℝ, z j ∂(Measure.pi fun _ => gaussianReal 0 1) = 0 := by
  rw [pi_eval_integral j (fun y => y) measurable_id]
  simp

theorem pi_product {d : ℕ} (j k : Fin d) : Integrable (fun z : Fin d → ℝ => z j * z k) (Measure.pi fun _ => gaussianReal 0 1) ∧
    ∫ z : Fin d → ℝ, z j * z k ∂(Measure.pi fun _ => gaussianReal 0 1) = if j = k then 1 else 0 := by
  have hi : Integrable (fun z : Fin d → ℝ => z j * z k) (Measure.pi fun _ => gaussianReal 0 1) := by
    have h1 : MemLp (fun z : Fin d → ℝ => z j) 2 (Measure.pi fun _ => gaussianReal 0 1) := by simpa using pi_eval_memLp j 2
    have h2 : MemLp (fun z : Fin d → ℝ => z k) 2 (Measure.pi fun _ => gaussianReal 0 1) := by simpa using pi_eval_memLp k 2
    exact MemLp.integrable_mul h1 h2
  refine ⟨hi, ?_⟩
  by_cases h : j = k
  · subst h
    rw [if_pos rfl, pi_eval_integral j (fun y => y * y) (by fun_prop)]
    have h1 := variance_eq_sub (μ := gaussianReal 0 1) (X := id) (memLp_id_gaussianReal 2)
    rw [variance_id_gaussianReal] at h1
    simp only [id_eq, integral_id_gaussianReal, Pi.pow_apply] at h1
    simp_rw [← pow_two]
    simpa using h1.symm
  · rw [if_neg h]
    have hind : iIndepFun (fun (i : Fin d) (z : Fin d → ℝ) => z i) (Measure.pi fun _ : Fin d => gaussianReal 0 1) :=
      iIndepFun_pi (X := fun _ y => y) fun i => aemeasurable_id
    have := (hind.indepFun h).integral_fun_mul_eq_mul_integral (measurable_pi_apply j).aestronglyMeasurable (measurable_pi_apply k).aestronglyMeasurable
    rw [this, pi_mean, zero_mul]

/-- The Euler step has the moments of the process. -/
noncomputable def eulerWeakStep {d : ℕ} (drift : ℝ → (Fin d → ℝ) → Fin d → ℝ) (vol : ℝ → (Fin d → ℝ) → Matrix (Fin d) (Fin d) ℝ) (T K : ℝ) (hK : 0 ≤ K)
    (hdm : ∀ t, Measurable (drift t)) (hvm : ∀ t i j, Measurable (fun x => vol t x i j)) (hd : ∀ t ∈ Icc 0 T, ∀ x i, |drift t x i| ≤ K * (1 + ‖x‖))
    (hv : ∀ t ∈ Icc 0 T, ∀ x i j, |vol t x i j| ≤ K * (1 + ‖x‖)) :
    WeakStep (Measure.pi fun _ : Fin d => gaussianReal 0 1) (eulerStep drift vol) drift (fun t x => vol t x * (vol t x).transpose) T where
  w t x z := (vol t x).mulVec z
  c t x _ := drift t x
  Y z := 1 + ∑ j, |z j|
  K := K
  K0 := hK
  Y1 z := by linarith [Finset.sum_nonneg fun j (_ : j ∈ Finset.univ) => abs_nonneg (z j)]
  Ymeas := by fun_prop
  Yint n := pi_size_integrable n
  wmeas t := by
    refine measurable_pi_lambda _ fun i => ?_
    simp only [Matrix.mulVec, dotProduct]
    exact Finset.measurable_sum _ fun j _ => ((hvm t i j).comp measurable_fst).mul ((measurable_pi_apply j).comp measurable_snd)
  cmeas t := (hdm t).comp measurable_fst
  form t dt x z _ := by
    funext i
    simp only [eulerStep, Matrix.mulVec, dotProduct, Finset.mul_sum]
    rw [add_right_comm]
    congr 2
    exact Finset.sum_congr rfl fun j _ => by ring
  wbound t ht x z i := by
    simp only [Matrix.mulVec, dotProduct]
    have hx : 0 ≤ K * (1 + ‖x‖) := by positivity
    calc |∑ j, vol t x i j * z j| ≤ ∑ j, |vol t x i j * z j| := Finset.abs_sum_le_sum_abs _ _
      _ ≤ ∑ j, K * (1 + ‖x‖) * |z j| := Finset.sum_le_sum fun j _ => by
          rw [abs_mul]
          exact mul_le_mul_of_nonneg_right (hv t ht x i j) (abs_nonneg _)
      _ = K * (1 + ‖x‖) * ∑ j, |z j| := by rw [Finset.mul_sum]
      _ ≤ K * (1 + ‖x‖) * (1 + ∑ j, |z j|) := mul_le_mul_of_nonneg_left (by linarith) hx
  cbound t ht x z i := (hd t ht x i).trans (le_mul_of_one_le_right (by positivity) (by linarith [Finset.sum_nonneg fun j (_ : j ∈ Finset.univ) => abs_nonneg (z j)]))
  wmean t ht x i := by
    simp only [Matrix.mulVec, dotProduct]
    rw [integral_finsetSum _ fun j _ => ((pi_eval_memLp j 1).integrable le_rfl).const_mul _]
    refine Finset.sum_eq_zero fun j _ => ?_
    rw [integral_const_mul, pi_mean, mul_zero]
  wcov t ht x i j := by
    simp only [Matrix.mulVec, dotProduct, Matrix.mul_apply, Matrix.transpose_apply, Finset.sum_mul_sum]
    have hi : ∀ k l, Integrable (fun z : Fin d → ℝ => vol t x i k * z k * (vol t x j l * z l)) (Measure.pi fun _ => gaussianReal 0 1) := fun k l => by
      have := (pi_product k l).1.const_mul (vol t x i k * vol t x j l)
      refine this.congr (Eventually.of_forall fun z => ?_)
      beta_reduce
      ring
    rw [integral_finsetSum _ fun k _ => integrable_finsetSum _ fun l _ => hi k l]
    refine Finset.sum_congr rfl fun k _ => ?_
    rw [integral_finsetSum _ fun l _ => hi k l]
    have e : ∀ l, ∫ z : Fin d → ℝ, vol t x i k * z k * (vol t x j l * z l) ∂(Measure.pi fun _ => gaussianReal 0 1) = if k = l then vol t x i k * vol t x j l else 0 := fun l => by
      have h1 : (fun z : Fin d → ℝ => vol t x i k * z k * (vol t x j l * z l)) = fun z => vol t x i k * vol t x j l * (z k * z l) := by
        funext z
        ring
      rw [h1, integral_const_mul, (pi_product k l).2]
      split <;> simp
    simp_rw [e]
    simp
  cmean t ht x i := by simp

/-! ## The Milstein step in one dimension -/

/-- The Milstein step on vectors with one entry. -/
noncomputable def milsteinVector (drift vol gradVol : ℝ → ℝ → ℝ) (t dt : ℝ) (x : Fin 1 → ℝ) (z : ℝ) : Fin 1 → ℝ := fun _ => milsteinStepOne drift vol gradVol t dt (x 0) z

theorem milstein_states (drift vol gradVol : ℝ → ℝ → ℝ) (ts : List ℝ) (t : ℝ) (x : Fin 1 → ℝ) (draws : List ℝ) :
    schemeStates (milsteinVector drift vol gradVol) t x ts draws = (schemeStates (milsteinStepOne drift vol gradVol) t (x 0) ts draws).map (fun y _ => y) := by
  induction ts generalizing t x draws with
  | nil =>
    simp only [schemeStates, List.map_cons, List.map_nil, List.cons.injEq, and_true]
    funext i
    rw [Subsingleton.elim i 0]
  | cons t' ts ih =>
    cases draws with
    | nil =>
      simp only [schemeStates, List.map_cons, List.map_nil, List.cons.injEq, and_true]
      funext i
      rw [Subsingleton.elim i 0]
    | cons z draws =>
      simp only [schemeStates, List.map_cons, List.cons.injEq]
      refine ⟨?_, ih _ _ _⟩
      funext i
      rw [Subsingleton.elim i 0]

theorem gauss_size_integrable (n : ℕ) : Integrable (fun z : ℝ => (1 + z ^ 2) ^ n) (gaussianReal 0 1) := by
  simp_rw [add_comm (1 : ℝ), add_pow, one_pow, mul_one]
  refine integrable_finsetSum _ fun k _ => ?_
  simp_rw [← pow_mul]
  exact (gauss_integrable_pow _).mul_const _

theorem gauss_sq : ∫ z : ℝ, z ^ 2 ∂(gaussianReal 0 1) = 1 := by
  have h1 := variance_eq_sub (μ := gaussianReal 0 1) (X := id) (memLp_id_gaussianReal 2)
  rw [variance_id_gaussianReal] at h1
  simp only [id_eq, integral_id_gaussianReal, Pi.pow_apply] at h1
  simpa using h1.symm

/-- The Milstein step has the moments of the process. -/
noncomputable def milsteinWeakStep (drift vol gradVol : ℝ → ℝ → ℝ) (T K : ℝ) (hK : 0 ≤ K) (hdm : ∀ t, Measurable (drift t)) (hvm : ∀ t, Measurable (vol t))
    (hgm : ∀ t, Measurable (gradVol t)) (hd : ∀ t ∈ Icc 0 T, ∀ x, |drift t x| ≤ K * (1 + |x|)) (hv : ∀ t ∈ Icc 0 T, ∀ x, |vol t x| ≤ K * (1 + |x|))
    (hg : ∀ t ∈ Icc 0 T, ∀ x, |vol t x * gradVol t x| ≤ K * (1 + |x|)) :
    WeakStep (gaussianReal 0 1) (milsteinVector drift vol gradVol) (fun t x _ => drift t (x 0)) (fun t x => fun _ _ => vol t (x 0) ^ 2) T where
  w t x z := fun _ => vol t (x 0) * z
  c t x z := fun _ => drift t (x 0) + vol t (x 0) * gradVol t (x 0) * (z ^ 2 - 1) / 2
  Y z := 1 + z ^ 2
  K := 2 * K
  K0 := by positivity
  Y1 z := by nlinarith [sq_nonneg z]
  Ymeas := by fun_prop
  Yint n := gauss_size_integrable n
  wmeas t := by
    refine measurable_pi_lambda _ fun i => ?_
    exact ((hvm t).comp ((measurable_pi_apply 0).comp measurable_fst)).mul measurable_snd
  cmeas t := by
    refine measurable_pi_lambda _ fun i => ?_
    have h0 : Measurable (fun p : (Fin 1 → ℝ) × ℝ => p.1 0) := (measurable_pi_apply 0).comp measurable_fst
    exact ((hdm t).comp h0).add (((((hvm t).comp h0).mul ((hgm t).comp h0)).mul ((measurable_snd.pow_const 2).sub_const 1)).div_const 2)
  form t dt x z hdt := by
    funext i
    rw [Subsingleton.elim i 0]
    simp only [milsteinVector, milsteinStepOne, milstein1d]
    have := Real.sq_sqrt hdt
    linear_combination (vol t (x 0) * gradVol t (x 0) * z ^ 2 / 2) * this
  wbound t ht x z i := by
    have hx : |x 0| ≤ ‖x‖ := by rw [← Real.norm_eq_abs]; exact norm_le_pi_norm x 0
    have hz : |z| ≤ 1 + z ^ 2 := by rw [← sq_abs z]; nlinarith [sq_nonneg (|z| - 1), sq_nonneg (|z|)]
    rw [abs_mul]
    have h1 : |vol t (x 0)| ≤ 2 * K * (1 + ‖x‖) := (hv t ht (x 0)).trans (by nlinarith [norm_nonneg x, abs_nonneg (x 0)])
    exact mul_le_mul h1 hz (abs_nonneg _) (by positivity)
  cbound t ht x z i := by
    have hx : |x 0| ≤ ‖x‖ := by rw [← Real.norm_eq_abs]; exact norm_le_pi_norm x 0
    have h1 : |drift t (x 0)| ≤ K * (1 + ‖x‖) := (hd t ht (x 0)).trans (mul_le_mul_of_nonneg_left (by linarith) hK)
    have h2 : |vol t (x 0) * gradVol t (x 0)| ≤ K * (1 + ‖x‖) := (hg t ht (x 0)).trans (mul_le_mul_of_nonneg_left (by linarith) hK)
    have h3 : |z ^ 2 - 1| ≤ 1 + z ^ 2 := abs_le.2 ⟨by nlinarith [sq_nonneg z], by linarith⟩
    refine (abs_add_le _ _).trans ?_
    rw [abs_div, abs_mul, abs_of_pos (by norm_num : (0 : ℝ) < 2)]
    have h4 := mul_le_mul h2 h3 (abs_nonneg _) (by positivity)
    have h5 : K * (1 + ‖x‖) ≤ K * (1 + ‖x‖) * (1 + z ^ 2) := le_mul_of_one_le_right (by positivity) (by nlinarith [sq_nonneg z])
    have h6 : 0 ≤ K * (1 + ‖x‖) * (1 + z ^ 2) := by positivity
    linarith
  wmean t ht x i := by
    rw [integral_const_mul]
    simp
  wcov t ht x i j := by
    have e : (fun z : ℝ => vol t (x 0) * z * (vol t (x 0) * z)) = fun z => vol t (x 0) ^ 2 * z ^ 2 := by
      funext z
      ring
    simp only [e]
    rw [integral_const_mul, gauss_sq, mul_one]
  cmean t ht x i := by
    have h1 : Integrable (fun z : ℝ => vol t (x 0) * gradVol t (x 0) * (z ^ 2 - 1) / 2) (gaussianReal 0 1) :=
      ((((gauss_integrable_pow 2).sub (integrable_const 1)).const_mul _).div_const _)
    rw [integral_add (integrable_const _) h1, integral_div, integral_const_mul, integral_sub (gauss_integrable_pow 2) (integrable_const 1), gauss_sq]
    simp

end Lemmas

namespace Props
open Model Lemmas Spec Set MeasureTheory ProbabilityTheory Filter Topology
open scoped BigOperators

/-- C136: for every process with coefficients of linear growth and every solution `u` of its backward equation, the expectation of `u` at the end of the Euler scheme differs
from the solution at the start by at most a multiple of the root of the largest step, on every grid. -/
theorem C136_euler_error {d : ℕ} (drift : ℝ → (Fin d → ℝ) → Fin d → ℝ) (vol : ℝ → (Fin d → ℝ) → Matrix (Fin d) (Fin d) ℝ) (t K : ℝ) (ht : 0 < t) (hK : 0 ≤ K)
    (hdm : ∀ r, Measurable (drift r)) (hvm : ∀ r i j, Measurable (fun x => vol r x i j)) (hd : ∀ r ∈ Icc 0 t, ∀ x i, |drift r x i| ≤ K * (1 + ‖x‖))
    (hv : ∀ r ∈ Icc 0 t, ∀ x i j, |vol r x i j| ≤ K * (1 + ‖x‖)) (u : ℝ → (Fin d → ℝ) → ℝ) (s : BackwardSolution drift (fun r x => vol r x * (vol r x).transpose) t u)
    (x0 : Fin d → ℝ) :
    ∃ A : ℝ, 0 ≤ A ∧ ∀ (δ : ℝ) (ts : List ℝ) (i : ℕ), (0 :: ts).Pairwise (· ≤ ·) → i < ts.length → ts.getD i 0 = t →
      (∀ q ≤ i, (0 :: ts).getD (q + 1) 0 - (0 :: ts).getD q 0 ≤ δ) →
      Integrable (fun z : Fin ts.length → Fin d → ℝ => u t ((schemeStates (eulerStep drift vol) 0 x0 ts (List.ofFn z)).getD (i + 1) 0)) (stepNormals ts.length d) ∧
      |∫ z : Fin ts.length → Fin d → ℝ, u t ((schemeStates (eulerStep drift vol) 0 x0 ts (List.ofFn z)).getD (i + 1) 0) ∂(stepNormals ts.length d) - u 0 x0| ≤
        A * Real.sqrt δ := by
  obtain ⟨A, hA, h⟩ := weak_sampler_limit _ _ _ _ t ht (eulerWeakStep drift vol t K hK hdm hvm hd hv) u s x0
  exact ⟨A, hA, fun δ ts i hs hi hti hstep => ⟨(h δ ts i hs hi hti hstep).2.1, (h δ ts i hs hi hti hstep).2.2⟩⟩

/-- C136: averages over paths of the Euler sampler converge with the number of paths, and then with the number of time steps to the solution of the backward equation. -/
theorem C136_euler_sampler {d : ℕ} (drift : ℝ → (Fin d → ℝ) → Fin d → ℝ) (vol : ℝ → (Fin d → ℝ) → Matrix (Fin d) (Fin d) ℝ) (t K : ℝ) (hK : 0 ≤ K)
    (hdm : ∀ r, Measurable (drift r)) (hvm : ∀ r i j, Measurable (fun x => vol r x i j)) (hd : ∀ r ∈ Icc 0 t, ∀ x i, |drift r x i| ≤ K * (1 + ‖x‖))
    (hv : ∀ r ∈ Icc 0 t, ∀ x i j, |vol r x i j| ≤ K * (1 + ‖x‖)) (u : ℝ → (Fin d → ℝ) → ℝ) (s : BackwardSolution drift (fun r x => vol r x * (vol r x).transpose) t u)
    (x0 : Fin d → ℝ) (times : List ℝ) (tol last : ℝ) (hpos : ∀ t ∈ times, 0 < t) (hlast : times.getLast? = some last) (hinc : times.Pairwise (· < ·)) (j : ℕ)
    (hj : times[j]? = some t) :
    ∃ v : ℕ → ℝ, Tendsto v atTop (𝓝 (u 0 x0)) ∧
      ∀ᶠ N : ℕ in atTop, ∃ all mask indices, prepareGrid times (last / N) tol (some N) none = some (all, mask, indices) ∧
        ∀ (Ω : Type) (_ : MeasurableSpace Ω) (P : Measure Ω) (D : ℕ → Ω → Fin (all.length - 1) → Fin d → ℝ), PathDraws P (stepNormals (all.length - 1) d) D →
          ∀ᵐ ω ∂P, Tendsto (fun n : ℕ => (∑ p ∈ Finset.range n, u t (((whileSample (eulerStep drift vol) times.length all mask x0 (List.ofFn (D p ω))).getD j none).getD 0)) / n)
            atTop (𝓝 (v N)) := by
  have ht : 0 < t := hpos t (List.mem_of_getElem? hj)
  obtain ⟨A, hA, h⟩ := weak_sampler_limit _ _ _ _ t ht (eulerWeakStep drift vol t K hK hdm hvm hd hv) u s x0
  refine sampler_limit (Measure.pi fun _ : Fin d => gaussianReal 0 1) (eulerStep drift vol) x0 0 (u t) times tol last hpos hlast hinc j t hj _ ?_
  intro ε hε
  obtain ⟨δ, hδ, hs⟩ := sqrt_small A ε hε
  refine ⟨δ, hδ, fun ts i h1 h2 h3 h4 => ?_⟩
  obtain ⟨r1, r2, r3⟩ := h δ ts i h1 h2 h3 h4
  exact ⟨r1, r2, r3.trans hs⟩

/-- C136: the equation of the solution is the one `fd_solver_backward` solves: at every point of a grid the derivatives with the coefficients it sets up sum to zero. -/
theorem C136_solver_equation {d : ℕ} (drift : ℝ → (Fin d → ℝ) → Fin d → ℝ) (vol : ℝ → (Fin d → ℝ) → Matrix (Fin d) (Fin d) ℝ) (T : ℝ) (u : ℝ → (Fin d → ℝ) → ℝ)
    (s : BackwardSolution drift (fun r x => vol r x * (vol r x).transpose) T u) (t : ℝ) (ht : t ∈ Icc 0 T) (grid : Fin d → List ℝ) (index : Fin d → ℕ) :
    s.ut t (meshPoint grid index) + ∑ i, ∑ j, (backwardPdeCoeffs drift (fun r x i j => vol r x i j) none t grid index).second i j * s.u2 i j t (meshPoint grid index) +
      ∑ i, (backwardPdeCoeffs drift (fun r x i j => vol r x i j) none t grid index).first i * s.u1 i t (meshPoint grid index) = 0 := by
  have h := s.equation t ht (meshPoint grid index)
  simp only [backwardPdeCoeffs]
  simp only [Matrix.mul_apply, Matrix.transpose_apply] at h
  rw [← h, Finset.mul_sum]
  have e : ∀ i, ∑ j, (∑ k, vol t (meshPoint grid index) i k * vol t (meshPoint grid index) j k) / 2 * s.u2 i j t (meshPoint grid index) =
      1 / 2 * ∑ j, (∑ k, vol t (meshPoint grid index) i k * vol t (meshPoint grid index) j k) * s.u2 i j t (meshPoint grid index) := by
    intro i
    rw [Finset.mul_sum]
    exact Finset.sum_congr rfl fun j _ => by ring
  simp_rw [e]
  ring

/-- C136: averages over paths of the Milstein sampler in one dimension converge to the solution of the backward equation. -/
theorem C136_milstein_sampler (drift vol gradVol : ℝ → ℝ → ℝ) (t K : ℝ) (hK : 0 ≤ K) (hdm : ∀ r, Measurable (drift r)) (hvm : ∀ r, Measurable (vol r))
    (hgm : ∀ r, Measurable (gradVol r)) (hd : ∀ r ∈ Icc 0 t, ∀ x, |drift r x| ≤ K * (1 + |x|)) (hv : ∀ r ∈ Icc 0 t, ∀ x, |vol r x| ≤ K * (1 + |x|))
    (hg : ∀ r ∈ Icc 0 t, ∀ x, |vol r x * gradVol r x| ≤ K * (1 + |x|)) (u : ℝ → (Fin 1 → ℝ) → ℝ)
    (s : BackwardSolution (fun r x _ => drift r (x 0)) (fun r x => fun _ _ => vol r (x 0) ^ 2) t u) (x0 : ℝ)
    (times : List ℝ) (tol last : ℝ) (hpos : ∀ t ∈ times, 0 < t) (hlast : times.getLast? = some last) (hinc : times.Pairwise (· < ·)) (j : ℕ) (hj : times[j]? = some t) :
    ∃ v : ℕ → ℝ, Tendsto v atTop (𝓝 (u 0 (fun _ => x0))) ∧
      ∀ᶠ N : ℕ in atTop, ∃ all mask indices, prepareGrid times (last / N) tol (some N) none = some (all, mask, indices) ∧
        ∀ (Ω : Type) (_ : MeasurableSpace Ω) (P : Measure Ω) (D : ℕ → Ω → Fin (all.length - 1) → ℝ), PathDraws P (Measure.pi fun _ => gaussianReal 0 1) D →
          ∀ᵐ ω ∂P, Tendsto (fun n : ℕ => (∑ p ∈ Finset.range n, u t (fun _ => ((whileSample (milsteinStepOne drift vol gradVol) times.length all mask x0
            (List.ofFn (D p ω))).getD j none).getD 0)) / n) atTop (𝓝 (v N)) := by
  have ht : 0 < t := hpos t (List.mem_of_getElem? hj)
  obtain ⟨A, hA, h⟩ := weak_sampler_limit _ _ _ _ t ht (milsteinWeakStep drift vol gradVol t K hK hdm hvm hgm hd hv hg) u s (fun _ => x0)
  refine sampler_limit (gaussianReal 0 1) (milsteinStepOne drift vol gradVol) x0 0 (fun y => u t (fun _ => y)) times tol last hpos hlast hinc j t hj _ ?_
  intro ε hε
  obtain ⟨δ, hδ, hs⟩ := sqrt_small A ε hε
  refine ⟨δ, hδ, fun ts i h1 h2 h3 h4 => ?_⟩
  obtain ⟨r1, r2, r3⟩ := h δ ts i h1 h2 h3 h4
  have e : ∀ z : Fin ts.length → ℝ, (schemeStates (milsteinVector drift vol gradVol) 0 (fun _ => x0) ts (List.ofFn z)).getD (i + 1) 0 =
      fun _ => (schemeStates (milsteinStepOne drift vol gradVol) 0 x0 ts (List.ofFn z)).getD (i + 1) 0 := by
    intro z
    rw [milstein_states, List.getD_eq_getElem?_getD, List.getD_eq_getElem?_getD, List.getElem?_map]
    cases (schemeStates (milsteinStepOne drift vol gradVol) 0 x0 ts (List.ofFn z))[i + 1]? <;> rfl
  simp_rw [e] at r1 r2 r3
  exact ⟨r1, r2, r3.trans hs⟩

/-! ## Example: means of mean reverting processes -/

/-- The mean of a component that reverts to a level, as a solution of the backward equation; the volatility does not matter. -/
noncomputable def meanSolution {d : ℕ} (κ θ : Fin d → ℝ) (a : ℝ → (Fin d → ℝ) → Matrix (Fin d) (Fin d) ℝ) (T : ℝ) (k : Fin d) :
    BackwardSolution (fun _ x i => κ i * (θ i - x i)) a T (fun t x => θ k + (x k - θ k) * Real.exp (-κ k * (T - t))) where
  ut t x := κ k * (x k - θ k) * Real.exp (-κ k * (T - t))
  utt t x := κ k ^ 2 * (x k - θ k) * Real.exp (-κ k * (T - t))
  u1 i t _ := if i = k then Real.exp (-κ k * (T - t)) else 0
  u2 _ _ _ _ := 0
  u3 _ _ _ _ _ := 0
  time1 x t _ := by
    have h : HasDerivAt (fun s : ℝ => -κ k * (T - s)) (κ k) t := (((hasDerivAt_id t).const_sub T).const_mul (-κ k)).congr_deriv (by ring)
    exact (((h.exp.const_mul (x k - θ k)).const_add (θ k)).congr_deriv (by ring)).hasDerivWithinAt
  time2 x t _ := by
    have h : HasDerivAt (fun s : ℝ => -κ k * (T - s)) (κ k) t := (((hasDerivAt_id t).const_sub T).const_mul (-κ k)).congr_deriv (by ring)
    exact ((h.exp.const_mul (κ k * (x k - θ k))).congr_deriv (by ring)).hasDerivWithinAt
  space1 t _ x := by
    have h := ((hasFDerivAt_apply (𝕜 := ℝ) k x).sub_const (θ k)).mul_const (Real.exp (-κ k * (T - t)))
    refine (h.const_add (θ k)).congr_fderiv ?_
    simp
  space2 i t _ x := by
    simp only [zero_smul, Finset.sum_const_zero]
    exact hasFDerivAt_const _ _
  space3 i j t _ x := by
    simp only [zero_smul, Finset.sum_const_zero]
    exact hasFDerivAt_const _ _
  C := |θ k| + (1 + κ k ^ 2) * ((1 + |θ k|) * Real.exp (|κ k| * T))
  m := 1
  bound0 t ht x := by
    have hx : |x k| ≤ ‖x‖ := by rw [← Real.norm_eq_abs]; exact norm_le_pi_norm x k
    have he : Real.exp (-κ k * (T - t)) ≤ Real.exp (|κ k| * T) := by
      refine Real.exp_le_exp.2 ?_
      have h1 := neg_abs_le (κ k)
      have h2 := abs_nonneg (κ k)
      nlinarith [ht.1, ht.2]
    have h1 : |x k - θ k| ≤ (1 + |θ k|) * (1 + ‖x‖) := by
      refine (abs_sub _ _).trans ?_
      nlinarith [norm_nonneg x, abs_nonneg (θ k)]
    have h2 : |(x k - θ k) * Real.exp (-κ k * (T - t))| ≤ (1 + |θ k|) * (1 + ‖x‖) * Real.exp (|κ k| * T) := by
      rw [abs_mul, abs_of_pos (Real.exp_pos _)]
      exact mul_le_mul h1 he (Real.exp_pos _).le (by positivity)
    refine (abs_add_le _ _).trans ?_
    have h3 : |θ k| ≤ |θ k| * (1 + ‖x‖) := le_mul_of_one_le_right (abs_nonneg _) (by linarith [norm_nonneg x])
    have h4 : 0 ≤ κ k ^ 2 * ((1 + |θ k|) * Real.exp (|κ k| * T)) * (1 + ‖x‖) := by positivity
    rw [pow_one]
    nlinarith
  boundt t ht x := by
    have hx : |x k| ≤ ‖x‖ := by rw [← Real.norm_eq_abs]; exact norm_le_pi_norm x k
    have he : Real.exp (-κ k * (T - t)) ≤ Real.exp (|κ k| * T) := by
      refine Real.exp_le_exp.2 ?_
      have h1 := neg_abs_le (κ k)
      have h2 := abs_nonneg (κ k)
      nlinarith [ht.1, ht.2]
    have h1 : |x k - θ k| ≤ (1 + |θ k|) * (1 + ‖x‖) := by
      refine (abs_sub _ _).trans ?_
      nlinarith [norm_nonneg x, abs_nonneg (θ k)]
    rw [abs_mul, abs_mul, abs_of_pos (Real.exp_pos _), abs_of_nonneg (sq_nonneg (κ k)), pow_one]
    have h2 : κ k ^ 2 * |x k - θ k| * Real.exp (-κ k * (T - t)) ≤ κ k ^ 2 * ((1 + |θ k|) * (1 + ‖x‖)) * Real.exp (|κ k| * T) :=
      mul_le_mul (mul_le_mul_of_nonneg_left h1 (sq_nonneg _)) he (Real.exp_pos _).le (by positivity)
    refine h2.trans ?_
    have h3 : 0 ≤ |θ k| * (1 + ‖x‖) := by positivity
    have h4 : 0 ≤ ((1 + |θ k|) * Real.exp (|κ k| * T)) * (1 + ‖x‖) := by positivity
    nlinarith
  bound2 i j t ht x := by rw [abs_zero]; positivity
  bound3 i j l t ht x := by rw [abs_zero]; positivity
  equation t ht x := by
    simp
    ring

/-- C136: the means of components that revert to a level are reproduced in the limit, whatever the volatility. -/
theorem C136_euler_mean {d : ℕ} (κ θ : Fin d → ℝ) (vol : ℝ → (Fin d → ℝ) → Matrix (Fin d) (Fin d) ℝ) (t K : ℝ) (hvm : ∀ r i j, Measurable (fun x => vol r x i j))
    (hv : ∀ r ∈ Icc 0 t, ∀ x i j, |vol r x i j| ≤ K * (1 + ‖x‖)) (k : Fin d) (x0 : Fin d → ℝ) (times : List ℝ) (tol last : ℝ) (hpos : ∀ t ∈ times, 0 < t)
    (hlast : times.getLast? = some last) (hinc : times.Pairwise (· < ·)) (j : ℕ) (hj : times[j]? = some t) :
    ∃ v : ℕ → ℝ, Tendsto v atTop (𝓝 (θ k + (x0 k - θ k) * Real.exp (-κ k * t))) ∧
      ∀ᶠ N : ℕ in atTop, ∃ all mask indices, prepareGrid times (last / N) tol (some N) none = some (all, mask, indices) ∧
        ∀ (Ω : Type) (_ : MeasurableSpace Ω) (P : Measure Ω) (D : ℕ → Ω → Fin (all.length - 1) → Fin d → ℝ), PathDraws P (stepNormals (all.length - 1) d) D →
          ∀ᵐ ω ∂P, Tendsto (fun n : ℕ => (∑ p ∈ Finset.range n, (((whileSample (eulerStep (fun _ x i => κ i * (θ i - x i)) vol) times.length all mask x0
            (List.ofFn (D p ω))).getD j none).getD 0) k) / n) atTop (𝓝 (v N)) := by
  set B := |K| + ∑ i, |κ i| * (1 + |θ i|) with hB
  have hsum : 0 ≤ ∑ i, |κ i| * (1 + |θ i|) := Finset.sum_nonneg fun i _ => by positivity
  have hB0 : 0 ≤ B := by positivity
  have h := C136_euler_sampler (fun _ x i => κ i * (θ i - x i)) vol t B hB0 (fun r => by fun_prop) hvm
    (fun r _ x i => by
      have hx : |x i| ≤ ‖x‖ := by rw [← Real.norm_eq_abs]; exact norm_le_pi_norm x i
      have h1 : |θ i - x i| ≤ (1 + |θ i|) * (1 + ‖x‖) := by
        refine (abs_sub _ _).trans ?_
        nlinarith [norm_nonneg x, abs_nonneg (θ i)]
      rw [abs_mul]
      have h2 := Finset.single_le_sum (f := fun i => |κ i| * (1 + |θ i|)) (fun i _ => by positivity) (Finset.mem_univ i)
      calc |κ i| * |θ i - x i| ≤ |κ i| * ((1 + |θ i|) * (1 + ‖x‖)) := mul_le_mul_of_nonneg_left h1 (abs_nonneg _)
        _ = |κ i| * (1 + |θ i|) * (1 + ‖x‖) := by ring
        _ ≤ B * (1 + ‖x‖) := mul_le_mul_of_nonneg_right (by rw [hB]; exact h2.trans (by linarith [abs_nonneg K])) (by positivity))
    (fun r hr x i l => (hv r hr x i l).trans (mul_le_mul_of_nonneg_right (by rw [hB]; linarith [le_abs_self K]) (by positivity)))
    (fun r x => θ k + (x k - θ k) * Real.exp (-κ k * (t - r))) (meanSolution κ θ _ t k) x0 times tol last hpos hlast hinc j hj
  simpa using h

/-- For a square root volatility, as in the models of Cox, Ingersoll and Ross and of Heston, the simulated means at time 1 converge to the mean of the process. -/
example (x0 : Fin 1 → ℝ) : ∃ v : ℕ → ℝ, Tendsto v atTop (𝓝 (3 + (x0 0 - 3) * Real.exp (-2 * 1))) := by
  obtain ⟨v, hv, _⟩ := C136_euler_mean (fun _ => 2) (fun _ => 3) (fun _ x => fun _ _ => Real.sqrt |x 0|) 1 1 (fun _ _ _ => by fun_prop) (fun r _ x i j => by
    have hx : |x 0| ≤ ‖x‖ := by rw [← Real.norm_eq_abs]; exact norm_le_pi_norm x 0
    rw [abs_of_nonneg (Real.sqrt_nonneg _), one_mul]
    refine (Real.sqrt_le_iff).2 ⟨by positivity, ?_⟩
    nlinarith [norm_nonneg x]) 0 x0 [1] 0 1 (by simp) (by simp) (by simp) 0 (by simp)
  exact ⟨v, hv⟩

end Props
