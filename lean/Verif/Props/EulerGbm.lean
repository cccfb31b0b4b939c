import Verif.Model.SchemeSteps
import Verif.Lemmas.GbmSchemes
import Verif.Props.Sampling
import Verif.Props.Gbm
import Mathlib.Topology.MetricSpace.Lipschitz

/-! # C133 The Euler scheme for geometric Brownian motion converges to the exact process -/

namespace Spec
open MeasureTheory ProbabilityTheory

/-- Random numbers for paths: one value for each path, independent of each other, each with the given law. -/
structure PathDraws {Ω E : Type} [MeasurableSpace Ω] [MeasurableSpace E] (P : Measure Ω) (ν : Measure E) (D : ℕ → Ω → E) : Prop where
  measurable : ∀ k, Measurable (D k)
  law : ∀ k, P.map (D k) = ν
  independent : Pairwise fun k l => IndepFun (D k) (D l) P

/-- Independent standard normal numbers for `n` steps of a process in `d` dimensions. -/
noncomputable def stepNormals (n d : ℕ) : Measure (Fin n → Fin d → ℝ) := Measure.pi fun _ => Measure.pi fun _ => gaussianReal 0 1

instance (n d : ℕ) : IsProbabilityMeasure (stepNormals n d) := by unfold stepNormals; infer_instance

end Spec

namespace Lemmas
open Model Spec MeasureTheory ProbabilityTheory Filter Topology
open scoped BigOperators

/-- Averages of a function of the drawn values converge. -/
theorem path_average {Ω E : Type} [MeasurableSpace Ω] [MeasurableSpace E] (P : Measure Ω) (ν : Measure E) (D : ℕ → Ω → E) (hD : PathDraws P ν D) (g : E → ℝ)
    (hg : Measurable g) (hi : Integrable g ν) :
    ∀ᵐ ω ∂P, Tendsto (fun n : ℕ => (∑ k ∈ Finset.range n, g (D k ω)) / n) atTop (𝓝 (∫ z, g z ∂ν)) := by
  have h1 : Integrable (fun ω => g (D 0 ω)) P := by
    rw [← hD.law 0] at hi
    exact hi.comp_measurable (hD.measurable 0)
  have h2 := strong_law_ae_real (μ := P) (fun k ω => g (D k ω)) h1 (fun k l hkl => (hD.independent hkl).comp hg hg) (fun k => by
    refine (IdentDistrib.comp (u := g) ⟨(hD.measurable k).aemeasurable, (hD.measurable 0).aemeasurable, ?_⟩ hg)
    rw [hD.law, hD.law])
  have h3 : ∫ ω, g (D 0 ω) ∂P = ∫ z, g z ∂ν := by
    rw [← hD.law 0, integral_map (hD.measurable 0).aemeasurable hg.aestronglyMeasurable]
  rwa [h3] at h2

/-! ## States as products -/

theorem states_product {S Z : Type} (step : ℝ → ℝ → S → Z → S) (φ : S → ℝ) (g : ℝ → ℝ → Z → ℝ)
    (hstep : ∀ (t dt : ℝ) (x : S) (z : Z), 0 ≤ dt → φ (step t dt x z) = φ x * g t dt z) (z0 : Z) (s0 : S)
    (t : ℝ) (ts : List ℝ) (hs : (t :: ts).Pairwise (· ≤ ·)) (x : S) (draws : List Z) (hd : draws.length = ts.length) (i : ℕ) (hi : i ≤ ts.length) :
    φ ((schemeStates step t x ts draws).getD i s0) =
      φ x * ∏ j ∈ Finset.range i, g ((t :: ts).getD (j + 1) 0) ((t :: ts).getD (j + 1) 0 - (t :: ts).getD j 0) (draws.getD j z0) := by
  have hl := schemeStates_length step t x ts draws hd
  induction i with
  | zero =>
    have h0 := schemeStates_head step t x ts draws
    rw [List.getD_eq_getElem?_getD, h0]
    simp
  | succ i ih =>
    have h1 := schemeStates_step step t x ts draws hd i (by omega) _ (some_getD _ i s0 (by omega)) _ (some_getD draws i z0 (by omega))
    have hdt : 0 ≤ (t :: ts).getD (i + 1) 0 - (t :: ts).getD i 0 := by
      have := getD_mono _ hs i (i + 1) (by omega) (by simp; omega)
      linarith
    rw [List.getD_eq_getElem?_getD, h1, Option.getD_some, hstep _ _ _ _ hdt, ih (by omega), Finset.prod_range_succ, mul_assoc]

theorem ofFn_prod {E : Type} {n : ℕ} (z : Fin n → E) (z0 : E) (G : ℕ → E → ℝ) (i : ℕ) (hi : i ≤ n) :
    ∏ j ∈ Finset.range i, G j ((List.ofFn z).getD j z0) = ∏ k : Fin n, if k.1 < i then G k.1 (z k) else 1 := by
  have e : ∀ k : Fin n, (if k.1 < i then G k.1 (z k) else 1) = (fun j => if j < i then G j ((List.ofFn z).getD j z0) else 1) k.1 := by
    intro k
    have : (List.ofFn z).getD k.1 z0 = z k := by
      rw [List.getD_eq_getElem _ _ (by rw [List.length_ofFn]; exact k.2), List.getElem_ofFn]
    beta_reduce
    rw [this]
  simp_rw [e]
  rw [Fin.prod_univ_eq_prod_range (fun j => if j < i then G j ((List.ofFn z).getD j z0) else 1) n, ← Finset.prod_filter]
  congr 1
  ext j
  simp only [Finset.mem_filter, Finset.mem_range]
  omega

theorem product_measurable {S Z : Type} [MeasurableSpace Z] (step : ℝ → ℝ → S → Z → S) (φ : S → ℝ) (g : ℝ → ℝ → Z → ℝ)
    (hstep : ∀ (t dt : ℝ) (x : S) (z : Z), 0 ≤ dt → φ (step t dt x z) = φ x * g t dt z) (hg : ∀ t dt, Measurable (g t dt)) (z0 : Z) (s0 : S)
    (ts : List ℝ) (hs : (0 :: ts).Pairwise (· ≤ ·)) (x : S) (i : ℕ) (hi : i ≤ ts.length) :
    Measurable (fun z : Fin ts.length → Z => φ ((schemeStates step 0 x ts (List.ofFn z)).getD i s0)) := by
  have e : (fun z : Fin ts.length → Z => φ ((schemeStates step 0 x ts (List.ofFn z)).getD i s0)) = fun z => φ x * ∏ m : Fin ts.length, if m.1 < i then
      g ((0 :: ts).getD (m.1 + 1) 0) ((0 :: ts).getD (m.1 + 1) 0 - (0 :: ts).getD m.1 0) (z m) else 1 := by
    funext z
    rw [states_product step φ g hstep z0 s0 0 ts hs x (List.ofFn z) (by simp) i hi,
      ofFn_prod z z0 (fun q y => g ((0 :: ts).getD (q + 1) 0) ((0 :: ts).getD (q + 1) 0 - (0 :: ts).getD q 0) y) i hi]
  rw [e]
  refine measurable_const.mul (Finset.measurable_prod _ fun m _ => ?_)
  by_cases h : m.1 < i
  · simp only [if_pos h]
    exact (hg _ _).comp (measurable_pi_apply m)
  · simp only [if_neg h]; exact measurable_const

theorem growth_none (θ z : ℝ) : growth θ 0 0 z = 1 := by simp [growth]

theorem exactGrowth_none (z : ℝ) : exactGrowth 0 0 z = 1 := by simp [exactGrowth]

/-- The mean square distance of scheme and process on a grid, when both are driven by the first normal numbers of a longer list. -/
theorem grid_distance {E : Type} [MeasurableSpace E] (μ : Measure E) [IsProbabilityMeasure μ] (ξ : E → ℝ) (hξ : Measurable ξ) (hlaw : μ.map ξ = gaussianReal 0 1)
    (θ : ℝ) (hθ : 0 ≤ θ) (hθ1 : θ ≤ 1) (m s t : ℕ → ℝ) (n i : ℕ) (hi : i ≤ n) (A δ : ℝ) (hA : 0 ≤ A) (hm : ∀ j < i, |m j| ≤ A) (hs : ∀ j < i, s j ^ 2 ≤ A)
    (hmono : ∀ j < i, t j ≤ t (j + 1)) (hstep : ∀ j < i, t (j + 1) - t j ≤ δ) (hδ : 3 * (A * δ) ≤ 1) (z0 : E) :
    MemLp (fun z : Fin n → E => ∏ j ∈ Finset.range i, growth θ (m j * (t (j + 1) - t j)) (s j * Real.sqrt (t (j + 1) - t j)) (ξ ((List.ofFn z).getD j z0))) 2
      (Measure.pi fun _ => μ) ∧
    MemLp (fun z : Fin n → E => ∏ j ∈ Finset.range i, exactGrowth (m j * (t (j + 1) - t j)) (s j * Real.sqrt (t (j + 1) - t j)) (ξ ((List.ofFn z).getD j z0))) 2
      (Measure.pi fun _ => μ) ∧
    ∫ z : Fin n → E, (∏ j ∈ Finset.range i, growth θ (m j * (t (j + 1) - t j)) (s j * Real.sqrt (t (j + 1) - t j)) (ξ ((List.ofFn z).getD j z0)) -
        ∏ j ∈ Finset.range i, exactGrowth (m j * (t (j + 1) - t j)) (s j * Real.sqrt (t (j + 1) - t j)) (ξ ((List.ofFn z).getD j z0))) ^ 2 ∂(Measure.pi fun _ => μ) ≤
      3 * Real.exp (3 * A * (t i - t 0)) * (Real.exp (32 * A ^ 2 * δ * (t i - t 0)) - 1) := by
  set a : Fin n → ℝ := fun k => if k.1 < i then m k * (t (k.1 + 1) - t k) else 0 with ha
  set b : Fin n → ℝ := fun k => if k.1 < i then s k * Real.sqrt (t (k.1 + 1) - t k) else 0 with hb
  set u : Fin n → ℝ := fun k => if k.1 < i then A * (t (k.1 + 1) - t k) else 0 with hu
  have e1 : ∀ z : Fin n → E, ∏ j ∈ Finset.range i, growth θ (m j * (t (j + 1) - t j)) (s j * Real.sqrt (t (j + 1) - t j)) (ξ ((List.ofFn z).getD j z0)) =
      ∏ k, growth θ (a k) (b k) (ξ (z k)) := by
    intro z
    rw [ofFn_prod z z0 (fun j y => growth θ (m j * (t (j + 1) - t j)) (s j * Real.sqrt (t (j + 1) - t j)) (ξ y)) i hi]
    refine Finset.prod_congr rfl fun k _ => ?_
    simp only [ha, hb]
    by_cases h : k.1 < i
    · simp only [if_pos h]
    · simp only [if_neg h, growth_none]
  have e2 : ∀ z : Fin n → E, ∏ j ∈ Finset.range i, exactGrowth (m j * (t (j + 1) - t j)) (s j * Real.sqrt (t (j + 1) - t j)) (ξ ((List.ofFn z).getD j z0)) =
      ∏ k, exactGrowth (a k) (b k) (ξ (z k)) := by
    intro z
    rw [ofFn_prod z z0 (fun j y => exactGrowth (m j * (t (j + 1) - t j)) (s j * Real.sqrt (t (j + 1) - t j)) (ξ y)) i hi]
    refine Finset.prod_congr rfl fun k _ => ?_
    simp only [ha, hb]
    by_cases h : k.1 < i
    · simp only [if_pos h]
    · simp only [if_neg h, exactGrowth_none]
  simp_rw [e1, e2]
  have h1 : ∀ k, |a k| ≤ u k := by
    intro k
    simp only [ha, hu]
    by_cases h : k.1 < i
    · simp only [if_pos h]
      have := hmono k h
      rw [abs_mul, abs_of_nonneg (a := t (k.1 + 1) - t k) (by linarith)]
      exact mul_le_mul_of_nonneg_right (hm k h) (by linarith)
    · simp only [if_neg h, abs_zero, le_refl]
  have h2 : ∀ k, b k ^ 2 ≤ u k := by
    intro k
    simp only [hb, hu]
    by_cases h : k.1 < i
    · simp only [if_pos h]
      have := hmono k h
      rw [mul_pow, Real.sq_sqrt (by linarith)]
      exact mul_le_mul_of_nonneg_right (hs k h) (by linarith)
    · simp only [if_neg h]; norm_num
  have h3 : ∀ k, 3 * u k ≤ 1 := by
    intro k
    simp only [hu]
    by_cases h : k.1 < i
    · simp only [if_pos h]
      have := mul_le_mul_of_nonneg_left (hstep k h) hA
      linarith
    · simp only [if_neg h]; norm_num
  obtain ⟨r1, r2, r3⟩ := scheme_distance μ ξ hξ hlaw θ hθ hθ1 a b u h1 h2 h3
  refine ⟨r1, r2, r3.trans ?_⟩
  have key : ∀ g : ℕ → ℝ, ∑ k : Fin n, (if k.1 < i then g k.1 else 0) = ∑ j ∈ Finset.range i, g j := by
    intro g
    rw [Fin.sum_univ_eq_sum_range (fun j => if j < i then g j else 0) n, ← Finset.sum_filter]
    congr 1
    ext j
    simp only [Finset.mem_filter, Finset.mem_range]
    omega
  have hsum : ∑ j ∈ Finset.range i, (t (j + 1) - t j) = t i - t 0 := Finset.sum_range_sub t i
  have b1 : ∑ k, (2 * a k + b k ^ 2) ≤ 3 * A * (t i - t 0) := by
    have : ∑ k, (2 * a k + b k ^ 2) ≤ ∑ k, 3 * u k := Finset.sum_le_sum fun k _ => by
      have := (abs_le.1 (h1 k)).2
      have := h2 k
      linarith
    refine this.trans (le_of_eq ?_)
    rw [← Finset.mul_sum, hu, key (fun j => A * (t (j + 1) - t j)), ← Finset.mul_sum, hsum]
    ring
  have b2 : ∑ k, 32 * u k ^ 2 ≤ 32 * A ^ 2 * δ * (t i - t 0) := by
    have e : ∀ k : Fin n, 32 * u k ^ 2 = if k.1 < i then 32 * (A * (t (k.1 + 1) - t k)) ^ 2 else 0 := by
      intro k
      simp only [hu]
      by_cases h : k.1 < i
      · simp only [if_pos h]
      · simp only [if_neg h]; norm_num
    simp_rw [e]
    rw [key (fun j => 32 * (A * (t (j + 1) - t j)) ^ 2), ← hsum, Finset.mul_sum]
    refine Finset.sum_le_sum fun j hj => ?_
    rw [Finset.mem_range] at hj
    have h4 := hmono j hj
    have h5 := mul_le_mul_of_nonneg_right (hstep j hj) (show 0 ≤ t (j + 1) - t j by linarith)
    have := mul_le_mul_of_nonneg_left h5 (show 0 ≤ 32 * A ^ 2 by positivity)
    linarith
  have h4 := Real.exp_le_exp.2 b1
  have h5 := Real.exp_le_exp.2 b2
  have h6 : 1 ≤ Real.exp (∑ k, 32 * u k ^ 2) := Real.one_le_exp (Finset.sum_nonneg fun k _ => by positivity)
  exact mul_le_mul (by linarith) (by linarith) (by linarith) (by positivity)

/-! ## The multivariate process -/

section
variable {d : ℕ}

/-- The value of the exact sampler. -/
theorem multiGbmPath_get (means vols : Fin d → ℝ) (cholesky : Option (Matrix (Fin d) (Fin d) ℝ)) (x0 : Fin d → ℝ) (times : List ℝ) (draws : List (Fin d → ℝ))
    (hd : draws.length = times.length) (k : Fin d) (j : ℕ) (hj : j < times.length) :
    (multiGbmPath means vols cholesky x0 times draws k)[j]? = some (x0 k * Real.exp (∑ i ∈ Finset.range (j + 1),
      ((means k - vols k ^ 2 / 2) * ((0 :: times).getD (i + 1) 0 - (0 :: times).getD i 0) +
        Real.sqrt ((0 :: times).getD (i + 1) 0 - (0 :: times).getD i 0) * vols k * stochasticIncrement cholesky (draws.getD i 0) k))) := by
  set t : ℕ → ℝ := fun i => (0 :: times).getD i 0 with ht
  unfold multiGbmPath
  simp only
  set dt := List.zipWith (fun a b => a - b) (0 :: times).tail (0 :: times).dropLast with hdt
  set incs := List.zipWith (fun dt z => (means k - vols k ^ 2 / 2) * dt + Real.sqrt dt * vols k * stochasticIncrement cholesky z k) dt draws with hincs
  have hdl : dt.length = times.length := by rw [hdt]; simp
  have hlen : incs.length = times.length := by rw [hincs]; simp [hd, hdl]
  rw [List.getElem?_map, matVec_lower incs j (by omega), Option.map_some, take_sum incs (j + 1) (by omega)]
  congr 3
  apply Finset.sum_congr rfl
  intro i hi
  rw [Finset.mem_range] at hi
  have hdi : dt[i]? = some (t (i + 1) - t i) := by
    rw [hdt, List.getElem?_zipWith]
    have h1 : (0 :: times).tail[i]? = some (t (i + 1)) := by
      simp only [List.tail_cons, ht, List.getD_cons_succ]
      exact getD_some times i (by omega)
    have h2 : (0 :: times).dropLast[i]? = some (t i) := by
      rw [List.getElem?_dropLast]
      simp only [List.length_cons, Nat.add_sub_cancel]
      rw [if_pos (by omega)]
      exact getD_some _ i (by simp; omega)
    rw [h1, h2]
  apply getD_of_some incs i _
  rw [hincs, List.getElem?_zipWith, hdi, some_getD draws i 0 (by omega)]

/-- Each component of the correlated draws is a standard normal number. -/
theorem increment_law (cholesky : Option (Matrix (Fin d) (Fin d) ℝ)) (hunit : ∀ L, cholesky = some L → ∀ k, ∑ m, L k m ^ 2 = 1) (k : Fin d) :
    Measurable (fun z : Fin d → ℝ => stochasticIncrement cholesky z k) ∧
    (Measure.pi fun _ : Fin d => gaussianReal 0 1).map (fun z => stochasticIncrement cholesky z k) = gaussianReal 0 1 := by
  obtain ⟨w, hw, he⟩ : ∃ w : Fin d → ℝ, ∑ m, w m ^ 2 = 1 ∧ ∀ z, stochasticIncrement cholesky z k = 0 + ∑ m, w m * z m := by
    cases cholesky with
    | none =>
      refine ⟨Pi.single k 1, ?_, fun z => ?_⟩
      · simp [Pi.single_apply]
      · simp [stochasticIncrement, Pi.single_apply]
    | some L => exact ⟨L k, hunit L rfl k, fun z => by simp [stochasticIncrement, Matrix.mulVec, dotProduct]⟩
  have e : (fun z : Fin d → ℝ => stochasticIncrement cholesky z k) = fun z => 0 + ∑ m, w m * z m := funext he
  rw [e]
  refine ⟨by fun_prop, ?_⟩
  rw [pi_linear_law 0 w, hw]
  simp

/-- One Euler step of a component. -/
theorem euler_growth (means vols : Fin d → ℝ) (cholesky : Option (Matrix (Fin d) (Fin d) ℝ)) (t dt : ℝ) (x z : Fin d → ℝ) (k : Fin d) :
    eulerStep (fun _ x => multiGbmDrift means x) (fun _ x => multiGbmVolatility vols cholesky x) t dt x z k =
      x k * growth 0 (means k * dt) (vols k * Real.sqrt dt) (stochasticIncrement cholesky z k) := by
  have h : (multiGbmVolatility vols cholesky x).mulVec (fun j => z j * Real.sqrt dt) k = vols k * x k * Real.sqrt dt * stochasticIncrement cholesky z k := by
    cases cholesky with
    | none => simp [multiGbmVolatility, stochasticIncrement, Matrix.mulVec, dotProduct]; ring
    | some L =>
      simp only [multiGbmVolatility, stochasticIncrement, Matrix.mulVec, dotProduct, Matrix.of_apply, Finset.mul_sum]
      exact Finset.sum_congr rfl fun m _ => by ring
  simp only [eulerStep, h, multiGbmDrift, growth]
  ring

/-- The value of the exact sampler as a product. -/
theorem multiGbmPath_product (means vols : Fin d → ℝ) (cholesky : Option (Matrix (Fin d) (Fin d) ℝ)) (x0 : Fin d → ℝ) (times : List ℝ)
    (hs : (0 :: times).Pairwise (· ≤ ·)) (draws : List (Fin d → ℝ)) (hd : draws.length = times.length) (k : Fin d) (j : ℕ) (hj : j < times.length) :
    (multiGbmPath means vols cholesky x0 times draws k).getD j 0 = x0 k * ∏ i ∈ Finset.range (j + 1),
      exactGrowth (means k * ((0 :: times).getD (i + 1) 0 - (0 :: times).getD i 0)) (vols k * Real.sqrt ((0 :: times).getD (i + 1) 0 - (0 :: times).getD i 0))
        (stochasticIncrement cholesky (draws.getD i 0) k) := by
  rw [List.getD_eq_getElem?_getD, multiGbmPath_get means vols cholesky x0 times draws hd k j hj, Option.getD_some, Real.exp_sum]
  congr 1
  refine Finset.prod_congr rfl fun i hi => ?_
  rw [Finset.mem_range] at hi
  have hnn : 0 ≤ (0 :: times).getD (i + 1) 0 - (0 :: times).getD i 0 := by
    have := getD_mono _ hs i (i + 1) (by omega) (by simp; omega)
    linarith
  unfold exactGrowth
  congr 1
  rw [mul_pow, Real.sq_sqrt hnn]
  ring

/-- Draws in proportion to the square roots of the steps add up to the logarithm of the exact process. -/
noncomputable def logMap (means vols : Fin d → ℝ) (cholesky : Option (Matrix (Fin d) (Fin d) ℝ)) (x0 : Fin d → ℝ) (T : ℝ) (v : Fin d → ℝ) (k : Fin d) : ℝ :=
  x0 k * Real.exp ((means k - vols k ^ 2 / 2) * T + vols k * stochasticIncrement cholesky v k)

theorem logMap_continuous (means vols : Fin d → ℝ) (cholesky : Option (Matrix (Fin d) (Fin d) ℝ)) (x0 : Fin d → ℝ) (T : ℝ) : Continuous (logMap means vols cholesky x0 T) := by
  refine continuous_pi fun k => ?_
  unfold logMap
  cases cholesky with
  | none => simp only [stochasticIncrement]; fun_prop
  | some L => simp only [stochasticIncrement, Matrix.mulVec, dotProduct]; fun_prop

theorem increment_sum (cholesky : Option (Matrix (Fin d) (Fin d) ℝ)) (n : ℕ) (c : ℕ → ℝ) (v : ℕ → Fin d → ℝ) (k : Fin d) :
    ∑ j ∈ Finset.range n, c j * stochasticIncrement cholesky (v j) k = stochasticIncrement cholesky (fun m => ∑ j ∈ Finset.range n, c j * v j m) k := by
  cases cholesky with
  | none => simp [stochasticIncrement]
  | some L =>
    simp only [stochasticIncrement, Matrix.mulVec, dotProduct, Finset.mul_sum]
    rw [Finset.sum_comm]
    exact Finset.sum_congr rfl fun j _ => Finset.sum_congr rfl fun m _ => by ring

theorem ofFn_sum {n : ℕ} (z : Fin n → Fin d → ℝ) (c : ℕ → ℝ) (i : ℕ) (hi : i ≤ n) (m : Fin d) :
    ∑ j ∈ Finset.range i, c j * (List.ofFn z).getD j 0 m = ∑ k : Fin n, (if k.1 < i then c k.1 else 0) * z k m := by
  have e : ∀ k : Fin n, (if k.1 < i then c k.1 else 0) * z k m = (fun j => if j < i then c j * (List.ofFn z).getD j 0 m else 0) k.1 := by
    intro k
    have : (List.ofFn z).getD k.1 0 = z k := by
      rw [List.getD_eq_getElem _ _ (by rw [List.length_ofFn]; exact k.2), List.getElem_ofFn]
    beta_reduce
    rw [this]
    by_cases h : k.1 < i
    · simp only [if_pos h]
    · simp only [if_neg h, zero_mul]
  simp_rw [e]
  rw [Fin.sum_univ_eq_sum_range (fun j => if j < i then c j * (List.ofFn z).getD j 0 m else 0) n, ← Finset.sum_filter]
  congr 1
  ext j
  simp only [Finset.mem_filter, Finset.mem_range]
  omega

/-- The law of the exact sampler at a time does not depend on the grid. -/
theorem multiGbmPath_law (means vols : Fin d → ℝ) (cholesky : Option (Matrix (Fin d) (Fin d) ℝ)) (x0 : Fin d → ℝ) (ts : List ℝ) (hs : (0 :: ts).Pairwise (· ≤ ·))
    (i : ℕ) (hi : i < ts.length) (f : (Fin d → ℝ) → ℝ) (hf : Continuous f) :
    ∫ z : Fin ts.length → Fin d → ℝ, f (fun k => (multiGbmPath means vols cholesky x0 ts (List.ofFn z) k).getD i 0) ∂(stepNormals ts.length d) =
      ∫ z : Fin d → ℝ, f (fun k => (multiGbmPath means vols cholesky x0 [ts.getD i 0] [z] k).getD 0 0) ∂(Measure.pi fun _ => gaussianReal 0 1) := by
  set t : ℕ → ℝ := fun i => (0 :: ts).getD i 0 with ht
  have htel : ∑ j ∈ Finset.range (i + 1), (t (j + 1) - t j) = ts.getD i 0 := by
    rw [Finset.sum_range_sub]
    simp [ht]
  have hnn : ∀ j < i + 1, 0 ≤ t (j + 1) - t j := by
    intro j hj
    have := getD_mono _ hs j (j + 1) (by omega) (by simp; omega)
    exact sub_nonneg.2 this
  set s : Fin ts.length → ℝ := fun k => if k.1 < i + 1 then Real.sqrt (t (k.1 + 1) - t k.1) else 0 with hsdef
  have hsq : ∑ k, s k ^ 2 = ts.getD i 0 := by
    have e : ∀ k : Fin ts.length, s k ^ 2 = (fun j => if j < i + 1 then t (j + 1) - t j else 0) k.1 := by
      intro k
      simp only [hsdef]
      by_cases h : k.1 < i + 1
      · simp only [if_pos h]; exact Real.sq_sqrt (hnn _ h)
      · simp only [if_neg h]; norm_num
    simp_rw [e]
    rw [Fin.sum_univ_eq_sum_range (fun j => if j < i + 1 then t (j + 1) - t j else 0) ts.length, ← Finset.sum_filter, ← htel]
    congr 1
    ext j
    simp only [Finset.mem_filter, Finset.mem_range]
    omega
  have e1 : ∀ z : Fin ts.length → Fin d → ℝ, (fun k => (multiGbmPath means vols cholesky x0 ts (List.ofFn z) k).getD i 0) =
      logMap means vols cholesky x0 (ts.getD i 0) (fun m => ∑ j, s j * z j m) := by
    intro z
    funext k
    rw [List.getD_eq_getElem?_getD, multiGbmPath_get means vols cholesky x0 ts (List.ofFn z) (by simp) k i hi, Option.getD_some, Finset.sum_add_distrib, ← Finset.mul_sum, htel]
    unfold logMap
    congr 3
    have h1 : ∀ m, ∑ j, s j * z j m = ∑ j ∈ Finset.range (i + 1), Real.sqrt (t (j + 1) - t j) * (List.ofFn z).getD j 0 m := fun m =>
      (ofFn_sum z (fun j => Real.sqrt (t (j + 1) - t j)) (i + 1) hi m).symm
    simp_rw [h1]
    rw [← increment_sum cholesky (i + 1) (fun j => Real.sqrt (t (j + 1) - t j)) (fun j => (List.ofFn z).getD j 0) k, Finset.mul_sum]
    exact Finset.sum_congr rfl fun j _ => by ring
  have e2 : ∀ z : Fin d → ℝ, (fun k => (multiGbmPath means vols cholesky x0 [ts.getD i 0] [z] k).getD 0 0) =
      logMap means vols cholesky x0 (ts.getD i 0) (fun m => Real.sqrt (∑ j, s j ^ 2) * z m) := by
    intro z
    funext k
    rw [List.getD_eq_getElem?_getD, multiGbmPath_get means vols cholesky x0 [ts.getD i 0] [z] rfl k 0 (by simp), Option.getD_some, hsq]
    unfold logMap
    have h1 := increment_sum cholesky 1 (fun _ => Real.sqrt (ts.getD i 0)) (fun _ => z) k
    simp only [Finset.sum_range_one] at h1
    rw [← h1]
    simp
    left
    ring
  have hF : Continuous (fun v => f (logMap means vols cholesky x0 (ts.getD i 0) v)) := hf.comp (logMap_continuous means vols cholesky x0 _)
  simp_rw [e1, e2]
  have m1 : Measurable (fun (z : Fin ts.length → Fin d → ℝ) (m : Fin d) => ∑ j, s j * z j m) := by fun_prop
  have m2 : Measurable (fun (z : Fin d → ℝ) (m : Fin d) => Real.sqrt (∑ j, s j ^ 2) * z m) := by fun_prop
  have h1 := integral_map (μ := stepNormals ts.length d) m1.aemeasurable (f := fun v => f (logMap means vols cholesky x0 (ts.getD i 0) v)) hF.aestronglyMeasurable
  have h2 := integral_map (μ := Measure.pi fun _ : Fin d => gaussianReal 0 1) m2.aemeasurable (f := fun v => f (logMap means vols cholesky x0 (ts.getD i 0) v)) hF.aestronglyMeasurable
  rw [← h1, ← h2]
  unfold stepNormals
  rw [pi_combination_law s]

end

/-- Functions with bounded slopes are continuous and grow at most linearly. -/
theorem slope_continuous {d : ℕ} (f : (Fin d → ℝ) → ℝ) (K : ℝ) (hf : ∀ x y, |f x - f y| ≤ K * ∑ k, |x k - y k|) : Continuous f := by
  rw [continuous_iff_continuousAt]
  intro y
  unfold ContinuousAt
  have h1 : Tendsto (fun x : Fin d → ℝ => K * ∑ k, |x k - y k|) (𝓝 y) (𝓝 0) := by
    have : Continuous (fun x : Fin d → ℝ => K * ∑ k, |x k - y k|) := by fun_prop
    have h := this.tendsto y
    simpa using h
  have h2 := squeeze_zero (fun x => abs_nonneg (f x - f y)) (fun x => hf x y) h1
  rw [tendsto_iff_dist_tendsto_zero]
  simpa [Real.dist_eq] using h2

/-- The difference of the expectations of a function of two vectors. -/
theorem slope_gap {Ω : Type} [MeasurableSpace Ω] (P : Measure Ω) [IsProbabilityMeasure P] {d : ℕ} (f : (Fin d → ℝ) → ℝ) (K : ℝ)
    (hf : ∀ x y, |f x - f y| ≤ K * ∑ k, |x k - y k|) (hK : 0 ≤ K) (X Y : Ω → Fin d → ℝ) (hX : ∀ k, MemLp (fun ω => X ω k) 2 P) (hY : ∀ k, MemLp (fun ω => Y ω k) 2 P)
    (B : Fin d → ℝ) (hB : ∀ k, ∫ ω, (X ω k - Y ω k) ^ 2 ∂P ≤ B k) :
    Integrable (fun ω => f (X ω)) P ∧ Integrable (fun ω => f (Y ω)) P ∧ |∫ ω, f (X ω) ∂P - ∫ ω, f (Y ω) ∂P| ≤ K * ∑ k, Real.sqrt (B k) := by
  have hc := slope_continuous f K hf
  have hint : ∀ X : Ω → Fin d → ℝ, (∀ k, MemLp (fun ω => X ω k) 2 P) → Integrable (fun ω => f (X ω)) P := by
    intro X hX
    have hm : AEStronglyMeasurable X P := (aemeasurable_pi_iff.2 fun k => (hX k).aestronglyMeasurable.aemeasurable).aestronglyMeasurable
    have hi : Integrable (fun ω => |f 0| + K * ∑ k, |X ω k|) P :=
      (integrable_const _).add ((integrable_finsetSum _ fun k _ => ((hX k).integrable (by norm_num)).abs).const_mul K)
    refine hi.mono' (hc.comp_aestronglyMeasurable hm) (Eventually.of_forall fun ω => ?_)
    have h := hf (X ω) 0
    simp only [Pi.zero_apply, sub_zero] at h
    rw [Real.norm_eq_abs]
    have := abs_sub_abs_le_abs_sub (f (X ω)) (f 0)
    linarith
  have iX := hint X hX
  have iY := hint Y hY
  refine ⟨iX, iY, ?_⟩
  have hd : ∀ k, MemLp (fun ω => X ω k - Y ω k) 2 P := fun k => (hX k).sub (hY k)
  rw [← integral_sub iX iY]
  refine (abs_integral_le_integral_abs).trans ?_
  have i2 : Integrable (fun ω => K * ∑ k, |X ω k - Y ω k|) P := (integrable_finsetSum _ fun k _ => ((hd k).integrable (by norm_num)).abs).const_mul K
  refine (integral_mono (iX.sub iY).abs i2 fun ω => hf (X ω) (Y ω)).trans ?_
  rw [integral_const_mul, integral_finsetSum _ fun k _ => ((hd k).integrable (by norm_num)).abs]
  refine mul_le_mul_of_nonneg_left (Finset.sum_le_sum fun k _ => ?_) hK
  exact (mean_abs_le P _ (hd k)).trans (Real.sqrt_le_sqrt (hB k))

/-- The steps of the grid for a number of time steps. -/
theorem num_times_mesh (times all : List ℝ) (tol last : ℝ) (N : ℕ) (mask : List Bool) (indices : List Int) (hN : times.length + 2 ≤ N) (hpos : ∀ t ∈ times, 0 ≤ t)
    (hlast : times.getLast? = some last) (hle : ∀ t ∈ times, t ≤ last) (hg : prepareGrid times (last / N) tol (some N) none = some (all, mask, indices)) (j : ℕ)
    (hj : j + 1 < all.length) : all.getD (j + 1) 0 - all.getD j 0 ≤ last / (N - times.length - 1 : ℕ) := by
  have hl0 : 0 ≤ last := hpos last (List.mem_of_getLast? hlast)
  have hN0 : (0 : ℝ) < N := by exact_mod_cast (by omega : 0 < N)
  obtain ⟨all', mask', indices', g1, g2, _⟩ := Props.C39_num_times times (last / N) tol last N hpos hlast (by positivity) (div_le_self hl0 (by exact_mod_cast (by omega : 1 ≤ N)))
  rw [hg] at g1
  simp only [Option.some.injEq, Prod.mk.injEq] at g1
  obtain ⟨rfl, rfl, rfl⟩ := g1
  set q := N - times.length with hq
  have hq2 : 2 ≤ q := by omega
  set δ := last / ((q - 1 : ℕ) : ℝ) with hδ
  have hq1 : (0 : ℝ) < ((q - 1 : ℕ) : ℝ) := by exact_mod_cast (by omega : 0 < q - 1)
  have hall : all = 0 :: (tfLinspace (last / N) (last - last / N) q ++ times).insertionSort (· ≤ ·) := by
    unfold prepareGrid at hg
    obtain ⟨⟨a, ix⟩, h1, h2⟩ := Option.map_eq_some_iff.1 hg
    simp only [Prod.mk.injEq] at h2
    obtain ⟨rfl, _, _⟩ := h2
    unfold gridFromNumTimes at h1
    simp only [hlast, Option.bind_eq_bind, Option.bind_some, Option.pure_def, Option.some.injEq, Prod.mk.injEq] at h1
    exact h1.1.symm
  have hts : last / N ≤ δ := div_le_div_of_nonneg_left hl0 hq1 (by exact_mod_cast (by omega : q - 1 ≤ N))
  set h := (last - last / N - last / N) / ((max (q - 1) 1 : ℕ) : ℝ) with hh
  have hmax : max (q - 1) 1 = q - 1 := by omega
  have hstep : h ≤ δ := by
    rw [hh, hmax, hδ]
    exact div_le_div_of_nonneg_right (by have : 0 ≤ last / N := by positivity
                                         linarith) hq1.le
  have hmemU : ∀ k < q, last / N + (k : ℝ) * h ∈ all := by
    intro k hk
    rw [hall]
    refine List.mem_cons_of_mem _ ((List.mem_insertionSort _).2 (List.mem_append_left _ ?_))
    unfold tfLinspace
    exact List.mem_map.2 ⟨k, List.mem_range.2 hk, rfl⟩
  have hnn : ∀ x ∈ all, 0 ≤ x ∧ x ≤ last := by
    intro x hx
    rw [hall] at hx
    rcases List.mem_cons.1 hx with rfl | hx
    · exact ⟨le_rfl, hl0⟩
    · rw [List.mem_insertionSort] at hx
      rcases List.mem_append.1 hx with hx | hx
      · unfold tfLinspace at hx
        obtain ⟨k, hk, rfl⟩ := List.mem_map.1 hx
        rw [List.mem_range] at hk
        have e : (last - last / N - last / N) = h * ((q - 1 : ℕ) : ℝ) := by
          rw [hh, hmax, div_mul_cancel₀ _ hq1.ne']
        have hN2 : last / N * 2 ≤ last := by
          have : (2 : ℝ) ≤ N := by exact_mod_cast (by omega : 2 ≤ N)
          rw [div_mul_eq_mul_div, div_le_iff₀ hN0]
          nlinarith
        have hh0 : 0 ≤ h := by
          rw [hh, hmax]
          exact div_nonneg (by linarith) hq1.le
        have hk' : (k : ℝ) ≤ ((q - 1 : ℕ) : ℝ) := by exact_mod_cast (by omega : k ≤ q - 1)
        have h1 := mul_le_mul_of_nonneg_right hk' hh0
        have h2 : 0 ≤ last / N := by positivity
        have h3 : 0 ≤ (k : ℝ) * h := by positivity
        change 0 ≤ last / N + (k : ℝ) * h ∧ last / N + (k : ℝ) * h ≤ last
        constructor <;> linarith
      · exact ⟨hpos x hx, hle x hx⟩
  have hside : ∀ x ∈ all, x ≤ all.getD j 0 ∨ all.getD (j + 1) 0 ≤ x := by
    intro x hx
    obtain ⟨m, hm⟩ := List.getElem?_of_mem hx
    have hml : m < all.length := (List.getElem?_eq_some_iff.1 hm).1
    have hx' := getD_of_some _ _ _ hm
    rcases Nat.lt_or_ge j m with hc | hc
    · right
      rw [← hx']
      exact getD_mono _ g2 (j + 1) m (by omega) hml
    · left
      rw [← hx']
      exact getD_mono _ g2 m j hc (by omega)
  have hp0 : 0 ≤ all.getD j 0 := (hnn _ (List.mem_of_getElem? (getD_some all j (by omega)))).1
  have hq0 : all.getD (j + 1) 0 ≤ last := (hnn _ (List.mem_of_getElem? (getD_some all (j + 1) hj))).2
  by_contra hc
  rw [not_le] at hc
  have hU : ∀ k < q, last / N + (k : ℝ) * h ≤ all.getD j 0 := by
    intro k
    induction k with
    | zero =>
      intro hk
      rcases hside _ (hmemU 0 hk) with h1 | h1
      · exact h1
      · simp only [Nat.cast_zero, zero_mul, add_zero] at h1
        linarith
    | succ k ih =>
      intro hk
      have h2 := ih (by omega)
      rcases hside _ (hmemU (k + 1) hk) with h1 | h1
      · exact h1
      · push_cast at h1
        linarith
  have hfin := hU (q - 1) (by omega)
  have e : ((q - 1 : ℕ) : ℝ) * h = last - last / N - last / N := by
    rw [hh, hmax, mul_div_cancel₀ _ hq1.ne']
  rw [e] at hfin
  linarith

/-- Prices from a sampler with a number of time steps converge if the expectations of the states on fine grids do. -/
theorem sampler_limit {S Z : Type} [MeasurableSpace Z] (ν : Measure Z) (step : ℝ → ℝ → S → Z → S) (x0 s0 : S) (F : S → ℝ) (times : List ℝ) (tol last : ℝ)
    (hpos : ∀ t ∈ times, 0 < t) (hlast : times.getLast? = some last) (hinc : times.Pairwise (· < ·)) (j : ℕ) (t : ℝ) (hj : times[j]? = some t) (limit : ℝ)
    (H : ∀ ε > 0, ∃ δ > 0, ∀ (ts : List ℝ) (i : ℕ), (0 :: ts).Pairwise (· ≤ ·) → i < ts.length → ts.getD i 0 = t →
      (∀ q ≤ i, (0 :: ts).getD (q + 1) 0 - (0 :: ts).getD q 0 ≤ δ) →
      Measurable (fun z : Fin ts.length → Z => F ((schemeStates step 0 x0 ts (List.ofFn z)).getD (i + 1) s0)) ∧
      Integrable (fun z : Fin ts.length → Z => F ((schemeStates step 0 x0 ts (List.ofFn z)).getD (i + 1) s0)) (Measure.pi fun _ => ν) ∧
      |∫ z : Fin ts.length → Z, F ((schemeStates step 0 x0 ts (List.ofFn z)).getD (i + 1) s0) ∂(Measure.pi fun _ => ν) - limit| ≤ ε) :
    ∃ v : ℕ → ℝ, Tendsto v atTop (𝓝 limit) ∧
      ∀ᶠ N : ℕ in atTop, ∃ all mask indices, prepareGrid times (last / N) tol (some N) none = some (all, mask, indices) ∧
        ∀ (Ω : Type) (_ : MeasurableSpace Ω) (P : Measure Ω) (D : ℕ → Ω → Fin (all.length - 1) → Z), PathDraws P (Measure.pi fun _ => ν) D →
          ∀ᵐ ω ∂P, Tendsto (fun n : ℕ => (∑ p ∈ Finset.range n, F (((whileSample step times.length all mask x0 (List.ofFn (D p ω))).getD j none).getD s0)) / n) atTop (𝓝 (v N)) := by
  classical
  have hl0 : 0 < last := hpos last (List.mem_of_getLast? hlast)
  have ht0 : 0 < t := hpos t (List.mem_of_getElem? hj)
  have hle : ∀ s ∈ times, s ≤ last := by
    intro s hs
    obtain ⟨a, ha⟩ := List.getElem?_of_mem hs
    rw [List.getLast?_eq_getElem?] at hlast
    have hal : a < times.length := (List.getElem?_eq_some_iff.1 ha).1
    have := getD_mono _ (hinc.imp fun h => h.le) a (times.length - 1) (by omega) (by omega)
    rwa [getD_of_some _ _ _ ha, getD_of_some _ _ _ hlast] at this
  set δ : ℕ → ℝ := fun N => last / ((N - times.length - 1 : ℕ) : ℝ) with hδdef
  have hδlim : Tendsto δ atTop (𝓝 0) := by
    have h1 : Tendsto (fun N : ℕ => ((N - times.length - 1 : ℕ) : ℝ)) atTop atTop := by
      refine tendsto_natCast_atTop_atTop.comp ?_
      have : ∀ N : ℕ, N - times.length - 1 = N - (times.length + 1) := fun N => by omega
      simp_rw [this]
      exact tendsto_sub_atTop_nat _
    exact h1.const_div_atTop last
  have main : ∀ N : ℕ, times.length + 2 ≤ N → ∃ all mask indices, prepareGrid times (last / N) tol (some N) none = some (all, mask, indices) ∧ ∃ (ts : List ℝ) (i : ℕ),
      all = 0 :: ts ∧ (0 :: ts).Pairwise (· ≤ ·) ∧ i < ts.length ∧ ts.getD i 0 = t ∧ (∀ q ≤ i, (0 :: ts).getD (q + 1) 0 - (0 :: ts).getD q 0 ≤ δ N) ∧
      ∀ draws : List Z, draws.length = ts.length →
        ((whileSample step times.length all mask x0 draws).getD j none).getD s0 = (schemeStates step 0 x0 ts draws).getD (i + 1) s0 := by
    intro N hN
    obtain ⟨all, mask, indices, g1, g2, g3, g4⟩ := Props.C58_num_steps (S := S) (Z := Z) step times tol last N (by omega) (fun s hs => (hpos s hs).le) hlast hinc
    obtain ⟨i, hi, hval⟩ := g4 j t hj
    have hmesh := num_times_mesh times all tol last N mask indices hN (fun s hs => (hpos s hs).le) hlast hle g1
    obtain ⟨ts, rfl⟩ : ∃ ts, all = 0 :: ts := by
      cases all with
      | nil => simp at g2
      | cons a b => exact ⟨b, by simp at g2; rw [g2]⟩
    obtain ⟨i, rfl⟩ : ∃ i', i = i' + 1 := by
      cases i with
      | zero => simp at hi; linarith
      | succ i => exact ⟨i, rfl⟩
    have hil : i < ts.length := by
      have := (List.getElem?_eq_some_iff.1 hi).1
      simpa using this
    have htsi : ts.getD i 0 = t := by
      have := getD_of_some _ _ _ hi
      simpa using this
    refine ⟨0 :: ts, mask, indices, g1, ts, i, rfl, g3, hil, htsi, fun q hq => hmesh q (by simp; omega), fun draws hd => ?_⟩
    have h1 := hval x0 draws (by simp [hd])
    simp only [List.tail_cons] at h1
    rw [List.getD_eq_getElem?_getD (l := whileSample _ _ _ _ _ _), h1, Option.getD_some, List.getD_eq_getElem?_getD]
  choose! all mask indices g1 ts i hall hs hil hti hmesh hval using main
  refine ⟨fun N => ∫ z : Fin (ts N).length → Z, F ((schemeStates step 0 x0 (ts N) (List.ofFn z)).getD (i N + 1) s0) ∂(Measure.pi fun _ => ν), ?_, ?_⟩
  · rw [Metric.tendsto_atTop']
    intro ε hε
    obtain ⟨η, hη, h⟩ := H (ε / 2) (by linarith)
    obtain ⟨N0, hN0⟩ := (eventually_atTop.1 ((eventually_ge_atTop (times.length + 2)).and (hδlim.eventually_le_const hη)))
    refine ⟨N0, fun N hN => ?_⟩
    obtain ⟨hN1, hN2⟩ := hN0 N hN.le
    have := (h (ts N) (i N) (hs N hN1) (hil N hN1) (hti N hN1) (fun q hq => (hmesh N hN1 q hq).trans hN2)).2.2
    rw [Real.dist_eq]
    linarith
  · obtain ⟨η, hη, h⟩ := H 1 one_pos
    filter_upwards [(eventually_ge_atTop (times.length + 2)).and (hδlim.eventually_le_const hη)] with N hN
    obtain ⟨hN1, hN2⟩ := hN
    obtain ⟨h1, h2, _⟩ := h (ts N) (i N) (hs N hN1) (hil N hN1) (hti N hN1) (fun q hq => (hmesh N hN1 q hq).trans hN2)
    refine ⟨0 :: ts N, mask N, indices N, by rw [← hall N hN1]; exact g1 N hN1, ?_⟩
    intro Ω _ P D hD
    have havg := path_average P (Measure.pi fun _ : Fin (ts N).length => ν) D hD (fun z => F ((schemeStates step 0 x0 (ts N) (List.ofFn z)).getD (i N + 1) s0)) h1 h2
    filter_upwards [havg] with ω hω
    refine hω.congr fun n => ?_
    congr 1
    refine Finset.sum_congr rfl fun p _ => ?_
    congr 1
    rw [← hval N hN1 (List.ofFn (D p ω)) (by simp), hall N hN1]

end Lemmas

namespace Props
open Model Lemmas Spec MeasureTheory ProbabilityTheory Filter Topology
open scoped BigOperators

/-- C133: the mean square distance of the values sampled with the Euler scheme and those of the exact sampler of the process, computed from the same draws, at any point of
the grid. -/
theorem C133_euler_distance {d : ℕ} (means vols : Fin d → ℝ) (cholesky : Option (Matrix (Fin d) (Fin d) ℝ)) (hunit : ∀ L, cholesky = some L → ∀ k, ∑ m, L k m ^ 2 = 1)
    (x0 : Fin d → ℝ) (ts : List ℝ) (hs : (0 :: ts).Pairwise (· ≤ ·)) (i : ℕ) (hi : i < ts.length) (A δ : ℝ) (k : Fin d) (hm : |means k| ≤ A) (hv : vols k ^ 2 ≤ A)
    (hstep : ∀ j ≤ i, (0 :: ts).getD (j + 1) 0 - (0 :: ts).getD j 0 ≤ δ) (hδ : 3 * (A * δ) ≤ 1) :
    let euler := fun z : Fin ts.length → Fin d → ℝ =>
      (schemeStates (eulerStep (fun _ x => multiGbmDrift means x) (fun _ x => multiGbmVolatility vols cholesky x)) 0 x0 ts (List.ofFn z)).getD (i + 1) 0 k
    let exact := fun z : Fin ts.length → Fin d → ℝ => (multiGbmPath means vols cholesky x0 ts (List.ofFn z) k).getD i 0
    MemLp euler 2 (stepNormals ts.length d) ∧ MemLp exact 2 (stepNormals ts.length d) ∧
    ∫ z, (euler z - exact z) ^ 2 ∂(stepNormals ts.length d) ≤
      x0 k ^ 2 * (3 * Real.exp (3 * A * ts.getD i 0) * (Real.exp (32 * A ^ 2 * δ * ts.getD i 0) - 1)) := by
  intro euler exact
  obtain ⟨hξ, hlaw⟩ := increment_law cholesky hunit k
  have e1 : ∀ z, euler z = x0 k * ∏ j ∈ Finset.range (i + 1), growth 0 (means k * ((0 :: ts).getD (j + 1) 0 - (0 :: ts).getD j 0))
      (vols k * Real.sqrt ((0 :: ts).getD (j + 1) 0 - (0 :: ts).getD j 0)) (stochasticIncrement cholesky ((List.ofFn z).getD j 0) k) := fun z =>
    states_product (eulerStep (fun _ x => multiGbmDrift means x) (fun _ x => multiGbmVolatility vols cholesky x)) (fun x => x k)
      (fun _ dt z => growth 0 (means k * dt) (vols k * Real.sqrt dt) (stochasticIncrement cholesky z k)) (fun t dt x z _ => euler_growth means vols cholesky t dt x z k) 0 0 0 ts hs x0
      (List.ofFn z) (by simp) (i + 1) (by omega)
  have e2 : ∀ z, exact z = x0 k * ∏ j ∈ Finset.range (i + 1), exactGrowth (means k * ((0 :: ts).getD (j + 1) 0 - (0 :: ts).getD j 0))
      (vols k * Real.sqrt ((0 :: ts).getD (j + 1) 0 - (0 :: ts).getD j 0)) (stochasticIncrement cholesky ((List.ofFn z).getD j 0) k) := fun z =>
    multiGbmPath_product means vols cholesky x0 ts hs (List.ofFn z) (by simp) k i hi
  obtain ⟨r1, r2, r3⟩ := grid_distance (Measure.pi fun _ : Fin d => gaussianReal 0 1) (fun z => stochasticIncrement cholesky z k) hξ hlaw 0 le_rfl zero_le_one
    (fun _ => means k) (fun _ => vols k) (fun j => (0 :: ts).getD j 0) ts.length (i + 1) hi A δ ((abs_nonneg _).trans hm) (fun _ _ => hm) (fun _ _ => hv)
    (fun j hj => getD_mono _ hs j (j + 1) (by omega) (by simp; omega)) (fun j hj => hstep j (by omega)) hδ 0
  have f1 : euler = fun z => x0 k * ∏ j ∈ Finset.range (i + 1), growth 0 (means k * ((0 :: ts).getD (j + 1) 0 - (0 :: ts).getD j 0))
      (vols k * Real.sqrt ((0 :: ts).getD (j + 1) 0 - (0 :: ts).getD j 0)) (stochasticIncrement cholesky ((List.ofFn z).getD j 0) k) := funext e1
  have f2 : exact = fun z => x0 k * ∏ j ∈ Finset.range (i + 1), exactGrowth (means k * ((0 :: ts).getD (j + 1) 0 - (0 :: ts).getD j 0))
      (vols k * Real.sqrt ((0 :: ts).getD (j + 1) 0 - (0 :: ts).getD j 0)) (stochasticIncrement cholesky ((List.ofFn z).getD j 0) k) := funext e2
  refine ⟨by rw [f1]; exact r1.const_mul _, by rw [f2]; exact r2.const_mul _, ?_⟩
  simp_rw [e1, e2, ← mul_sub, mul_pow]
  rw [integral_const_mul]
  have h0 : (0 :: ts).getD 0 0 = (0 : ℝ) := by simp
  have hT : (0 :: ts).getD (i + 1) 0 = ts.getD i 0 := by simp
  simp only [h0, hT, sub_zero] at r3
  exact mul_le_mul_of_nonneg_left r3 (sq_nonneg _)

/-- C133: the expectation of a function with bounded slopes of the values sampled with the Euler scheme differs from that of the exact process by at most a multiple of
the square root of the largest step. -/
theorem C133_euler_price {d : ℕ} (means vols : Fin d → ℝ) (cholesky : Option (Matrix (Fin d) (Fin d) ℝ)) (hunit : ∀ L, cholesky = some L → ∀ k, ∑ m, L k m ^ 2 = 1)
    (x0 : Fin d → ℝ) (ts : List ℝ) (hs : (0 :: ts).Pairwise (· ≤ ·)) (i : ℕ) (hi : i < ts.length) (A δ : ℝ) (hm : ∀ k, |means k| ≤ A) (hv : ∀ k, vols k ^ 2 ≤ A)
    (hstep : ∀ j ≤ i, (0 :: ts).getD (j + 1) 0 - (0 :: ts).getD j 0 ≤ δ) (hδ : 3 * (A * δ) ≤ 1) (f : (Fin d → ℝ) → ℝ) (K : ℝ) (hK : 0 ≤ K)
    (hf : ∀ x y, |f x - f y| ≤ K * ∑ k, |x k - y k|) :
    let euler := fun z : Fin ts.length → Fin d → ℝ =>
      (schemeStates (eulerStep (fun _ x => multiGbmDrift means x) (fun _ x => multiGbmVolatility vols cholesky x)) 0 x0 ts (List.ofFn z)).getD (i + 1) 0
    Integrable (fun z => f (euler z)) (stepNormals ts.length d) ∧
    |∫ z, f (euler z) ∂(stepNormals ts.length d) -
        ∫ z : Fin d → ℝ, f (fun k => (multiGbmPath means vols cholesky x0 [ts.getD i 0] [z] k).getD 0 0) ∂(Measure.pi fun _ => gaussianReal 0 1)| ≤
      K * ∑ k, Real.sqrt (x0 k ^ 2 * (3 * Real.exp (3 * A * ts.getD i 0) * (Real.exp (32 * A ^ 2 * δ * ts.getD i 0) - 1))) := by
  intro euler
  have h := fun k => C133_euler_distance means vols cholesky hunit x0 ts hs i hi A δ k (hm k) (hv k) hstep hδ
  obtain ⟨r1, _, r3⟩ := slope_gap (stepNormals ts.length d) f K hf hK euler (fun z k => (multiGbmPath means vols cholesky x0 ts (List.ofFn z) k).getD i 0)
    (fun k => (h k).1) (fun k => (h k).2.1) (fun k => x0 k ^ 2 * (3 * Real.exp (3 * A * ts.getD i 0) * (Real.exp (32 * A ^ 2 * δ * ts.getD i 0) - 1))) (fun k => (h k).2.2)
  refine ⟨r1, ?_⟩
  rw [multiGbmPath_law means vols cholesky x0 ts hs i hi f (slope_continuous f K hf)] at r3
  exact r3

/-- C133: prices simulated with the Euler sampler converge. For each number of time steps the average over the paths of a function of the sampled values with bounded slopes
converges almost surely, and the limits converge with the number of time steps to the expectation under the exact process. -/
theorem C133_euler_sampler {d : ℕ} (means vols : Fin d → ℝ) (cholesky : Option (Matrix (Fin d) (Fin d) ℝ)) (hunit : ∀ L, cholesky = some L → ∀ k, ∑ m, L k m ^ 2 = 1)
    (x0 : Fin d → ℝ) (times : List ℝ) (tol last : ℝ) (hpos : ∀ t ∈ times, 0 < t) (hlast : times.getLast? = some last) (hinc : times.Pairwise (· < ·)) (j : ℕ) (t : ℝ)
    (hj : times[j]? = some t) (f : (Fin d → ℝ) → ℝ) (K : ℝ) (hf : ∀ x y, |f x - f y| ≤ K * ∑ k, |x k - y k|) :
    ∃ v : ℕ → ℝ, Tendsto v atTop (𝓝 (∫ z : Fin d → ℝ, f (fun k => (multiGbmPath means vols cholesky x0 [t] [z] k).getD 0 0) ∂(Measure.pi fun _ => gaussianReal 0 1))) ∧
      ∀ᶠ N : ℕ in atTop, ∃ all mask indices, prepareGrid times (last / N) tol (some N) none = some (all, mask, indices) ∧
        ∀ (Ω : Type) (_ : MeasurableSpace Ω) (P : Measure Ω) (D : ℕ → Ω → Fin (all.length - 1) → Fin d → ℝ), PathDraws P (stepNormals (all.length - 1) d) D →
          ∀ᵐ ω ∂P, Tendsto (fun n : ℕ => (∑ p ∈ Finset.range n, f (((whileSample (eulerStep (fun _ x => multiGbmDrift means x)
            (fun _ x => multiGbmVolatility vols cholesky x)) times.length all mask x0 (List.ofFn (D p ω))).getD j none).getD 0)) / n) atTop (𝓝 (v N)) := by
  set step := eulerStep (fun _ x => multiGbmDrift means x) (fun _ x => multiGbmVolatility vols cholesky x) with hstepdef
  obtain ⟨A, hA0, hm, hv⟩ : ∃ A : ℝ, 0 ≤ A ∧ (∀ k, |means k| ≤ A) ∧ ∀ k, vols k ^ 2 ≤ A := by
    refine ⟨∑ k, (|means k| + vols k ^ 2), Finset.sum_nonneg fun k _ => by positivity, fun k => ?_, fun k => ?_⟩
    · have := Finset.single_le_sum (f := fun k => |means k| + vols k ^ 2) (fun k _ => by positivity) (Finset.mem_univ k)
      have h2 := sq_nonneg (vols k)
      linarith
    · have := Finset.single_le_sum (f := fun k => |means k| + vols k ^ 2) (fun k _ => by positivity) (Finset.mem_univ k)
      have h2 := abs_nonneg (means k)
      linarith
  have hf' : ∀ x y, |f x - f y| ≤ |K| * ∑ k, |x k - y k| := fun x y =>
    (hf x y).trans (mul_le_mul_of_nonneg_right (le_abs_self K) (Finset.sum_nonneg fun k _ => abs_nonneg _))
  refine sampler_limit (Measure.pi fun _ : Fin d => gaussianReal 0 1) step x0 0 f times tol last hpos hlast hinc j t hj _ ?_
  intro ε hε
  have hc : Continuous (fun δ : ℝ => |K| * ∑ k, Real.sqrt (x0 k ^ 2 * (3 * Real.exp (3 * A * t) * (Real.exp (32 * A ^ 2 * δ * t) - 1)))) := by fun_prop
  have hc2 : Continuous (fun δ : ℝ => 3 * (A * δ)) := by fun_prop
  have h1 : ∀ᶠ δ : ℝ in 𝓝 0, |K| * ∑ k, Real.sqrt (x0 k ^ 2 * (3 * Real.exp (3 * A * t) * (Real.exp (32 * A ^ 2 * δ * t) - 1))) ≤ ε :=
    (hc.tendsto 0).eventually_le_const (by simpa using hε)
  have h2 : ∀ᶠ δ : ℝ in 𝓝 0, 3 * (A * δ) ≤ 1 := (hc2.tendsto 0).eventually_le_const (by norm_num)
  obtain ⟨δ, hδ0, hδ⟩ := Metric.eventually_nhds_iff.1 (h1.and h2)
  obtain ⟨h3, h4⟩ := hδ (y := δ / 2) (by rw [Real.dist_eq, sub_zero, abs_of_pos (by linarith)]; linarith)
  refine ⟨δ / 2, by linarith, fun ts i hs hi hti hstep => ?_⟩
  obtain ⟨r1, r2⟩ := C133_euler_price means vols cholesky hunit x0 ts hs i hi A (δ / 2) hm hv hstep h4 f |K| (abs_nonneg K) hf'
  rw [hti] at r2
  refine ⟨?_, r1, r2.trans h3⟩
  refine (slope_continuous f K hf).measurable.comp (measurable_pi_lambda _ fun k => ?_)
  exact product_measurable step (fun x => x k) (fun _ dt z => growth 0 (means k * dt) (vols k * Real.sqrt dt) (stochasticIncrement cholesky z k))
    (fun t dt x z _ => euler_growth means vols cholesky t dt x z k) (fun t dt => (growth_measurable _ _ _).comp (increment_law cholesky hunit k).1) 0 0 ts hs x0 (i + 1) (by omega)

/-- C133: prices of European options on a component, simulated with the Euler sampler, converge to the price that `option_price` returns. -/
theorem C133_european {d : ℕ} (means vols : Fin d → ℝ) (cholesky : Option (Matrix (Fin d) (Fin d) ℝ)) (hunit : ∀ L, cholesky = some L → ∀ k, ∑ m, L k m ^ 2 = 1)
    (x0 : Fin d → ℝ) (times : List ℝ) (tol last : ℝ) (hpos : ∀ t ∈ times, 0 < t) (hlast : times.getLast? = some last) (hinc : times.Pairwise (· < ·)) (j : ℕ) (t : ℝ)
    (hj : times[j]? = some t) (k : Fin d) (hx : 0 < x0 k) (hvol : 0 ≤ vols k) (strike discountFactor : ℝ) (hK : 0 < strike) (hdf : 0 < discountFactor) (isCall : Bool) :
    ∃ price, optionPrice { volatility := vols k, strike := strike, expiry := t, forward := some (x0 k * Real.exp (means k * t)), discountFactor := some discountFactor, isCall := some isCall } = .ok price ∧
      ∃ v : ℕ → ℝ, Tendsto v atTop (𝓝 price) ∧ ∀ᶠ N : ℕ in atTop, ∃ all mask indices, prepareGrid times (last / N) tol (some N) none = some (all, mask, indices) ∧
        ∀ (Ω : Type) (_ : MeasurableSpace Ω) (P : Measure Ω) (D : ℕ → Ω → Fin (all.length - 1) → Fin d → ℝ), PathDraws P (stepNormals (all.length - 1) d) D →
          ∀ᵐ ω ∂P, Tendsto (fun n : ℕ => (∑ p ∈ Finset.range n, discountFactor * vanillaPayoff isCall strike (((whileSample (eulerStep (fun _ x => multiGbmDrift means x)
            (fun _ x => multiGbmVolatility vols cholesky x)) times.length all mask x0 (List.ofFn (D p ω))).getD j none).getD 0 k)) / n) atTop (𝓝 (v N)) := by
  have ht0 : 0 < t := hpos t (List.mem_of_getElem? hj)
  have hF : 0 < x0 k * Real.exp (means k * t) := mul_pos hx (Real.exp_pos _)
  have hf : ∀ x y : Fin d → ℝ, |discountFactor * vanillaPayoff isCall strike (x k) - discountFactor * vanillaPayoff isCall strike (y k)| ≤ discountFactor * ∑ k, |x k - y k| := by
    intro x y
    have h1 : |vanillaPayoff isCall strike (x k) - vanillaPayoff isCall strike (y k)| ≤ |x k - y k| := by
      unfold vanillaPayoff
      split
      · refine (abs_max_sub_max_le_abs _ _ _).trans (le_of_eq ?_)
        congr 1; ring
      · refine (abs_max_sub_max_le_abs _ _ _).trans (le_of_eq ?_)
        rw [abs_sub_comm]
        congr 1; ring
    have h2 := Finset.single_le_sum (f := fun k => |x k - y k|) (fun k _ => abs_nonneg _) (Finset.mem_univ k)
    rw [← mul_sub, abs_mul, abs_of_pos hdf]
    exact mul_le_mul_of_nonneg_left (h1.trans h2) hdf.le
  obtain ⟨v, hv, hsim⟩ := C133_euler_sampler means vols cholesky hunit x0 times tol last hpos hlast hinc j t hj (fun x => discountFactor * vanillaPayoff isCall strike (x k)) discountFactor hf
  refine ⟨_, C31_expectation _ ⟨by simp, by simp, hvol, ht0.le, by simp [hdf]⟩ (fun _ => ⟨hF, hK⟩), v, ?_, hsim⟩
  refine hv.trans (le_of_eq ?_)
  congr 1
  rw [integral_const_mul]
  simp only [discount, expectation, forward, stdDev, Bool.false_eq_true, if_false, Option.getD_some]
  congr 1
  obtain ⟨hξ, hlaw⟩ := increment_law cholesky hunit k
  have hmeas : Measurable (vanillaPayoff isCall strike) := by
    unfold vanillaPayoff
    cases isCall
    · simp only [Bool.false_eq_true, if_false]; fun_prop
    · simp only [if_true]; fun_prop
  have e : ∀ z : Fin d → ℝ, (multiGbmPath means vols cholesky x0 [t] [z] k).getD 0 0 =
      Real.exp ((Real.log (x0 k * Real.exp (means k * t)) - (vols k * Real.sqrt t) ^ 2 / 2) + (vols k * Real.sqrt t) * stochasticIncrement cholesky z k) := by
    intro z
    rw [List.getD_eq_getElem?_getD, multiGbmPath_get means vols cholesky x0 [t] [z] rfl k 0 (by simp), Option.getD_some, Real.log_mul hx.ne' (Real.exp_pos _).ne', Real.log_exp, mul_pow,
      Real.sq_sqrt ht0.le]
    simp only [zero_add, Finset.sum_range_one, List.getD_cons_succ, List.getD_cons_zero, sub_zero]
    conv_lhs => rw [← Real.exp_log hx]
    rw [← Real.exp_add]
    congr 1
    ring
  simp_rw [e]
  have hm2 : Measurable (fun x : ℝ => vanillaPayoff isCall strike (Real.exp ((Real.log (x0 k * Real.exp (means k * t)) - (vols k * Real.sqrt t) ^ 2 / 2) + (vols k * Real.sqrt t) * x))) :=
    hmeas.comp (by fun_prop)
  have h3 := integral_map (μ := Measure.pi fun _ : Fin d => gaussianReal 0 1) hξ.aemeasurable
    (f := fun x : ℝ => vanillaPayoff isCall strike (Real.exp ((Real.log (x0 k * Real.exp (means k * t)) - (vols k * Real.sqrt t) ^ 2 / 2) + (vols k * Real.sqrt t) * x))) hm2.aestronglyMeasurable
  rw [hlaw] at h3
  rw [← h3]
  unfold lognormalExpectation
  have h4 := normalExpectation_std 0 1 _ hm2
  unfold normalExpectation at h4
  rw [show Real.toNNReal ((1 : ℝ) ^ 2) = 1 by simp] at h4
  rw [h4, normalExpectation_std _ _ (fun x => vanillaPayoff isCall strike (Real.exp x)) (hmeas.comp Real.measurable_exp)]
  simp only [zero_add, one_mul]

/-- Draws as the theorems need them exist. -/
example (n d : ℕ) : PathDraws (Measure.infinitePi fun _ : ℕ => stepNormals n d) (stepNormals n d) (fun k ω => ω k) := by
  refine ⟨fun k => measurable_pi_apply k, fun k => ?_, fun k l hkl => ?_⟩
  · exact (measurePreserving_eval_infinitePi (fun _ : ℕ => stepNormals n d) k).map_eq
  · exact (iIndepFun_infinitePi (P := fun _ : ℕ => stepNormals n d) (X := fun _ z => z) (fun _ => measurable_id)).indepFun hkl

/-- Two Euler steps for one asset with growth 1 and volatility 2: the factors are 1 + 1/4 + 2 * (1/2) * 1 and 1 + 1/4 - 2 * (1/2) * 1. -/
example : (schemeStates (eulerStep (fun _ x => multiGbmDrift (d := 1) (fun _ => 1) x) (fun _ x => multiGbmVolatility (fun _ => 2) none x)) 0 (fun _ => 16) [1 / 4, 1 / 2]
    [fun _ => 1, fun _ => -1]).getD 2 0 0 = 9 := by
  have h : Real.sqrt (1 / 4) = 1 / 2 := by rw [show (1 / 4 : ℝ) = (1 / 2) ^ 2 by norm_num]; exact Real.sqrt_sq (by norm_num)
  have h2 : Real.sqrt (1 / 2 - 1 / 4) = 1 / 2 := by rw [show (1 / 2 - 1 / 4 : ℝ) = (1 / 2) ^ 2 by norm_num]; exact Real.sqrt_sq (by norm_num)
  have h3 : Real.sqrt (1 / 4 - 0) = 1 / 2 := by rw [sub_zero, h]
  simp only [schemeStates, eulerStep, multiGbmDrift, multiGbmVolatility, Matrix.mulVec, dotProduct, h2, h3]
  simp
  norm_num

end Props
