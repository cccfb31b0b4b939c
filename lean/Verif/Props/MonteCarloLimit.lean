import Verif.Props.Gbm
import Verif.Props.VanillaPrices
import Mathlib.Probability.StrongLaw
import Mathlib.Probability.Moments.Variance
import Mathlib.MeasureTheory.Measure.CharacteristicFunction.Basic
import Mathlib.Probability.Distributions.Gaussian.Real
import Mathlib.MeasureTheory.Integral.Pi
import Mathlib.Probability.Independence.InfinitePi

/-! # C118 Monte Carlo prices from paths of geometric Brownian motion converge to Black-Scholes prices -/

namespace Spec
open MeasureTheory ProbabilityTheory

/-- Random numbers for paths: vectors with `m` entries, one for each path, independent of each other, each with the law of independent standard normal numbers. -/
structure NormalDraws {Ω : Type} [MeasurableSpace Ω] (P : Measure Ω) (m : ℕ) (D : ℕ → Ω → Fin m → ℝ) : Prop where
  measurable : ∀ k, Measurable (D k)
  law : ∀ k, P.map (D k) = Measure.pi fun _ => gaussianReal 0 1
  independent : Pairwise fun k l => IndepFun (D k) (D l) P

end Spec

namespace Lemmas
open Model Spec MeasureTheory ProbabilityTheory Filter Topology

/-- A linear combination of independent standard normal numbers is normal. -/
theorem pi_linear_law {n : ℕ} (c : ℝ) (w : Fin n → ℝ) :
    (Measure.pi fun _ : Fin n => gaussianReal 0 1).map (fun z => c + ∑ i, w i * z i) = gaussianReal c (Real.toNNReal (∑ i, w i ^ 2)) := by
  have hmeas : Measurable (fun z : Fin n → ℝ => c + ∑ i, w i * z i) := by fun_prop
  have hprob : IsProbabilityMeasure ((Measure.pi fun _ : Fin n => gaussianReal 0 1).map (fun z => c + ∑ i, w i * z i)) :=
    Measure.isProbabilityMeasure_map hmeas.aemeasurable
  refine Measure.ext_of_charFun ?_
  ext t
  rw [charFun_gaussianReal, charFun_apply_real, integral_map hmeas.aemeasurable (Continuous.aestronglyMeasurable (by fun_prop))]
  have e : ∀ z : Fin n → ℝ, Complex.exp (t * (c + ∑ i, w i * z i : ℝ) * Complex.I) = Complex.exp (t * c * Complex.I) * ∏ i, Complex.exp ((t * w i : ℝ) * (z i : ℝ) * Complex.I) := by
    intro z
    rw [← Complex.exp_sum, ← Complex.exp_add]
    congr 1
    push_cast
    rw [mul_add, add_mul, Finset.mul_sum, Finset.sum_mul]
    congr 1
    exact Finset.sum_congr rfl fun i _ => by ring
  simp_rw [e]
  rw [integral_const_mul, integral_fintype_prod_eq_prod (μ := fun _ : Fin n => gaussianReal 0 1) (f := fun i (x : ℝ) => Complex.exp ((t * w i : ℝ) * (x : ℝ) * Complex.I))]
  have e2 : ∀ i, ∫ x : ℝ, Complex.exp ((t * w i : ℝ) * (x : ℝ) * Complex.I) ∂(gaussianReal 0 1) = Complex.exp (-((t * w i) ^ 2 / 2 : ℝ)) := by
    intro i
    rw [← charFun_apply_real, charFun_gaussianReal]
    congr 1
    push_cast
    simp
  simp_rw [e2]
  rw [← Complex.exp_sum, ← Complex.exp_add, Real.coe_toNNReal _ (Finset.sum_nonneg fun i _ => sq_nonneg _)]
  congr 1
  push_cast
  rw [Finset.sum_neg_distrib, Finset.sum_mul, Finset.sum_div, sub_eq_add_neg]
  congr 2
  exact Finset.sum_congr rfl fun i _ => by ring

/-- The value of a path at a time is the exponential of a normal number. -/
theorem gbm_value (mean vol : TimeParam) (hm : TimeParamOk mean) (hv : TimeParamOk vol) (times : List ℝ) (hs : times.Pairwise (· ≤ ·)) (h0 : ∀ t ∈ times, 0 ≤ t)
    (x0 : ℝ) (j : ℕ) (hj : j < times.length) :
    ∃ w : Fin times.length → ℝ, ∑ i, w i ^ 2 = ∫ t in (0 : ℝ)..(times.getD j 0), vol.eval t ^ 2 ∧
      ∀ z : Fin times.length → ℝ, (gbmPath mean vol x0 times (List.ofFn z)).getD j 0 =
        x0 * Real.exp ((∫ t in (0 : ℝ)..(times.getD j 0), mean.eval t) - (∫ t in (0 : ℝ)..(times.getD j 0), vol.eval t ^ 2) / 2 + ∑ i, w i * z i) := by
  obtain ⟨w, hw⟩ := Props.C60_paths mean vol hm hv times hs h0
  obtain ⟨h1, h2⟩ := hw j hj
  have key : ∀ g : ℕ → ℝ, ∑ i : Fin times.length, (if i.1 < j + 1 then g i.1 else 0) = ∑ i ∈ Finset.range (j + 1), g i := by
    intro g
    rw [Fin.sum_univ_eq_sum_range (fun i => if i < j + 1 then g i else 0) times.length, ← Finset.sum_filter]
    congr 1
    ext i
    simp only [Finset.mem_filter, Finset.mem_range]
    omega
  refine ⟨fun i => if i.1 < j + 1 then w i.1 else 0, ?_, fun z => ?_⟩
  · rw [← h1, ← key]
    refine Finset.sum_congr rfl fun i _ => ?_
    beta_reduce
    by_cases h : i.1 < j + 1
    · rw [if_pos h, if_pos h]
    · rw [if_neg h, if_neg h]; ring
  · rw [List.getD_eq_getElem?_getD, h2 x0 (List.ofFn z) (by simp), Option.getD_some, ← key]
    congr 3
    refine Finset.sum_congr rfl fun i _ => ?_
    beta_reduce
    by_cases h : i.1 < j + 1
    · rw [if_pos h, if_pos h, List.getD_eq_getElem _ _ (by simp)]; simp
    · rw [if_neg h, if_neg h, zero_mul]

/-- Averages of a function of the drawn values converge. -/
theorem draws_average {Ω : Type} [MeasurableSpace Ω] (P : Measure Ω) (m : ℕ) (D : ℕ → Ω → Fin m → ℝ) (hD : NormalDraws P m D) (g : (Fin m → ℝ) → ℝ)
    (hg : Measurable g) (hi : Integrable g (Measure.pi fun _ => gaussianReal 0 1)) :
    ∀ᵐ ω ∂P, Tendsto (fun n : ℕ => (∑ k ∈ Finset.range n, g (D k ω)) / n) atTop (𝓝 (∫ z, g z ∂(Measure.pi fun _ => gaussianReal 0 1))) := by
  have h1 : Integrable (fun ω => g (D 0 ω)) P := by
    rw [← hD.law 0] at hi
    exact hi.comp_measurable (hD.measurable 0)
  have h2 := strong_law_ae_real (μ := P) (fun k ω => g (D k ω)) h1 (fun k l hkl => (hD.independent hkl).comp hg hg) (fun k => by
    refine (IdentDistrib.comp (u := g) ⟨(hD.measurable k).aemeasurable, (hD.measurable 0).aemeasurable, ?_⟩ hg)
    rw [hD.law, hD.law])
  have h3 : ∫ ω, g (D 0 ω) ∂P = ∫ z, g z ∂(Measure.pi fun _ => gaussianReal 0 1) := by
    rw [← hD.law 0, integral_map (hD.measurable 0).aemeasurable hg.aestronglyMeasurable]
  rwa [h3] at h2

theorem draws_prob {Ω : Type} [MeasurableSpace Ω] (P : Measure Ω) (m : ℕ) (D : ℕ → Ω → Fin m → ℝ) (hD : NormalDraws P m D) : IsProbabilityMeasure P := by
  have h := hD.law 0
  have h1 : IsProbabilityMeasure (P.map (D 0)) := by rw [h]; infer_instance
  constructor
  have h2 := h1.measure_univ
  rwa [Measure.map_apply (hD.measurable 0) MeasurableSet.univ, Set.preimage_univ] at h2

/-- The mean square error of averages of bounded functions. -/
theorem draws_error {Ω : Type} [MeasurableSpace Ω] (P : Measure Ω) (m : ℕ) (D : ℕ → Ω → Fin m → ℝ) (hD : NormalDraws P m D) (g : (Fin m → ℝ) → ℝ)
    (hg : Measurable g) (B : ℝ) (hB : ∀ z, |g z| ≤ B) (n : ℕ) (hn : 0 < n) :
    ∫ ω, ((∑ k ∈ Finset.range n, g (D k ω)) / n - ∫ z, g z ∂(Measure.pi fun _ => gaussianReal 0 1)) ^ 2 ∂P ≤ B ^ 2 / n := by
  have hP := draws_prob P m D hD
  have hn' : (0 : ℝ) < n := by exact_mod_cast hn
  have hmeas : ∀ k, Measurable (fun ω => g (D k ω)) := fun k => hg.comp (hD.measurable k)
  have hmem : ∀ k, MemLp (fun ω => g (D k ω)) 2 P := fun k => MemLp.of_bound (hmeas k).aestronglyMeasurable B (Eventually.of_forall fun ω => hB _)
  have hmean : ∀ k, ∫ ω, g (D k ω) ∂P = ∫ z, g z ∂(Measure.pi fun _ => gaussianReal 0 1) := by
    intro k
    rw [← hD.law k, integral_map (hD.measurable k).aemeasurable hg.aestronglyMeasurable]
  have hvar : ∀ k, variance (fun ω => g (D k ω)) P ≤ B ^ 2 := by
    intro k
    refine (variance_le_expectation_sq (hmeas k).aestronglyMeasurable).trans ?_
    have : ∫ ω, (g (D k ω)) ^ 2 ∂P ≤ ∫ _, B ^ 2 ∂P := by
      refine integral_mono (hmem k).integrable_sq (integrable_const _) fun ω => ?_
      exact sq_le_sq' (by have := (abs_le.1 (hB (D k ω))).1; linarith) (abs_le.1 (hB (D k ω))).2
    simpa using this
  have hsum : variance (∑ k ∈ Finset.range n, fun ω => g (D k ω)) P = ∑ k ∈ Finset.range n, variance (fun ω => g (D k ω)) P :=
    IndepFun.variance_sum (fun k _ => hmem k) (fun k _ l _ hkl => (hD.independent hkl).comp hg hg)
  have hexp : ∫ ω, (∑ k ∈ Finset.range n, fun ω => g (D k ω)) ω ∂P = n * ∫ z, g z ∂(Measure.pi fun _ => gaussianReal 0 1) := by
    simp only [Finset.sum_apply]
    rw [integral_finsetSum _ fun k _ => (hmem k).integrable (by norm_num)]
    simp [hmean]
  have hae : AEMeasurable (∑ k ∈ Finset.range n, fun ω => g (D k ω)) P := by
    have h : (∑ k ∈ Finset.range n, fun ω => g (D k ω)) = fun ω => ∑ k ∈ Finset.range n, g (D k ω) := by
      funext ω; simp only [Finset.sum_apply]
    rw [h]
    exact (Finset.measurable_sum _ fun k _ => hmeas k).aemeasurable
  rw [variance_eq_integral hae, hexp] at hsum
  have e : ∀ ω, ((∑ k ∈ Finset.range n, g (D k ω)) / n - ∫ z, g z ∂(Measure.pi fun _ => gaussianReal 0 1)) ^ 2 =
      ((∑ k ∈ Finset.range n, fun ω => g (D k ω)) ω - n * ∫ z, g z ∂(Measure.pi fun _ => gaussianReal 0 1)) ^ 2 / (n : ℝ) ^ 2 := by
    intro ω
    simp only [Finset.sum_apply]
    field_simp
  simp_rw [e]
  rw [integral_div, hsum, div_le_div_iff₀ (by positivity) hn']
  calc (∑ k ∈ Finset.range n, variance (fun ω => g (D k ω)) P) * n ≤ (∑ _k ∈ Finset.range n, B ^ 2) * n :=
        mul_le_mul_of_nonneg_right (Finset.sum_le_sum fun k _ => hvar k) hn'.le
    _ = B ^ 2 * (n : ℝ) ^ 2 := by rw [Finset.sum_const, Finset.card_range, nsmul_eq_mul]; ring

end Lemmas

namespace Props
open Model Lemmas Spec MeasureTheory ProbabilityTheory Filter Topology

/-- C118: the expectation of a function of the value at a time, for a path computed from independent standard normal draws, is the expectation under the lognormal law with
the forward value and the integrated variance. The function is integrable under the one law if it is under the other. -/
theorem C118_expectation (mean vol : TimeParam) (hm : TimeParamOk mean) (hv : TimeParamOk vol) (times : List ℝ) (hs : times.Pairwise (· ≤ ·)) (h0 : ∀ t ∈ times, 0 ≤ t)
    (x0 : ℝ) (hx : 0 < x0) (j : ℕ) (hj : j < times.length) (f : ℝ → ℝ) (hf : Measurable f) :
    let F := x0 * Real.exp (∫ t in (0 : ℝ)..(times.getD j 0), mean.eval t)
    let V := ∫ t in (0 : ℝ)..(times.getD j 0), vol.eval t ^ 2
    ∫ z : Fin times.length → ℝ, f ((gbmPath mean vol x0 times (List.ofFn z)).getD j 0) ∂(Measure.pi fun _ => gaussianReal 0 1) = lognormalExpectation F (Real.sqrt V) f ∧
    (Integrable (fun z : Fin times.length → ℝ => f ((gbmPath mean vol x0 times (List.ofFn z)).getD j 0)) (Measure.pi fun _ => gaussianReal 0 1) ↔
      Integrable (fun x => f (Real.exp x)) (gaussianReal (Real.log F - V / 2) (Real.toNNReal V))) ∧
    Measurable (fun z : Fin times.length → ℝ => f ((gbmPath mean vol x0 times (List.ofFn z)).getD j 0)) := by
  intro F V
  obtain ⟨w, hw1, hw2⟩ := gbm_value mean vol hm hv times hs h0 x0 j hj
  have hV : 0 ≤ V := by
    change 0 ≤ ∫ t in (0 : ℝ)..(times.getD j 0), vol.eval t ^ 2
    rw [← hw1]
    exact Finset.sum_nonneg fun i _ => sq_nonneg _
  have hF : Real.log F = Real.log x0 + ∫ t in (0 : ℝ)..(times.getD j 0), mean.eval t := by
    change Real.log (x0 * Real.exp _) = _
    rw [Real.log_mul hx.ne' (Real.exp_pos _).ne', Real.log_exp]
  have e : ∀ z : Fin times.length → ℝ, (gbmPath mean vol x0 times (List.ofFn z)).getD j 0 = Real.exp (Real.log F - V / 2 + ∑ i, w i * z i) := by
    intro z
    rw [hw2 z, hF]
    conv_lhs => rw [← Real.exp_log hx]
    rw [← Real.exp_add]
    congr 1
    change _ = Real.log x0 + _ - (∫ t in (0 : ℝ)..(times.getD j 0), vol.eval t ^ 2) / 2 + _
    ring
  have hlaw := pi_linear_law (Real.log F - V / 2) w
  rw [hw1] at hlaw
  have hmeas : Measurable (fun z : Fin times.length → ℝ => Real.log F - V / 2 + ∑ i, w i * z i) := by fun_prop
  have hfe : Measurable (fun x => f (Real.exp x)) := hf.comp Real.measurable_exp
  simp_rw [e]
  refine ⟨?_, ?_, hfe.comp hmeas⟩
  · unfold lognormalExpectation normalExpectation
    rw [Real.sq_sqrt hV, ← hlaw, integral_map hmeas.aemeasurable hfe.aestronglyMeasurable]
  · rw [← hlaw, integrable_map_measure hfe.aestronglyMeasurable hmeas.aemeasurable]
    rfl

/-- C118: for independent draws the average over the paths of any function of the value at a time converges almost surely to the expectation under the lognormal law, if
this exists. -/
theorem C118_average {Ω : Type} [MeasurableSpace Ω] (P : Measure Ω) (mean vol : TimeParam) (hm : TimeParamOk mean) (hv : TimeParamOk vol) (times : List ℝ)
    (hs : times.Pairwise (· ≤ ·)) (h0 : ∀ t ∈ times, 0 ≤ t) (D : ℕ → Ω → Fin times.length → ℝ) (hD : NormalDraws P times.length D)
    (x0 : ℝ) (hx : 0 < x0) (j : ℕ) (hj : j < times.length) (f : ℝ → ℝ) (hf : Measurable f) :
    let F := x0 * Real.exp (∫ t in (0 : ℝ)..(times.getD j 0), mean.eval t)
    let V := ∫ t in (0 : ℝ)..(times.getD j 0), vol.eval t ^ 2
    Integrable (fun x => f (Real.exp x)) (gaussianReal (Real.log F - V / 2) (Real.toNNReal V)) →
    ∀ᵐ ω ∂P, Tendsto (fun n : ℕ => (∑ k ∈ Finset.range n, f ((gbmPath mean vol x0 times (List.ofFn (D k ω))).getD j 0)) / n) atTop
      (𝓝 (lognormalExpectation F (Real.sqrt V) f)) := by
  intro F V hi
  obtain ⟨h1, h2, h3⟩ := C118_expectation mean vol hm hv times hs h0 x0 hx j hj f hf
  rw [← h1]
  exact draws_average P times.length D hD (fun z => f ((gbmPath mean vol x0 times (List.ofFn z)).getD j 0)) h3 (h2.2 hi)

/-- C118: the mean square error of the average over `n` paths of a bounded function is at most the squared bound divided by `n`. -/
theorem C118_error {Ω : Type} [MeasurableSpace Ω] (P : Measure Ω) (mean vol : TimeParam) (hm : TimeParamOk mean) (hv : TimeParamOk vol) (times : List ℝ)
    (hs : times.Pairwise (· ≤ ·)) (h0 : ∀ t ∈ times, 0 ≤ t) (D : ℕ → Ω → Fin times.length → ℝ) (hD : NormalDraws P times.length D)
    (x0 : ℝ) (hx : 0 < x0) (j : ℕ) (hj : j < times.length) (f : ℝ → ℝ) (hf : Measurable f) (B : ℝ) (hB : ∀ s, |f s| ≤ B) (n : ℕ) (hn : 0 < n) :
    let F := x0 * Real.exp (∫ t in (0 : ℝ)..(times.getD j 0), mean.eval t)
    let V := ∫ t in (0 : ℝ)..(times.getD j 0), vol.eval t ^ 2
    ∫ ω, ((∑ k ∈ Finset.range n, f ((gbmPath mean vol x0 times (List.ofFn (D k ω))).getD j 0)) / n - lognormalExpectation F (Real.sqrt V) f) ^ 2 ∂P ≤ B ^ 2 / n := by
  intro F V
  obtain ⟨h1, h2, h3⟩ := C118_expectation mean vol hm hv times hs h0 x0 hx j hj f hf
  rw [← h1]
  exact draws_error P times.length D hD (fun z => f ((gbmPath mean vol x0 times (List.ofFn z)).getD j 0)) h3 B (fun z => hB _) n hn

/-- C118: the average of the discounted payoffs of a European option over the paths converges almost surely to the price that `option_price` returns for the forward price and
the root mean square volatility of the process. -/
theorem C118_european {Ω : Type} [MeasurableSpace Ω] (P : Measure Ω) (mean vol : TimeParam) (hm : TimeParamOk mean) (hv : TimeParamOk vol) (times : List ℝ)
    (hs : times.Pairwise (· ≤ ·)) (h0 : ∀ t ∈ times, 0 ≤ t) (D : ℕ → Ω → Fin times.length → ℝ) (hD : NormalDraws P times.length D)
    (x0 : ℝ) (hx : 0 < x0) (j : ℕ) (hj : j < times.length) (strike discountFactor : ℝ) (hK : 0 < strike) (hdf : 0 < discountFactor) (isCall : Bool)
    (hT : 0 < times.getD j 0) :
    let T := times.getD j 0
    ∃ v, optionPrice { volatility := Real.sqrt ((∫ t in (0 : ℝ)..T, vol.eval t ^ 2) / T), strike := strike, expiry := T, forward := some (x0 * Real.exp (∫ t in (0 : ℝ)..T, mean.eval t)), discountFactor := some discountFactor, isCall := some isCall } = .ok v ∧
      ∀ᵐ ω ∂P, Tendsto (fun n : ℕ => (∑ k ∈ Finset.range n, discountFactor * vanillaPayoff isCall strike ((gbmPath mean vol x0 times (List.ofFn (D k ω))).getD j 0)) / n)
        atTop (𝓝 v) := by
  intro T
  have hF : 0 < x0 * Real.exp (∫ t in (0 : ℝ)..T, mean.eval t) := mul_pos hx (Real.exp_pos _)
  have hV : 0 ≤ ∫ t in (0 : ℝ)..T, vol.eval t ^ 2 := intervalIntegral.integral_nonneg hT.le fun t _ => sq_nonneg _
  refine ⟨_, C31_expectation _ ⟨by simp, by simp, Real.sqrt_nonneg _, hT.le, by simp [hdf]⟩ (fun _ => ⟨hF, hK⟩), ?_⟩
  have hmeas : Measurable (vanillaPayoff isCall strike) := by
    unfold vanillaPayoff
    cases isCall
    · simp only [Bool.false_eq_true, if_false]; fun_prop
    · simp only [if_true]; fun_prop
  have hint : Integrable (fun x => vanillaPayoff isCall strike (Real.exp x)) (gaussianReal (Real.log (x0 * Real.exp (∫ t in (0 : ℝ)..T, mean.eval t)) -
      (∫ t in (0 : ℝ)..T, vol.eval t ^ 2) / 2) (Real.toNNReal (∫ t in (0 : ℝ)..T, vol.eval t ^ 2))) := by
    have h1 := (integrable_exp_mul_gaussianReal (μ := Real.log (x0 * Real.exp (∫ t in (0 : ℝ)..T, mean.eval t)) - (∫ t in (0 : ℝ)..T, vol.eval t ^ 2) / 2)
      (v := Real.toNNReal (∫ t in (0 : ℝ)..T, vol.eval t ^ 2)) 1).add (integrable_const strike)
    refine h1.mono (hmeas.comp Real.measurable_exp).aestronglyMeasurable (Eventually.of_forall fun x => ?_)
    have hx := Real.exp_pos x
    simp only [Pi.add_apply, one_mul]
    rw [Real.norm_eq_abs, Real.norm_eq_abs, abs_of_nonneg (vanillaPayoff_nonneg _ _ _), abs_of_pos (by linarith)]
    unfold vanillaPayoff
    split <;> exact max_le (by linarith) (by linarith)
  filter_upwards [C118_average P mean vol hm hv times hs h0 D hD x0 hx j hj (vanillaPayoff isCall strike) hmeas hint] with ω hω
  have h2 := hω.const_mul discountFactor
  refine (h2.congr fun n => ?_).trans (le_of_eq ?_)
  · rw [← Finset.mul_sum, mul_div_assoc]
  · congr 1
    simp only [discount, expectation, forward, stdDev, Bool.false_eq_true, if_false, Option.getD_some]
    rw [← Real.sqrt_mul (div_nonneg hV hT.le), div_mul_cancel₀ _ hT.ne']

/-- C118: with constant parameters the limit is the price that `option_price` returns for the spot, the rates and the volatility. -/
theorem C118_black_scholes {Ω : Type} [MeasurableSpace Ω] (P : Measure Ω) (rate dividend volatility expiry : ℝ) (hT : 0 < expiry) (hvol : 0 ≤ volatility)
    (D : ℕ → Ω → Fin 1 → ℝ) (hD : NormalDraws P 1 D) (spot strike : ℝ) (hx : 0 < spot) (hK : 0 < strike) (isCall : Bool) :
    ∃ v, optionPrice { volatility := volatility, strike := strike, expiry := expiry, spot := some spot, discountRate := some rate, dividendRate := some dividend, isCall := some isCall } = .ok v ∧
      ∀ᵐ ω ∂P, Tendsto (fun n : ℕ => (∑ k ∈ Finset.range n, Real.exp (-(rate * expiry)) *
        vanillaPayoff isCall strike ((gbmPath (.constant (rate - dividend)) (.constant volatility) spot [expiry] (List.ofFn (D k ω))).getD 0 0)) / n) atTop (𝓝 v) := by
  obtain ⟨v, hv, hlim⟩ := C118_european P (.constant (rate - dividend)) (.constant volatility) trivial trivial [expiry] (by simp) (by simpa using hT.le) D hD spot hx 0 (by simp)
    strike (Real.exp (-(rate * expiry))) hK (Real.exp_pos _) isCall (by simpa using hT)
  refine ⟨v, ?_, hlim⟩
  rw [← hv, C31_expectation _ ⟨by simp, by simp, hvol, hT.le, by simp⟩ (fun _ => ⟨?_, hK⟩), C31_expectation _ ⟨by simp, by simp, Real.sqrt_nonneg _, by simpa using hT.le, by simp [Real.exp_pos]⟩ (fun _ => ⟨?_, hK⟩)]
  · have e1 : spot * Real.exp (-(dividend * expiry)) / Real.exp (-(rate * expiry)) = spot * Real.exp ((rate - dividend) * expiry) := by
      rw [mul_div_assoc, ← Real.exp_sub]
      congr 2
      ring
    have e2 : Real.sqrt (volatility ^ 2 * expiry / expiry) = volatility := by
      rw [mul_div_cancel_right₀ _ hT.ne', Real.sqrt_sq hvol]
    simp only [discount, expectation, forward, stdDev, Bool.false_eq_true, if_false, Option.getD_some, TimeParam.eval, intervalIntegral.integral_const,
      List.getD_cons_zero, sub_zero, smul_eq_mul]
    rw [e1, mul_comm expiry (volatility ^ 2), e2, mul_comm expiry (rate - dividend)]
  · simp only [forward]
    positivity
  · simp only [forward, discount, Option.getD_some]
    positivity

/-- Draws as required exist: the coordinates of an infinite product. -/
example (m : ℕ) : NormalDraws (Measure.infinitePi fun _ : ℕ => Measure.pi fun _ : Fin m => gaussianReal 0 1) m (fun k ω => ω k) := by
  refine ⟨fun k => measurable_pi_apply k, fun k => ?_, ?_⟩
  · exact (measurePreserving_eval_infinitePi (fun _ : ℕ => Measure.pi fun _ : Fin m => gaussianReal 0 1) k).map_eq
  · intro k l hkl
    exact (iIndepFun_infinitePi (P := fun _ : ℕ => Measure.pi fun _ : Fin m => gaussianReal 0 1) (X := fun _ z => z) (fun _ => measurable_id)).indepFun hkl

end Props
