import Verif.Props.LocalVolatility
import Verif.Props.SchemesGbm
import Verif.Props.HullWhiteSimulation
import Verif.Lemmas.WeakScheme

/-! # C137 Simulated spots of the local volatility model -/

namespace Lemmas
open Model Spec Set MeasureTheory ProbabilityTheory Filter Topology
open scoped BigOperators

/-- The states of a scheme with measurable steps are measurable. -/
theorem scheme_measurable {S Z : Type} [MeasurableSpace S] [MeasurableSpace Z] (step : ℝ → ℝ → S → Z → S)
    (hstep : ∀ t dt, Measurable (fun q : S × Z => step t dt q.1 q.2)) (s0 : S) (ts : List ℝ) (t : ℝ) (i : ℕ) (hi : i ≤ ts.length) :
    Measurable (fun q : S × (Fin ts.length → Z) => (schemeStates step t q.1 ts (List.ofFn q.2)).getD i s0) := by
  induction ts generalizing t i with
  | nil =>
    obtain rfl : i = 0 := by simpa using hi
    simp only [schemeStates, List.getD_cons_zero]
    exact measurable_fst
  | cons t' ts ih =>
    have e : ∀ q : S × (Fin (t' :: ts).length → Z), List.ofFn q.2 = q.2 0 :: List.ofFn (fun k : Fin ts.length => q.2 k.succ) := fun q => List.ofFn_succ
    cases i with
    | zero =>
      simp_rw [e]
      simp only [schemeStates, List.getD_cons_zero]
      exact measurable_fst
    | succ i =>
      simp_rw [e]
      simp only [schemeStates, List.getD_cons_succ]
      have h1 := ih t' i (by simpa using hi)
      have h2 : Measurable (fun q : S × (Fin (t' :: ts).length → Z) => (step t' (t' - t) q.1 (q.2 0), fun k : Fin ts.length => q.2 k.succ)) := by
        refine Measurable.prodMk ?_ ?_
        · exact (hstep t' (t' - t)).comp (measurable_fst.prodMk ((measurable_pi_apply 0).comp measurable_snd))
        · exact measurable_pi_lambda _ fun k => (measurable_pi_apply k.succ).comp measurable_snd
      exact h1.comp h2

/-- A function of the state whose expectation grows by a known factor in every step. -/
theorem scheme_growth {S Z : Type} [MeasurableSpace S] [MeasurableSpace Z] (ν : Measure Z) [IsProbabilityMeasure ν] (step : ℝ → ℝ → S → Z → S)
    (hstep : ∀ t dt, Measurable (fun q : S × Z => step t dt q.1 q.2)) (s0 : S) (φ : S → ENNReal) (hφ : Measurable φ) (μ : ℝ → ℝ)
    (hg : ∀ t dt x, 0 ≤ dt → ∫⁻ z, φ (step t dt x z) ∂ν = ENNReal.ofReal (Real.exp (μ t * dt)) * φ x) (ts : List ℝ) (t : ℝ) (hs : (t :: ts).Pairwise (· ≤ ·)) (i : ℕ)
    (hi : i ≤ ts.length) (x : S) :
    ∫⁻ z : Fin ts.length → Z, φ ((schemeStates step t x ts (List.ofFn z)).getD i s0) ∂(Measure.pi fun _ => ν) =
      ENNReal.ofReal (Real.exp (∑ q ∈ Finset.range i, μ ((t :: ts).getD (q + 1) 0) * ((t :: ts).getD (q + 1) 0 - (t :: ts).getD q 0))) * φ x := by
  induction ts generalizing t i x with
  | nil =>
    obtain rfl : i = 0 := by simpa using hi
    simp [schemeStates]
  | cons t' ts ih =>
    have hs' := List.pairwise_cons.1 hs
    have htt : t ≤ t' := hs'.1 t' (by simp)
    have e : ∀ z : Fin (t' :: ts).length → Z, List.ofFn z = z 0 :: List.ofFn (fun k : Fin ts.length => z k.succ) := fun z => List.ofFn_succ
    cases i with
    | zero =>
      simp_rw [e]
      simp only [schemeStates, List.getD_cons_zero, Finset.range_zero, Finset.sum_empty, Real.exp_zero, ENNReal.ofReal_one, one_mul]
      rw [lintegral_const, measure_univ, mul_one]
    | succ i =>
      simp_rw [e]
      simp only [schemeStates, List.getD_cons_succ]
      have hi' : i ≤ ts.length := by simpa using hi
      have hm2 : Measurable (fun q : Z × (Fin ts.length → Z) => φ ((schemeStates step t' (step t' (t' - t) x q.1) ts (List.ofFn q.2)).getD i s0)) := by
        refine hφ.comp ((scheme_measurable step hstep s0 ts t' i hi').comp (Measurable.prodMk ?_ measurable_snd))
        exact (hstep t' (t' - t)).comp (measurable_const.prodMk measurable_fst)
      refine (first_draw_lintegral ts.length (fun z0 zs => φ ((schemeStates step t' (step t' (t' - t) x z0) ts (List.ofFn zs)).getD i s0)) hm2).trans ?_
      have hm1 : Measurable (fun z0 => φ (step t' (t' - t) x z0)) := hφ.comp ((hstep t' (t' - t)).comp (measurable_const.prodMk measurable_id))
      rw [lintegral_congr fun z0 => ih t' hs'.2 i hi' (step t' (t' - t) x z0), lintegral_const_mul _ hm1, hg t' (t' - t) x (sub_nonneg.2 htt), ← mul_assoc,
        ← ENNReal.ofReal_mul (Real.exp_pos _).le, ← Real.exp_add, Finset.sum_range_succ']
      simp only [List.getD_cons_succ, List.getD_cons_zero]

/-- A function of the state that does not decrease in mean over a step. -/
theorem scheme_increase {S Z : Type} [MeasurableSpace S] [MeasurableSpace Z] (ν : Measure Z) [IsProbabilityMeasure ν] (step : ℝ → ℝ → S → Z → S)
    (hstep : ∀ t dt, Measurable (fun q : S × Z => step t dt q.1 q.2)) (s0 : S) (φ ψ : S → ENNReal) (hφ : Measurable φ) (hψ : Measurable ψ)
    (ts : List ℝ) (t : ℝ) (hs : (t :: ts).Pairwise (· ≤ ·)) (i : ℕ) (hi : i < ts.length) (x : S)
    (hg : ∀ x, φ x ≤ ∫⁻ z, ψ (step ((t :: ts).getD (i + 1) 0) ((t :: ts).getD (i + 1) 0 - (t :: ts).getD i 0) x z) ∂ν) :
    ∫⁻ z : Fin ts.length → Z, φ ((schemeStates step t x ts (List.ofFn z)).getD i s0) ∂(Measure.pi fun _ => ν) ≤
      ∫⁻ z : Fin ts.length → Z, ψ ((schemeStates step t x ts (List.ofFn z)).getD (i + 1) s0) ∂(Measure.pi fun _ => ν) := by
  induction ts generalizing t i x with
  | nil => simp at hi
  | cons t' ts ih =>
    have hs' := List.pairwise_cons.1 hs
    have e : ∀ z : Fin (t' :: ts).length → Z, List.ofFn z = z 0 :: List.ofFn (fun k : Fin ts.length => z k.succ) := fun z => List.ofFn_succ
    have hm : ∀ (χ : S → ENNReal), Measurable χ → ∀ i ≤ ts.length,
        Measurable (fun q : Z × (Fin ts.length → Z) => χ ((schemeStates step t' (step t' (t' - t) x q.1) ts (List.ofFn q.2)).getD i s0)) := by
      intro χ hχ i hi'
      refine hχ.comp ((scheme_measurable step hstep s0 ts t' i hi').comp (Measurable.prodMk ?_ measurable_snd))
      exact (hstep t' (t' - t)).comp (measurable_const.prodMk measurable_fst)
    have hsplit : ∀ (χ : S → ENNReal), Measurable χ → ∀ i ≤ ts.length,
        ∫⁻ z : Fin (t' :: ts).length → Z, χ ((schemeStates step t x (t' :: ts) (List.ofFn z)).getD (i + 1) s0) ∂(Measure.pi fun _ => ν) =
          ∫⁻ z0, ∫⁻ zs : Fin ts.length → Z, χ ((schemeStates step t' (step t' (t' - t) x z0) ts (List.ofFn zs)).getD i s0) ∂(Measure.pi fun _ => ν) ∂ν := by
      intro χ hχ i hi'
      simp_rw [e]
      simp only [schemeStates, List.getD_cons_succ]
      exact first_draw_lintegral ts.length (fun z0 zs => χ ((schemeStates step t' (step t' (t' - t) x z0) ts (List.ofFn zs)).getD i s0)) (hm χ hχ i hi')
    cases i with
    | zero =>
      rw [hsplit ψ hψ 0 (by omega)]
      simp_rw [e]
      simp only [schemeStates, List.getD_cons_zero]
      rw [lintegral_const, measure_univ, mul_one]
      refine (hg x).trans (lintegral_mono fun z0 => ?_)
      have h0 : ∀ zs : Fin ts.length → Z, (schemeStates step t' (step t' (t' - t) x z0) ts (List.ofFn zs)).getD 0 s0 = step t' (t' - t) x z0 := fun zs => by
        cases ts <;> simp [schemeStates]
      simp_rw [h0]
      rw [lintegral_const, measure_univ, mul_one]
      simp
    | succ i =>
      rw [hsplit φ hφ i (by simp at hi; omega), hsplit ψ hψ (i + 1) (by simpa using hi)]
      exact lintegral_mono fun z0 => ih t' hs'.2 i (by simpa using hi) _ (fun x => by simpa only [List.getD_cons_succ] using hg x)

/-! ## The steps of the local volatility model -/

section LocalVol
variable {d : ℕ} (localVol : ℝ → (Fin d → ℝ) → Fin d → ℝ) (domestic foreign : Fin d → ℝ → ℝ) (sqrtRho : Matrix (Fin d) (Fin d) ℝ)

/-- The logarithm of a spot after a step. -/
theorem lv_step (t dt : ℝ) (x z : Fin d → ℝ) (k : Fin d) :
    eulerStep (lvLogDrift localVol domestic foreign) (lvLogVol localVol sqrtRho) t dt x z k =
      x k + dt * (domestic k t - foreign k t - localVol t (fun j => Real.exp (x j)) k * localVol t (fun j => Real.exp (x j)) k / 2) +
        localVol t (fun j => Real.exp (x j)) k * Real.sqrt dt * stochasticIncrement (some sqrtRho) z k := by
  have e : ∀ j, lvLogVol localVol sqrtRho t x k j = localVol t (fun j => Real.exp (x j)) k * sqrtRho k j := by
    intro j
    simp [lvLogVol, lvVol, List.getD_eq_getElem?_getD]
  simp only [eulerStep, lvLogDrift, lvDrift, Matrix.mulVec, dotProduct, e, stochasticIncrement, Finset.mul_sum]
  congr 1
  exact Finset.sum_congr rfl fun j _ => by ring

theorem lv_measurable (hm : ∀ t k, Measurable (fun x => localVol t x k)) (t dt : ℝ) :
    Measurable (fun q : (Fin d → ℝ) × (Fin d → ℝ) => eulerStep (lvLogDrift localVol domestic foreign) (lvLogVol localVol sqrtRho) t dt q.1 q.2) := by
  refine measurable_pi_lambda _ fun k => ?_
  simp_rw [lv_step]
  have h1 : Measurable (fun q : (Fin d → ℝ) × (Fin d → ℝ) => localVol t (fun j => Real.exp (q.1 j)) k) :=
    (hm t k).comp (measurable_pi_lambda _ fun j => Real.measurable_exp.comp ((measurable_pi_apply j).comp measurable_fst))
  have h2 : Measurable (fun q : (Fin d → ℝ) × (Fin d → ℝ) => stochasticIncrement (some sqrtRho) q.2 k) := by
    simp only [stochasticIncrement, Matrix.mulVec, dotProduct]
    exact Finset.measurable_sum _ fun j _ => ((measurable_pi_apply j).comp measurable_snd).const_mul _
  have h3 : Measurable (fun q : (Fin d → ℝ) × (Fin d → ℝ) => q.1 k) := (measurable_pi_apply k).comp measurable_fst
  exact (h3.add ((measurable_const.sub ((h1.mul h1).div_const 2)).const_mul dt)).add ((h1.mul_const _).mul h2)

/-- The mean of a lognormal factor. -/
theorem lognormal_factor_mean (σ : ℝ) : Integrable (fun z : ℝ => Real.exp (-(σ * σ / 2) + σ * z)) (gaussianReal 0 1) ∧
    ∫ z, Real.exp (-(σ * σ / 2) + σ * z) ∂(gaussianReal 0 1) = 1 := by
  simp_rw [Real.exp_add]
  refine ⟨(integrable_exp_mul_gaussianReal σ).const_mul _, ?_⟩
  rw [integral_const_mul, gauss_exp, ← Real.exp_add, ← Real.exp_zero]
  congr 1
  ring

/-- The mean of a spot after a step. -/
theorem lv_growth (hunit : ∀ k, ∑ m, sqrtRho k m ^ 2 = 1) (k : Fin d) (t dt : ℝ) (x : Fin d → ℝ) (hdt : 0 ≤ dt) :
    Integrable (fun z => Real.exp (eulerStep (lvLogDrift localVol domestic foreign) (lvLogVol localVol sqrtRho) t dt x z k)) (Measure.pi fun _ : Fin d => gaussianReal 0 1) ∧
    ∫ z, Real.exp (eulerStep (lvLogDrift localVol domestic foreign) (lvLogVol localVol sqrtRho) t dt x z k) ∂(Measure.pi fun _ : Fin d => gaussianReal 0 1) =
      Real.exp ((domestic k t - foreign k t) * dt) * Real.exp (x k) := by
  obtain ⟨hξ, hlaw⟩ := increment_law (some sqrtRho) (fun L hL => by cases hL; exact hunit) k
  set σ := localVol t (fun j => Real.exp (x j)) k * Real.sqrt dt with hσ
  have e : ∀ z : Fin d → ℝ, Real.exp (eulerStep (lvLogDrift localVol domestic foreign) (lvLogVol localVol sqrtRho) t dt x z k) =
      Real.exp ((domestic k t - foreign k t) * dt) * Real.exp (x k) * Real.exp (-(σ * σ / 2) + σ * stochasticIncrement (some sqrtRho) z k) := by
    intro z
    rw [lv_step, ← Real.exp_add, ← Real.exp_add]
    congr 1
    have := Real.mul_self_sqrt hdt
    rw [hσ]
    linear_combination (localVol t (fun j => Real.exp (x j)) k ^ 2 / 2) * this
  simp_rw [e]
  obtain ⟨h1, h2⟩ := lognormal_factor_mean σ
  rw [← hlaw] at h1 h2
  rw [integral_map hξ.aemeasurable (by fun_prop)] at h2
  refine ⟨(h1.comp_measurable hξ).const_mul _, ?_⟩
  rw [integral_const_mul, h2, mul_one]

end LocalVol

end Lemmas

namespace Props
open Model Lemmas Spec Set MeasureTheory ProbabilityTheory Filter Topology
open scoped BigOperators

variable {d : ℕ} (localVol : ℝ → (Fin d → ℝ) → Fin d → ℝ) (domestic foreign : Fin d → ℝ → ℝ) (sqrtRho : Matrix (Fin d) (Fin d) ℝ)

/-- The spots of the simulation on a grid. -/
noncomputable def lvSpots (x0 : Fin d → ℝ) (ts : List ℝ) (i : ℕ) (z : Fin ts.length → Fin d → ℝ) (k : Fin d) : ℝ :=
  Real.exp ((schemeStates (eulerStep (lvLogDrift localVol domestic foreign) (lvLogVol localVol sqrtRho)) 0 (fun j => Real.log (x0 j)) ts (List.ofFn z)).getD i 0 k)

theorem lvSpots_measurable (hm : ∀ t k, Measurable (fun x => localVol t x k)) (x0 : Fin d → ℝ) (ts : List ℝ) (i : ℕ) (hi : i ≤ ts.length) (k : Fin d) :
    Measurable (fun z => lvSpots localVol domestic foreign sqrtRho x0 ts i z k) :=
  Real.measurable_exp.comp ((measurable_pi_apply k).comp ((scheme_measurable _ (lv_measurable localVol domestic foreign sqrtRho hm) 0 ts 0 i hi).comp
    (measurable_const.prodMk measurable_id)))

/-- C137: on every grid and for every local volatility function the mean of the simulated spots is exactly the spot compounded at the rates of the steps, so that the time
discretisation does not bias the forward. -/
theorem C137_forward (hm : ∀ t k, Measurable (fun x => localVol t x k)) (hunit : ∀ k, ∑ m, sqrtRho k m ^ 2 = 1) (x0 : Fin d → ℝ) (hx : ∀ k, 0 < x0 k) (ts : List ℝ)
    (hs : (0 :: ts).Pairwise (· ≤ ·)) (i : ℕ) (hi : i ≤ ts.length) (k : Fin d) :
    Integrable (fun z => lvSpots localVol domestic foreign sqrtRho x0 ts i z k) (stepNormals ts.length d) ∧
    ∫ z, lvSpots localVol domestic foreign sqrtRho x0 ts i z k ∂(stepNormals ts.length d) =
      x0 k * Real.exp (∑ q ∈ Finset.range i, (domestic k ((0 :: ts).getD (q + 1) 0) - foreign k ((0 :: ts).getD (q + 1) 0)) *
        ((0 :: ts).getD (q + 1) 0 - (0 :: ts).getD q 0)) := by
  have hφ : Measurable (fun x : Fin d → ℝ => ENNReal.ofReal (Real.exp (x k))) := ENNReal.measurable_ofReal.comp (Real.measurable_exp.comp (measurable_pi_apply k))
  have h := scheme_growth (Measure.pi fun _ : Fin d => gaussianReal 0 1) _ (lv_measurable localVol domestic foreign sqrtRho hm) 0
    (fun x => ENNReal.ofReal (Real.exp (x k))) hφ (fun t => domestic k t - foreign k t) (fun t dt x hdt => by
      obtain ⟨h1, h2⟩ := lv_growth localVol domestic foreign sqrtRho hunit k t dt x hdt
      rw [← ofReal_integral_eq_lintegral_ofReal h1 (Eventually.of_forall fun z => (Real.exp_pos _).le), h2, ENNReal.ofReal_mul (Real.exp_pos _).le]) ts 0 hs i hi
    (fun j => Real.log (x0 j))
  have h0 : 0 ≤ᵐ[stepNormals ts.length d] fun z => lvSpots localVol domestic foreign sqrtRho x0 ts i z k := Eventually.of_forall fun z => (Real.exp_pos _).le
  have hms := lvSpots_measurable localVol domestic foreign sqrtRho hm x0 ts i hi k
  have hi1 : Integrable (fun z => lvSpots localVol domestic foreign sqrtRho x0 ts i z k) (stepNormals ts.length d) := by
    refine ⟨hms.aestronglyMeasurable, ?_⟩
    rw [hasFiniteIntegral_iff_ofReal h0]
    refine (le_of_eq h).trans_lt ?_
    exact ENNReal.mul_lt_top ENNReal.ofReal_lt_top ENNReal.ofReal_lt_top
  refine ⟨hi1, ?_⟩
  have h2 := integral_eq_lintegral_of_nonneg_ae h0 hms.aestronglyMeasurable
  rw [h2, mul_comm]
  refine (congrArg ENNReal.toReal h).trans ?_
  rw [← ENNReal.ofReal_mul (Real.exp_pos _).le, ENNReal.toReal_ofReal (by positivity), Real.exp_log (hx k)]

/-- C137: with constant rates the mean is the forward. -/
theorem C137_forward_constant (r q : Fin d → ℝ) (hm : ∀ t k, Measurable (fun x => localVol t x k)) (hunit : ∀ k, ∑ m, sqrtRho k m ^ 2 = 1) (x0 : Fin d → ℝ)
    (hx : ∀ k, 0 < x0 k) (ts : List ℝ) (hs : (0 :: ts).Pairwise (· ≤ ·)) (i : ℕ) (hi : i ≤ ts.length) (k : Fin d) :
    ∫ z, lvSpots localVol (fun k _ => r k) (fun k _ => q k) sqrtRho x0 ts i z k ∂(stepNormals ts.length d) = x0 k * Real.exp ((r k - q k) * (0 :: ts).getD i 0) := by
  rw [(C137_forward localVol _ _ sqrtRho hm hunit x0 hx ts hs i hi k).2, ← Finset.mul_sum, Finset.sum_range_sub (fun q => (0 :: ts).getD q 0)]
  simp

/-- C137: put-call parity of the simulated prices, and bounds: a call is worth at least the forward minus the strike and at most the forward. -/
theorem C137_parity (hm : ∀ t k, Measurable (fun x => localVol t x k)) (hunit : ∀ k, ∑ m, sqrtRho k m ^ 2 = 1) (x0 : Fin d → ℝ) (hx : ∀ k, 0 < x0 k) (ts : List ℝ)
    (hs : (0 :: ts).Pairwise (· ≤ ·)) (i : ℕ) (hi : i ≤ ts.length) (k : Fin d) (strike : ℝ) (hk : 0 ≤ strike) :
    let forward := x0 k * Real.exp (∑ q ∈ Finset.range i, (domestic k ((0 :: ts).getD (q + 1) 0) - foreign k ((0 :: ts).getD (q + 1) 0)) *
        ((0 :: ts).getD (q + 1) 0 - (0 :: ts).getD q 0))
    let price := fun isCall => ∫ z, vanillaPayoff isCall strike (lvSpots localVol domestic foreign sqrtRho x0 ts i z k) ∂(stepNormals ts.length d)
    price true - price false = forward - strike ∧ max (forward - strike) 0 ≤ price true ∧ price true ≤ forward ∧ max (strike - forward) 0 ≤ price false ∧ price false ≤ strike := by
  intro forward price
  obtain ⟨h1, h2⟩ := C137_forward localVol domestic foreign sqrtRho hm hunit x0 hx ts hs i hi k
  set S := fun z => lvSpots localVol domestic foreign sqrtRho x0 ts i z k with hS
  have hpos : ∀ z, 0 < S z := fun z => Real.exp_pos _
  have hc : Integrable (fun z => max (S z - strike) 0) (stepNormals ts.length d) := (h1.sub (integrable_const strike)).pos_part
  have hp : Integrable (fun z => max (strike - S z) 0) (stepNormals ts.length d) := ((integrable_const strike).sub h1).pos_part
  have ec : price true = ∫ z, max (S z - strike) 0 ∂(stepNormals ts.length d) := by simp only [price, vanillaPayoff, if_true]; rfl
  have ep : price false = ∫ z, max (strike - S z) 0 ∂(stepNormals ts.length d) := by simp only [price, vanillaPayoff, Bool.false_eq_true, if_false]; rfl
  have hpar : price true - price false = forward - strike := by
    rw [ec, ep, ← integral_sub hc hp]
    have e : ∀ z, max (S z - strike) 0 - max (strike - S z) 0 = S z - strike := fun z => by
      rcases le_total (S z) strike with h | h
      · rw [max_eq_right (by linarith), max_eq_left (by linarith)]; ring
      · rw [max_eq_left (by linarith), max_eq_right (by linarith)]; ring
    simp_rw [e]
    rw [integral_sub h1 (integrable_const _), h2]
    simp [forward]
  have hc0 : 0 ≤ price true := by rw [ec]; exact integral_nonneg fun z => le_max_right _ _
  have hp0 : 0 ≤ price false := by rw [ep]; exact integral_nonneg fun z => le_max_right _ _
  have hcu : price true ≤ forward := by
    rw [ec]
    refine (integral_mono hc h1 fun z => ?_).trans (le_of_eq h2)
    exact max_le (by linarith) (hpos z).le
  refine ⟨hpar, max_le (by linarith) hc0, hcu, max_le (by linarith) hp0, ?_⟩
  have : price false = price true - (forward - strike) := by linarith
  linarith

/-- C137: no calendar arbitrage in the simulated prices. From one time of the grid to the next, calls with strikes that grow like the forward do not lose value. -/
theorem C137_calendar (hm : ∀ t k, Measurable (fun x => localVol t x k)) (hunit : ∀ k, ∑ m, sqrtRho k m ^ 2 = 1) (x0 : Fin d → ℝ) (hx : ∀ k, 0 < x0 k) (ts : List ℝ)
    (hs : (0 :: ts).Pairwise (· ≤ ·)) (i : ℕ) (hi : i < ts.length) (k : Fin d) (strike : ℝ) :
    let growth := Real.exp ((domestic k (ts.getD i 0) - foreign k (ts.getD i 0)) * (ts.getD i 0 - (0 :: ts).getD i 0))
    growth * ∫ z, vanillaPayoff true strike (lvSpots localVol domestic foreign sqrtRho x0 ts i z k) ∂(stepNormals ts.length d) ≤
      ∫ z, vanillaPayoff true (strike * growth) (lvSpots localVol domestic foreign sqrtRho x0 ts (i + 1) z k) ∂(stepNormals ts.length d) := by
  intro growth
  have hg0 : 0 < growth := Real.exp_pos _
  have e1 : (0 :: ts).getD (i + 1) 0 = ts.getD i 0 := List.getD_cons_succ
  have hdt : 0 ≤ ts.getD i 0 - (0 :: ts).getD i 0 := by
    have := getD_mono _ hs i (i + 1) (by omega) (by simp; omega)
    rw [e1] at this
    linarith
  have hmφ : ∀ c K : ℝ, Measurable (fun x : Fin d → ℝ => ENNReal.ofReal (c * max (Real.exp (x k) - K) 0)) := fun c K =>
    ENNReal.measurable_ofReal.comp ((((Real.measurable_exp.comp (measurable_pi_apply k)).sub_const K).max measurable_const).const_mul c)
  have h := scheme_increase (Measure.pi fun _ : Fin d => gaussianReal 0 1) _ (lv_measurable localVol domestic foreign sqrtRho hm) 0
    (fun x => ENNReal.ofReal (growth * max (Real.exp (x k) - strike) 0)) (fun x => ENNReal.ofReal (1 * max (Real.exp (x k) - strike * growth) 0)) (hmφ _ _) (hmφ _ _)
    ts 0 hs i hi (fun j => Real.log (x0 j)) (fun x => by
      rw [e1]
      obtain ⟨g1, g2⟩ := lv_growth localVol domestic foreign sqrtRho hunit k (ts.getD i 0) _ x hdt
      set step := eulerStep (lvLogDrift localVol domestic foreign) (lvLogVol localVol sqrtRho)
      have hc : Integrable (fun z => max (Real.exp (step (ts.getD i 0) (ts.getD i 0 - (0 :: ts).getD i 0) x z k) - strike * growth) 0)
        (Measure.pi fun _ : Fin d => gaussianReal 0 1) := (g1.sub (integrable_const _)).pos_part
      simp_rw [one_mul]
      rw [← ofReal_integral_eq_lintegral_ofReal hc (Eventually.of_forall fun z => le_max_right _ _)]
      refine ENNReal.ofReal_le_ofReal ?_
      rw [mul_max_of_nonneg _ _ hg0.le, mul_zero]
      refine max_le ?_ (integral_nonneg fun z => le_max_right _ _)
      calc growth * (Real.exp (x k) - strike) = ∫ z, (Real.exp (step (ts.getD i 0) (ts.getD i 0 - (0 :: ts).getD i 0) x z k) - strike * growth)
            ∂(Measure.pi fun _ : Fin d => gaussianReal 0 1) := by
            rw [integral_sub g1 (integrable_const _), g2]
            simp only [integral_const, probReal_univ, smul_eq_mul, one_mul]
            ring
        _ ≤ _ := integral_mono (g1.sub (integrable_const _)) hc fun z => le_max_left _ _)
  have hint : ∀ j ≤ ts.length, ∀ K, Integrable (fun z => vanillaPayoff true K (lvSpots localVol domestic foreign sqrtRho x0 ts j z k)) (stepNormals ts.length d) := by
    intro j hj K
    simp only [vanillaPayoff, if_true]
    exact ((C137_forward localVol domestic foreign sqrtRho hm hunit x0 hx ts hs j hj k).1.sub (integrable_const _)).pos_part
  have hnn : ∀ (K y : ℝ), 0 ≤ vanillaPayoff true K y := fun K y => by simp [vanillaPayoff]
  rw [← integral_const_mul]
  have r1 := ofReal_integral_eq_lintegral_ofReal ((hint i hi.le strike).const_mul growth) (Eventually.of_forall fun z => mul_nonneg hg0.le (hnn _ _))
  have r2 := ofReal_integral_eq_lintegral_ofReal (hint (i + 1) hi (strike * growth)) (Eventually.of_forall fun z => hnn _ _)
  refine (ENNReal.ofReal_le_ofReal_iff (integral_nonneg fun z => hnn _ _)).1 ?_
  rw [r1, r2]
  simp only [one_mul] at h
  simp only [vanillaPayoff, if_true]
  exact h

/-- C137: a local volatility that depends on the time only gives exactly lognormal spots on every grid, with the forward above and the variance summed over the steps. -/
theorem C137_lognormal (σ : ℝ → Fin d → ℝ) (hunit : ∀ k, ∑ m, sqrtRho k m ^ 2 = 1) (x0 : Fin d → ℝ) (hx : ∀ k, 0 < x0 k) (ts : List ℝ)
    (hs : (0 :: ts).Pairwise (· ≤ ·)) (i : ℕ) (hi : i ≤ ts.length) (k : Fin d) (f : ℝ → ℝ) (hf : Measurable f) :
    ∫ z, f (lvSpots (fun t _ => σ t) domestic foreign sqrtRho x0 ts i z k) ∂(stepNormals ts.length d) =
      lognormalExpectation (x0 k * Real.exp (∑ q ∈ Finset.range i, (domestic k ((0 :: ts).getD (q + 1) 0) - foreign k ((0 :: ts).getD (q + 1) 0)) *
        ((0 :: ts).getD (q + 1) 0 - (0 :: ts).getD q 0)))
        (Real.sqrt (∑ q ∈ Finset.range i, σ ((0 :: ts).getD (q + 1) 0) k ^ 2 * ((0 :: ts).getD (q + 1) 0 - (0 :: ts).getD q 0))) f := by
  obtain ⟨hξ, hlaw⟩ := increment_law (some sqrtRho) (fun L hL => by cases hL; exact hunit) k
  set τ : ℕ → ℝ := fun q => (0 :: ts).getD q 0 with hτ
  set μ : ℝ → ℝ := fun t => domestic k t - foreign k t with hμ
  have hnn : ∀ q < i, 0 ≤ τ (q + 1) - τ q := fun q hq => sub_nonneg.2 (getD_mono _ hs q (q + 1) (by omega) (by simp; omega))
  set w : Fin ts.length → ℝ := fun q => if q.1 < i then σ (τ (q.1 + 1)) k * Real.sqrt (τ (q.1 + 1) - τ q.1) else 0 with hw
  set V := ∑ q ∈ Finset.range i, σ (τ (q + 1)) k ^ 2 * (τ (q + 1) - τ q) with hV
  have reindex : ∀ c : ℕ → ℝ, ∑ q : Fin ts.length, (if q.1 < i then c q.1 else 0) = ∑ q ∈ Finset.range i, c q := fun c => by
    rw [Fin.sum_univ_eq_sum_range (fun q => if q < i then c q else 0) ts.length, ← Finset.sum_filter]
    congr 1
    ext q
    simp only [Finset.mem_filter, Finset.mem_range]
    omega
  have hw2 : ∑ q, w q ^ 2 = V := by
    rw [hV, ← reindex]
    refine Finset.sum_congr rfl fun q _ => ?_
    simp only [hw]
    by_cases h : q.1 < i
    · simp only [if_pos h]
      rw [mul_pow, Real.sq_sqrt (hnn _ h)]
    · simp only [if_neg h]
      norm_num
  have hspot : ∀ z : Fin ts.length → Fin d → ℝ, lvSpots (fun t _ => σ t) domestic foreign sqrtRho x0 ts i z k =
      x0 k * Real.exp (∑ q ∈ Finset.range i, μ (τ (q + 1)) * (τ (q + 1) - τ q) - V / 2 + ∑ q, w q * stochasticIncrement (some sqrtRho) (z q) k) := by
    intro z
    have h := states_product (eulerStep (lvLogDrift (fun t _ => σ t) domestic foreign) (lvLogVol (fun t _ => σ t) sqrtRho)) (fun x => Real.exp (x k))
      (fun t dt z => Real.exp (μ t * dt - σ t k ^ 2 * dt / 2 + σ t k * Real.sqrt dt * stochasticIncrement (some sqrtRho) z k))
      (fun t dt x z hdt => by
        simp only [lv_step]
        rw [← Real.exp_add]
        congr 1
        rw [hμ]
        ring) 0 0 0 ts hs (fun j => Real.log (x0 j)) (List.ofFn z) (by simp) i hi
    unfold lvSpots
    rw [h, Real.exp_log (hx k)]
    congr 1
    rw [ofFn_prod z 0 (fun q z => Real.exp (μ (τ (q + 1)) * (τ (q + 1) - τ q) - σ (τ (q + 1)) k ^ 2 * (τ (q + 1) - τ q) / 2 +
      σ (τ (q + 1)) k * Real.sqrt (τ (q + 1) - τ q) * stochasticIncrement (some sqrtRho) z k)) i hi]
    have e : ∀ q : Fin ts.length, (if q.1 < i then Real.exp (μ (τ (q.1 + 1)) * (τ (q.1 + 1) - τ q.1) - σ (τ (q.1 + 1)) k ^ 2 * (τ (q.1 + 1) - τ q.1) / 2 +
        σ (τ (q.1 + 1)) k * Real.sqrt (τ (q.1 + 1) - τ q.1) * stochasticIncrement (some sqrtRho) (z q) k) else 1) =
        Real.exp ((if q.1 < i then (fun q => μ (τ (q + 1)) * (τ (q + 1) - τ q)) q.1 else 0) - (if q.1 < i then (fun q => σ (τ (q + 1)) k ^ 2 * (τ (q + 1) - τ q)) q.1 else 0) / 2 +
          w q * stochasticIncrement (some sqrtRho) (z q) k) := by
      intro q
      simp only [hw]
      by_cases h : q.1 < i
      · simp only [if_pos h]
      · simp only [if_neg h]
        norm_num
    simp_rw [e]
    rw [← Real.exp_sum]
    congr 1
    rw [Finset.sum_add_distrib, Finset.sum_sub_distrib, ← Finset.sum_div, reindex (fun q => μ (τ (q + 1)) * (τ (q + 1) - τ q)),
      reindex (fun q => σ (τ (q + 1)) k ^ 2 * (τ (q + 1) - τ q))]
  simp_rw [hspot]
  have hm : Measurable (fun y : ℝ => f (x0 k * Real.exp (∑ q ∈ Finset.range i, μ (τ (q + 1)) * (τ (q + 1) - τ q) - V / 2 + y))) := hf.comp (by fun_prop)
  have hc := combination_law (Measure.pi fun _ : Fin d => gaussianReal 0 1) (fun z => stochasticIncrement (some sqrtRho) z k) hξ hlaw w _ hm
  refine hc.trans ?_
  have hl := limit_lognormal _ V (x0 k) (∑ q ∈ Finset.range i, μ (τ (q + 1)) * (τ (q + 1) - τ q)) (hx k) rfl f hf
  refine Eq.trans ?_ hl
  rw [hw2]
  have hV0 : 0 ≤ V := by rw [← hw2]; exact Finset.sum_nonneg fun q _ => sq_nonneg _
  simp only [exactGrowth, Real.sq_sqrt hV0]

/-- C137: with a constant volatility the simulated price of a European option is exactly that of `option_price`, on every grid. -/
theorem C137_flat (r q σ : Fin d → ℝ) (hunit : ∀ k, ∑ m, sqrtRho k m ^ 2 = 1) (x0 : Fin d → ℝ) (hx : ∀ k, 0 < x0 k) (ts : List ℝ) (hs : (0 :: ts).Pairwise (· ≤ ·))
    (i : ℕ) (hi : i ≤ ts.length) (k : Fin d) (hσ : 0 ≤ σ k) (strike discountFactor : ℝ) (hK : 0 < strike) (hdf : 0 < discountFactor) (isCall : Bool) :
    optionPrice { volatility := σ k, strike := strike, expiry := (0 :: ts).getD i 0, forward := some (x0 k * Real.exp ((r k - q k) *
      (0 :: ts).getD i 0)), discountFactor := some discountFactor, isCall := some isCall } =
      .ok (discountFactor * ∫ z, vanillaPayoff isCall strike (lvSpots (fun _ _ => σ) (fun k _ => r k) (fun k _ => q k) sqrtRho x0 ts i z k) ∂(stepNormals ts.length d)) := by
  have ht0 : 0 ≤ (0 :: ts).getD i 0 := pairwise_head_le 0 ts hs i hi
  have hmeas : Measurable (vanillaPayoff isCall strike) := by
    unfold vanillaPayoff
    cases isCall
    · simp only [Bool.false_eq_true, if_false]; fun_prop
    · simp only [if_true]; fun_prop
  have hF : 0 < x0 k * Real.exp ((r k - q k) * (0 :: ts).getD i 0) := mul_pos (hx k) (Real.exp_pos _)
  refine (C31_expectation {
    volatility := σ k
    strike := strike
    expiry := (0 :: ts).getD i 0
    forward := some (x0 k * Real.exp ((r k - q k) * (0 :: ts).getD i 0))
    discountFactor := some discountFactor
    isCall := some isCall } ⟨by simp, by simp, hσ, ht0, by simp [hdf]⟩ (fun _ => ⟨hF, hK⟩)).trans ?_
  rw [C137_lognormal (fun k _ => r k) (fun k _ => q k) sqrtRho (fun _ => σ) hunit x0 hx ts hs i hi k _ hmeas]
  simp only [discount, expectation, forward, stdDev, Bool.false_eq_true, if_false, Option.getD_some]
  have tel : ∀ c : ℝ, ∑ q ∈ Finset.range i, c * ((0 :: ts).getD (q + 1) 0 - (0 :: ts).getD q 0) = c * (0 :: ts).getD i 0 := fun c => by
    rw [← Finset.mul_sum, Finset.sum_range_sub (fun q => (0 :: ts).getD q 0)]
    simp
  rw [tel, tel, Real.sqrt_mul (sq_nonneg _), Real.sqrt_sq hσ]

/-- C137: averages of the sampled spots converge with the number of paths, and then with the number of time steps to the forward for rates that are continuous in time. -/
theorem C137_sampler (hm : ∀ t k, Measurable (fun x => localVol t x k)) (hunit : ∀ k, ∑ m, sqrtRho k m ^ 2 = 1) (x0 : Fin d → ℝ) (hx : ∀ k, 0 < x0 k) (k : Fin d)
    (times : List ℝ) (tol last : ℝ) (hpos : ∀ t ∈ times, 0 < t) (hlast : times.getLast? = some last) (hinc : times.Pairwise (· < ·)) (j : ℕ) (t : ℝ) (hj : times[j]? = some t)
    (hd : ContinuousOn (domestic k) (Icc 0 t)) (hf : ContinuousOn (foreign k) (Icc 0 t)) :
    ∃ v : ℕ → ℝ, Tendsto v atTop (𝓝 (x0 k * Real.exp (∫ s in (0 : ℝ)..t, (domestic k s - foreign k s)))) ∧
      ∀ᶠ N : ℕ in atTop, ∃ all mask indices, prepareGrid times (last / N) tol (some N) none = some (all, mask, indices) ∧
        ∀ (Ω : Type) (_ : MeasurableSpace Ω) (P : Measure Ω) (D : ℕ → Ω → Fin (all.length - 1) → Fin d → ℝ), PathDraws P (stepNormals (all.length - 1) d) D →
          ∀ᵐ ω ∂P, Tendsto (fun n : ℕ => (∑ p ∈ Finset.range n, (((lvSamplePath localVol domestic foreign sqrtRho times.length all mask (some x0)
            (List.ofFn (D p ω))).getD j none).getD 1) k) / n) atTop (𝓝 (v N)) := by
  have ht : 0 < t := hpos t (List.mem_of_getElem? hj)
  set step := eulerStep (lvLogDrift localVol domestic foreign) (lvLogVol localVol sqrtRho) with hstep
  have h := sampler_limit (Measure.pi fun _ : Fin d => gaussianReal 0 1) step (fun j => Real.log (x0 j)) 0 (fun x => Real.exp (x k)) times tol last hpos hlast hinc j t hj
    (x0 k * Real.exp (∫ s in (0 : ℝ)..t, (domestic k s - foreign k s))) (by
      intro ε hε
      have hc : Continuous (fun y : ℝ => x0 k * Real.exp y) := by fun_prop
      obtain ⟨η, hη, hη2⟩ := Metric.continuous_iff.1 hc (∫ s in (0 : ℝ)..t, (domestic k s - foreign k s)) ε hε
      obtain ⟨δ, hδ, hR⟩ := riemann_right t ht.le _ (hd.sub hf) (η / 2) (by linarith)
      refine ⟨δ, hδ, fun ts i hs hi hti hmesh => ?_⟩
      obtain ⟨r1, r2⟩ := C137_forward localVol domestic foreign sqrtRho hm hunit x0 hx ts hs (i + 1) hi k
      refine ⟨lvSpots_measurable localVol domestic foreign sqrtRho hm x0 ts (i + 1) hi k, r1, ?_⟩
      have e : (0 :: ts).getD (i + 1) 0 = t := by rw [List.getD_cons_succ, hti]
      have hg : FineGrid δ (fun q => (0 :: ts).getD q 0) (i + 1) := by
        refine ⟨by simp, by simpa using hδ.le, fun q hq => ?_, fun q hq => hmesh q (by omega)⟩
        exact getD_mono _ hs q (q + 1) (by omega) (by simp; omega)
      have hR2 := hR _ _ hg (le_of_eq e)
      simp only [e, Pi.sub_apply] at hR2
      change |∫ z, lvSpots localVol domestic foreign sqrtRho x0 ts (i + 1) z k ∂(stepNormals ts.length d) - _| ≤ ε
      rw [r2]
      have := hη2 _ (show dist (∑ q ∈ Finset.range (i + 1), (domestic k ((0 :: ts).getD (q + 1) 0) - foreign k ((0 :: ts).getD (q + 1) 0)) *
        ((0 :: ts).getD (q + 1) 0 - (0 :: ts).getD q 0)) _ < η from by rw [Real.dist_eq]; linarith)
      rw [Real.dist_eq] at this
      exact this.le)
  obtain ⟨v, hv, hN⟩ := h
  refine ⟨v, hv, hN.mono ?_⟩
  rintro N ⟨all, mask, indices, hp, H⟩
  refine ⟨all, mask, indices, hp, fun Ω _ P D hD => ?_⟩
  filter_upwards [H Ω _ P D hD] with ω hω
  refine hω.congr fun n => ?_
  congr 1
  refine Finset.sum_congr rfl fun p _ => ?_
  simp only [lvSamplePath]
  rw [List.getD_eq_getElem?_getD, List.getD_eq_getElem?_getD, List.getElem?_map]
  rcases (whileSample step times.length all mask (fun i => Real.log (x0 i)) (List.ofFn (D p ω)))[j]? with _ | _ | y <;> simp

/-- C137: if the rates come from discount factors, as in `from_market_data`, the limit is the forward of the curve: `S exp(-q t) / df t`. -/
theorem C137_curve_forward (df df' : ℝ → ℝ) (q spot t : ℝ) (ht : 0 ≤ t) (h0 : df 0 = 1) (hdf : ∀ s ∈ Icc 0 t, 0 < df s) (hd : ∀ s ∈ Icc 0 t, HasDerivAt df (df' s) s)
    (hc : ContinuousOn df' (Icc 0 t)) :
    ContinuousOn (lvRiskFreeRate df) (Icc 0 t) ∧ spot * Real.exp (∫ s in (0 : ℝ)..t, (lvRiskFreeRate df s - q)) = lvForward df spot q t := by
  have hr : ∀ s ∈ Icc 0 t, lvRiskFreeRate df s = -df' s / df s := fun s hs => lvRate_eq df s _ (hd s hs) (hdf s hs)
  have hdc : ContinuousOn df (Icc 0 t) := fun s hs => (hd s hs).continuousAt.continuousWithinAt
  have hcr : ContinuousOn (lvRiskFreeRate df) (Icc 0 t) := ((hc.neg.div hdc fun s hs => (hdf s hs).ne').congr hr)
  refine ⟨hcr, ?_⟩
  have hi := intervalIntegral.integral_eq_sub_of_hasDerivAt (a := 0) (b := t) (f := fun s => -Real.log (df s) - q * s) (f' := fun s => lvRiskFreeRate df s - q)
    (fun s hs => by
      rw [uIcc_of_le ht] at hs
      have h1 := ((hd s hs).log (hdf s hs).ne').neg
      have h2 := (hasDerivAt_id s).const_mul q
      refine (h1.sub h2).congr_deriv ?_
      rw [hr s hs]
      ring)
    (ContinuousOn.intervalIntegrable (by rw [uIcc_of_le ht]; exact hcr.sub continuousOn_const))
  rw [hi, h0]
  unfold lvForward
  simp only [Real.log_one, neg_zero, mul_zero, sub_zero]
  rw [show -Real.log (df t) - q * t = -q * t - Real.log (df t) by ring, Real.exp_sub, Real.exp_log (hdf t ⟨ht, le_rfl⟩)]
  ring

/-- C137: without an initial state the paths start at the spots one. -/
theorem C137_default_state (requested : ℕ) (grid : List ℝ) (mask : List Bool) (draws : List (Fin d → ℝ)) :
    lvSamplePath localVol domestic foreign sqrtRho requested grid mask none draws = lvSamplePath localVol domestic foreign sqrtRho requested grid mask (some fun _ => 1) draws := by
  have : (fun _ => Real.log 1 : Fin d → ℝ) = 0 := by funext i; simp
  simp only [lvSamplePath, this]

/-- Two assets with correlation 3/5 and a volatility that jumps with the spot of the first asset: the simulated mean at time 1 on a grid with two steps is the forward. -/
example : ∫ z, lvSpots (fun _ s _ => if s 0 < 100 then 3 / 10 else 1 / 5) (fun _ _ => 1 / 20) (fun _ _ => 1 / 50) !![1, 0; 3 / 5, 4 / 5] (fun _ => 100) [1 / 2, 1] 2 z 1
    ∂(stepNormals [(1 / 2 : ℝ), 1].length 2) = 100 * Real.exp ((1 / 20 - 1 / 50) * 1) := by
  have h := C137_forward_constant (d := 2) (fun _ s _ => if s 0 < 100 then 3 / 10 else 1 / 5) !![1, 0; 3 / 5, 4 / 5] (fun _ => 1 / 20) (fun _ => 1 / 50)
    (fun t k => Measurable.ite (measurableSet_lt (measurable_pi_apply 0) measurable_const) measurable_const measurable_const)
    (fun k => by fin_cases k <;> norm_num [Fin.sum_univ_two]) (fun _ => 100) (fun _ => by norm_num) [1 / 2, 1] (by norm_num) 2 (by simp) 1
  simpa using h

end Props
