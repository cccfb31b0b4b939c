import Mathlib.Probability.Distributions.Gaussian.Multivariate
import Mathlib.MeasureTheory.Integral.IntervalIntegral.Basic
import Verif.Model.AsianPrices
import Verif.Spec.AsianPrices
import Verif.Props.VanillaPrices

/-!
# Property theorems C75: geometric Asian options
-/

namespace Props
open Model Lemmas Spec MeasureTheory ProbabilityTheory

/-- The continuously compounded rate described by the arguments. -/
noncomputable def asianRate (a : BsArgs) : ℝ := -Real.log (discount a) / a.expiry

/-- The arguments the documentation allows for a geometric Asian option. -/
structure AsianValid (a : AsianArgs) (times : List ℝ) : Prop where
  one : a.spot.isSome ≠ a.forward.isSome
  atMostOne : ¬(a.discountRate.isSome = true ∧ a.discountFactor.isSome = true)
  lognormal : a.isNormal = false
  geometric : a.averagingType = .geometric
  discrete : a.averagingFrequency = .discrete
  sampling : a.samplingTimes = some times
  nonempty : times ≠ []
  ordered : ∀ t ∈ times, 0 ≤ t ∧ t ≤ a.expiry
  volatility : 0 ≤ a.volatility
  expiry : 0 < a.expiry
  strike : 0 < a.strike
  spot : ∀ s, a.spot = some s → 0 < s
  forward : ∀ f, a.forward = some f → 0 < f
  factor : ∀ df, a.discountFactor = some df → 0 < df
  fixings : ∀ x ∈ a.pastFixings.getD [], 0 < x

/-- The spot price described by the arguments: given, or the forward discounted and corrected for the dividends. -/
noncomputable def asianSpotOf (a : AsianArgs) : ℝ :=
  match a.spot with
  | some s => s
  | none => a.forward.getD 0 * discount a.toBsArgs * Real.exp (a.dividendRate.getD 0 * a.expiry)

theorem asianRate_eq (a : AsianArgs) (times : List ℝ) (h : AsianValid a times) : (bsDiscounting a.toBsArgs).1 = asianRate a.toBsArgs := by
  unfold asianRate discount bsDiscounting
  have := h.expiry.ne'
  rcases a.discountRate with _ | r
  · rcases a.discountFactor with _ | df <;> simp
  · simp only [Real.log_exp]
    field_simp

theorem asian_discount_pos (a : AsianArgs) (times : List ℝ) (h : AsianValid a times) : 0 < discount a.toBsArgs := by
  have hf := h.factor
  unfold discount
  rcases a.discountRate with _ | r
  · rcases hd : a.discountFactor with _ | df
    · simp
    · exact hf df hd
  · exact Real.exp_pos _

theorem exp_asianRate (a : AsianArgs) (times : List ℝ) (h : AsianValid a times) :
    Real.exp (-(asianRate a.toBsArgs * a.expiry)) = discount a.toBsArgs := by
  unfold asianRate
  rw [div_mul_cancel₀ _ h.expiry.ne', neg_neg, Real.exp_log (asian_discount_pos a times h)]

theorem asianSpot_eq (a : AsianArgs) (times : List ℝ) (h : AsianValid a times) : asianSpot a = asianSpotOf a := by
  unfold asianSpot asianSpotOf
  rw [asianRate_eq a times h]
  have h1 := h.one
  rcases hs : a.spot with _ | s
  · rcases hf : a.forward with _ | f
    · simp [hs, hf] at h1
    · simp only [Option.getD_some]
      rw [show -(asianRate a.toBsArgs - a.dividendRate.getD 0) * a.expiry = -(asianRate a.toBsArgs * a.expiry) +
        a.dividendRate.getD 0 * a.expiry by ring, Real.exp_add, exp_asianRate a times h]
      ring
  · rcases hf : a.forward with _ | f
    · simp
    · simp [hs, hf] at h1

theorem asianSpot_pos (a : AsianArgs) (times : List ℝ) (h : AsianValid a times) : 0 < asianSpotOf a := by
  unfold asianSpotOf
  have h1 := h.one
  rcases hs : a.spot with _ | s
  · rcases hf : a.forward with _ | f
    · simp [hs, hf] at h1
    · have := h.forward f hf
      have := asian_discount_pos a times h
      simp only [Option.getD_some]
      positivity
  · exact h.spot s hs

theorem asianCheck_ok (a : AsianArgs) (times : List ℝ) (h : AsianValid a times) : asianCheck a = .ok times := by
  have h1 := h.one
  have h2 := h.atMostOne
  have ht : asianTimes a = .ok times := by
    unfold asianTimes
    rw [h.sampling]
    have hl := List.getLast?_eq_getLast_of_ne_nil h.nonempty
    simp only [hl]
    rw [if_pos (max_eq_right (h.ordered _ (List.getLast_mem h.nonempty)).2)]
  unfold asianCheck
  rw [h.lognormal, h.geometric, h.discrete, ht]
  rcases hs : a.spot with _ | s <;> rcases hf : a.forward with _ | f <;> rcases hr : a.discountRate with _ | r <;>
    rcases hd : a.discountFactor with _ | d <;> simp_all [bind, Except.bind]

theorem map_eq_ofFn (times : List ℝ) (f : ℝ → ℝ) : times.map f = List.ofFn (fun i : Fin times.length => f times[i]) := by
  apply List.ext_getElem <;> simp

/-- The law of the sum of the values of a Brownian motion. -/
theorem brownian_sum {Ω : Type*} [MeasurableSpace Ω] (P : Measure Ω) [IsProbabilityMeasure P] (times : List ℝ)
    (W : Fin times.length → Ω → ℝ) (hW : BrownianAt P times W) :
    P.map (fun ω => ∑ i, W i ω) = gaussianReal 0 (Real.toNNReal (∑ i : Fin times.length, ∑ j : Fin times.length, min times[i] times[j])) := by
  have hg : ∀ i, HasGaussianLaw (W i) P := fun i => hW.gaussian.eval i
  have h := hW.gaussian.fun_sum
  rw [h.map_eq_gaussianReal, integral_finset_sum _ (fun i _ => (hg i).integrable), variance_fun_sum (fun i => (hg i).memLp_two)]
  simp only [hW.mean, hW.covariance, Finset.sum_const_zero]

/-- C75: the price of a geometric Asian option is the discounted expected payoff of the geometric mean of the past fixings and of the
prices at the sampling times, for a lognormal price driven by a Brownian motion. -/
theorem C75_expectation {Ω : Type*} [MeasurableSpace Ω] (P : Measure Ω) [IsProbabilityMeasure P] (a : AsianArgs) (times : List ℝ)
    (h : AsianValid a times) (W : Fin times.length → Ω → ℝ) (hW : BrownianAt P times W) :
    asianOptionPrice a = .ok (discount a.toBsArgs * ∫ ω, vanillaPayoff (a.isCall.getD true) a.strike
      (geometricMean (a.pastFixings.getD [] ++ sampledPrices (asianSpotOf a) (asianRate a.toBsArgs - a.dividendRate.getD 0) a.volatility
        times (fun i => W i ω))) ∂P) := by
  have hS := asianSpot_pos a times h
  set S := asianSpotOf a with hSdef
  set g := asianRate a.toBsArgs - a.dividendRate.getD 0 with hg
  set v := a.volatility with hv
  set N : ℝ := ((times.length + asianFixingCount a : Nat) : ℝ) with hN
  set V : ℝ := ∑ i : Fin times.length, ∑ j : Fin times.length, min times[i] times[j] with hV
  set A : ℝ := asianAccumulator a with hA
  have hlen : 0 < times.length := List.length_pos_of_ne_nil h.nonempty
  have hNpos : 0 < N := by rw [hN]; exact_mod_cast Nat.add_pos_left hlen _
  have hAfix : A = (a.pastFixings.getD []).prod := by
    rw [hA]; unfold asianAccumulator; rcases a.pastFixings with _ | f <;> simp
  have hcount : asianFixingCount a = (a.pastFixings.getD []).length := by
    unfold asianFixingCount; rcases a.pastFixings with _ | f <;> simp
  have hApos : 0 < A := by rw [hAfix]; exact List.prod_pos h.fixings
  have hV0 : 0 ≤ V := Finset.sum_nonneg fun i _ => Finset.sum_nonneg fun j _ =>
    le_min (h.ordered _ (List.getElem_mem _)).1 (h.ordered _ (List.getElem_mem _)).1
  have ht2 : asianT2 a times = V / N ^ 2 := by
    unfold asianT2
    rw [map_eq_ofFn, List.sum_ofFn]
    simp only [map_eq_ofFn, List.sum_ofFn]
    rfl
  have ht1 : asianT1 a times = (∑ i : Fin times.length, times[i]) / N := by
    unfold asianT1
    rw [show times.sum = (times.map id).sum by simp, map_eq_ofFn, List.sum_ofFn]
    rfl
  set T : ℝ := ∑ i : Fin times.length, times[i] with hT
  -- the logarithm of the geometric mean
  set m : ℝ := (Real.log A + times.length * Real.log S + (g - v ^ 2 / 2) * T) / N with hm
  have hgeo : ∀ ω, geometricMean (a.pastFixings.getD [] ++ sampledPrices S g v times (fun i => W i ω)) =
      Real.exp (m + v / N * ∑ i, W i ω) := by
    intro ω
    unfold geometricMean sampledPrices
    rw [List.prod_append, ← hAfix, List.prod_ofFn, List.length_append, List.length_ofFn, Nat.add_comm, ← hcount, ← hN]
    rw [Finset.prod_mul_distrib, Finset.prod_const, ← Real.exp_sum, Finset.card_univ, Fintype.card_fin]
    rw [Real.rpow_def_of_pos (by positivity), Real.log_mul (by positivity) (by positivity), Real.log_mul (by positivity) (by positivity),
      Real.log_exp, Real.log_pow]
    congr 1
    rw [Finset.sum_add_distrib, Finset.sum_sub_distrib, ← Finset.mul_sum, ← Finset.mul_sum, ← Finset.mul_sum, hm]
    field_simp
    ring
  have hF : asianForward a times = Real.exp (m + (v / N) ^ 2 * V / 2) := by
    unfold asianForward
    rw [ht1, ht2, asianRate_eq a times h, asianSpot_eq a times h, ← hN, ← hSdef, ← hA, ← hv]
    simp only [← hg]
    rw [map_eq_ofFn, List.prod_ofFn, Finset.prod_mul_distrib, Finset.prod_const, ← Real.exp_sum, Finset.card_univ, Fintype.card_fin,
      Real.rpow_def_of_pos (by positivity), Real.log_mul (by positivity) (by positivity), Real.log_mul (by positivity) (by positivity),
      Real.log_exp, Real.log_pow, ← Real.exp_add]
    congr 1
    rw [← Finset.mul_sum, hm]
    field_simp
    ring
  have hdisc : discount (asianVanilla a times) = discount a.toBsArgs := by
    simp only [discount, asianVanilla, discount_eq]
  have hfwd : forward (asianVanilla a times) = Real.exp (m + (v / N) ^ 2 * V / 2) := by
    simp only [forward, asianVanilla, hF]
  have hstd : stdDev (asianVanilla a times) ^ 2 = (v / N) ^ 2 * V := by
    simp only [stdDev, asianVanilla, ht2]
    rw [mul_pow, mul_pow, Real.sq_sqrt (by have := h.expiry; positivity), Real.sq_sqrt h.expiry.le]
    have := h.expiry.ne'
    field_simp
    rw [hv, mul_comm]
  have hvalid : ValidArgs (asianVanilla a times) := by
    refine ⟨by simp [asianVanilla], by simp [asianVanilla], mul_nonneg h.volatility (Real.sqrt_nonneg _), h.expiry.le, ?_⟩
    intro df hdf
    simp only [asianVanilla, Option.some.injEq] at hdf
    refine ⟨?_, by simp [asianVanilla]⟩
    rw [← hdf, discount_eq]
    exact asian_discount_pos a times h
  have hpos : Positive (asianVanilla a times) := fun _ => ⟨by rw [hfwd]; positivity, h.strike⟩
  unfold asianOptionPrice
  rw [asianCheck_ok a times h]
  change optionPrice (asianVanilla a times) = _
  rw [C31_expectation _ hvalid hpos, hdisc]
  congr 2
  have hn : (asianVanilla a times).isNormal = false := rfl
  unfold expectation
  rw [hn, if_neg (by simp)]
  unfold lognormalExpectation normalExpectation
  rw [hfwd, hstd, Real.log_exp, add_sub_cancel_right]
  simp only [hgeo]
  have hp : Measurable (vanillaPayoff (a.isCall.getD true) a.strike) := by
    rcases a.isCall.getD true with _ | _
    · exact (vanilla_kink_put a.strike).measurable
    · exact (vanilla_kink_call a.strike).measurable
  have hsum : AEMeasurable (fun ω => ∑ i, W i ω) P := hW.gaussian.fun_sum.aemeasurable
  have hlaw : P.map (fun ω => m + v / N * ∑ i, W i ω) = gaussianReal m (Real.toNNReal ((v / N) ^ 2 * V)) := by
    have h1 := brownian_sum P times W hW
    rw [show (fun ω => m + v / N * ∑ i, W i ω) = (fun x => m + x) ∘ (fun x => v / N * x) ∘ (fun ω => ∑ i, W i ω) from rfl,
      ← AEMeasurable.map_map_of_aemeasurable (by fun_prop) (by fun_prop), ← AEMeasurable.map_map_of_aemeasurable (by fun_prop) (by fun_prop),
      h1, gaussianReal_map_const_mul, gaussianReal_map_const_add]
    congr 1
    · simp
    · rw [Real.toNNReal_mul (by positivity)]
      congr 1
      ext
      simp [Real.coe_toNNReal _ (sq_nonneg (v / N))]
  have hrun : ∫ ω, vanillaPayoff (a.isCall.getD true) a.strike (Real.exp (m + v / N * ∑ i, W i ω)) ∂P =
      ∫ x, vanillaPayoff (a.isCall.getD true) a.strike (Real.exp x) ∂(P.map (fun ω => m + v / N * ∑ i, W i ω)) := by
    exact (integral_map (by fun_prop) (hp.comp Real.measurable_exp).aestronglyMeasurable).symm
  rw [hrun, hlaw]
  rfl

theorem indicator_mul (s t : ℝ) : (fun u => (Set.Ioc 0 s).indicator (1 : ℝ → ℝ) u * (Set.Ioc 0 t).indicator (1 : ℝ → ℝ) u) =
    (Set.Ioc 0 (min s t)).indicator 1 := by
  funext u
  simp only [Set.indicator, Set.mem_Ioc, Pi.one_apply, le_min_iff]
  by_cases h0 : 0 < u <;> by_cases h1 : u ≤ s <;> by_cases h2 : u ≤ t <;> simp [h0, h1, h2]

theorem indicator_integrable (t : ℝ) : Integrable ((Set.Ioc 0 t).indicator (1 : ℝ → ℝ)) := by
  rw [integrable_indicator_iff measurableSet_Ioc]
  exact integrableOn_const (by simp)

/-- The matrix of the minima of nonnegative times is positive semidefinite. -/
theorem min_posSemidef {n : Nat} (τ : Fin n → ℝ) (ht : ∀ i, 0 ≤ τ i) : (Matrix.of fun i j : Fin n => min (τ i) (τ j)).PosSemidef := by
  refine Matrix.PosSemidef.of_dotProduct_mulVec_nonneg ?_ ?_
  · ext i j
    simp [min_comm]
  · intro x
    have hint : ∀ i j : Fin n, min (τ i) (τ j) =
        ∫ u, (Set.Ioc 0 (τ i)).indicator (1 : ℝ → ℝ) u * (Set.Ioc 0 (τ j)).indicator (1 : ℝ → ℝ) u := by
      intro i j
      rw [indicator_mul, integral_indicator_one measurableSet_Ioc]
      rw [measureReal_def, Real.volume_Ioc, sub_zero, ENNReal.toReal_ofReal (le_min (ht i) (ht j))]
    have hI : ∀ i j : Fin n, Integrable (fun u => x i * (x j * ((Set.Ioc 0 (τ i)).indicator (1 : ℝ → ℝ) u * (Set.Ioc 0 (τ j)).indicator (1 : ℝ → ℝ) u))) := by
      intro i j
      have h := indicator_integrable (min (τ i) (τ j))
      rw [← indicator_mul] at h
      exact (h.const_mul _).const_mul _
    have e : star x ⬝ᵥ (Matrix.of fun i j : Fin n => min (τ i) (τ j)).mulVec x =
        ∫ u, (∑ i, x i * (Set.Ioc 0 (τ i)).indicator (1 : ℝ → ℝ) u) ^ 2 := by
      have e1 : (fun u => (∑ i, x i * (Set.Ioc 0 (τ i)).indicator (1 : ℝ → ℝ) u) ^ 2) =
          fun u => ∑ i, ∑ j, x i * (x j * ((Set.Ioc 0 (τ i)).indicator (1 : ℝ → ℝ) u * (Set.Ioc 0 (τ j)).indicator (1 : ℝ → ℝ) u)) := by
        funext u
        rw [sq, Finset.sum_mul_sum]
        exact Finset.sum_congr rfl fun i _ => Finset.sum_congr rfl fun j _ => by ring
      rw [e1, integral_finset_sum _ (fun i _ => integrable_finset_sum _ (fun j _ => hI i j))]
      simp only [dotProduct, Matrix.mulVec, star_trivial, Matrix.of_apply]
      refine Finset.sum_congr rfl fun i _ => ?_
      rw [integral_finset_sum _ (fun j _ => hI i j), Finset.mul_sum]
      refine Finset.sum_congr rfl fun j _ => ?_
      rw [integral_const_mul, integral_const_mul, ← hint i j]
      ring
    rw [e]
    exact integral_nonneg fun u => sq_nonneg _

/-- C75: there is such a Brownian motion for all sampling times, so `C75_expectation` is about every admissible option. -/
theorem C75_brownian (times : List ℝ) (ht : ∀ t ∈ times, 0 ≤ t) :
    ∃ (P : Measure (EuclideanSpace ℝ (Fin times.length))) (W : Fin times.length → EuclideanSpace ℝ (Fin times.length) → ℝ),
      IsProbabilityMeasure P ∧ BrownianAt P times W := by
  have hS := min_posSemidef (fun i : Fin times.length => times[i]) (fun i => ht _ (List.getElem_mem _))
  refine ⟨multivariateGaussian 0 (Matrix.of fun i j : Fin times.length => min times[i] times[j]), fun i x => x i, inferInstance, ?_, ?_, ?_⟩
  · have h : HasGaussianLaw (id : EuclideanSpace ℝ (Fin times.length) → _)
        (multivariateGaussian 0 (Matrix.of fun i j : Fin times.length => min times[i] times[j])) := IsGaussian.hasGaussianLaw_id
    exact h.map_equiv_fun (PiLp.continuousLinearEquiv 2 ℝ _)
  · intro i
    have h := (measurePreserving_eval_multivariateGaussian (μ := 0) hS (i := i))
    have h2 := integral_map (μ := multivariateGaussian 0 (Matrix.of fun i j : Fin times.length => min times[i] times[j]))
      h.measurable.aemeasurable (f := fun y : ℝ => y) (by fun_prop)
    rw [h.map_eq, integral_id_gaussianReal] at h2
    simpa using h2.symm
  · intro i j
    rw [covariance_eval_multivariateGaussian hS]
    rfl

/-- C75: with the expiry as the only sampling time and no past fixings the price is the vanilla price. -/
theorem C75_single (a : AsianArgs) (h : AsianValid a [a.expiry]) (hf : a.pastFixings.getD [] = []) :
    asianOptionPrice a = optionPrice a.toBsArgs := by
  have hS := asianSpot_pos a _ h
  have hT := h.expiry
  have hc : asianFixingCount a = 0 := by
    unfold asianFixingCount; rcases hp : a.pastFixings with _ | f
    · rfl
    · simp [hp] at hf; simp [hf]
  have hA : asianAccumulator a = 1 := by
    unfold asianAccumulator; rcases hp : a.pastFixings with _ | f
    · rfl
    · simp [hp] at hf; simp [hf]
  have hvalid : ValidArgs a.toBsArgs := ⟨h.one, h.atMostOne, h.volatility, h.expiry.le, fun df hd => ⟨h.factor df hd, fun _ => h.expiry⟩⟩
  have ht1 : asianT1 a [a.expiry] = a.expiry := by simp [asianT1, hc]
  have ht2 : asianT2 a [a.expiry] = a.expiry := by simp [asianT2, hc]
  have hF : asianForward a [a.expiry] = forward a.toBsArgs := by
    rw [← forward_eq _ hvalid]
    unfold asianForward
    rw [ht1, ht2, hA, hc]
    simp only [List.map_cons, List.map_nil, List.prod_cons, List.prod_nil, List.length_cons, List.length_nil]
    norm_num
    unfold bsForward asianSpot
    have h1 := h.one
    rcases hs : a.spot with _ | s <;> rcases hf : a.forward with _ | f
    · simp [hs, hf] at h1
    · simp only [mul_assoc]
      rw [← Real.exp_add]
      ring_nf
      simp
    · simp
    · simp [hs, hf] at h1
  have hvol : asianVanilla a [a.expiry] = { a.toBsArgs with
      forward := some (forward a.toBsArgs)
      spot := none
      discountRate := none
      dividendRate := (asianVanilla a [a.expiry]).dividendRate
      discountFactor := some (discount a.toBsArgs) } := by
    conv_lhs => unfold asianVanilla
    rw [ht2, hF, div_self hT.ne', Real.sqrt_one, mul_one, discount_eq]
    simp [h.lognormal, asianVanilla, ht2, hF]
  unfold asianOptionPrice
  rw [asianCheck_ok a _ h]
  change optionPrice (asianVanilla a [a.expiry]) = _
  have hFpos : 0 < forward a.toBsArgs := by
    rw [← hF]
    unfold asianForward
    rw [asianSpot_eq a _ h, hA]
    simp only [List.map_cons, List.map_nil, List.prod_cons, List.prod_nil]
    positivity
  have hpos : Positive a.toBsArgs := fun _ => ⟨hFpos, h.strike⟩
  rw [C31_expectation _ hvalid hpos, hvol, C31_expectation]
  · rfl
  · exact ⟨by simp, by simp, h.volatility, h.expiry.le, fun df hd => ⟨by
      simp only [Option.some.injEq] at hd
      rw [← hd]; exact asian_discount_pos a _ h, fun hn => by simp at hn⟩⟩
  · exact fun _ => ⟨hFpos, h.strike⟩

/-- The geometric mean of the past fixings and of the forwards to the sampling times. -/
noncomputable def meanForward (a : AsianArgs) (times : List ℝ) : ℝ :=
  geometricMean (a.pastFixings.getD [] ++ times.map fun t => asianSpotOf a * Real.exp ((asianRate a.toBsArgs - a.dividendRate.getD 0) * t))

theorem asianForward_eq (a : AsianArgs) (times : List ℝ) (h : AsianValid a times) :
    asianForward a times = meanForward a times * Real.exp (-(a.volatility ^ 2 / 2 * (asianT1 a times - asianT2 a times))) := by
  unfold asianForward meanForward geometricMean
  rw [asianRate_eq a times h, asianSpot_eq a times h, List.prod_append, List.length_append, List.length_map]
  have hAfix : asianAccumulator a = (a.pastFixings.getD []).prod := by
    unfold asianAccumulator; rcases a.pastFixings with _ | f <;> simp
  have hcount : asianFixingCount a = (a.pastFixings.getD []).length := by
    unfold asianFixingCount; rcases a.pastFixings with _ | f <;> simp
  rw [hAfix, hcount, Nat.add_comm]
  rw [show -0.5 * a.volatility * a.volatility * (asianT1 a times - asianT2 a times) =
    -(a.volatility ^ 2 / 2 * (asianT1 a times - asianT2 a times)) by ring]

theorem meanForward_pos (a : AsianArgs) (times : List ℝ) (h : AsianValid a times) : 0 < meanForward a times := by
  unfold meanForward geometricMean
  refine Real.rpow_pos_of_pos (List.prod_pos fun x hx => ?_) _
  rcases List.mem_append.1 hx with hx | hx
  · exact h.fixings x hx
  · obtain ⟨t, -, rfl⟩ := List.mem_map.1 hx
    have := asianSpot_pos a times h
    positivity

theorem t2_le_t1 (a : AsianArgs) (times : List ℝ) (h : AsianValid a times) : asianT2 a times ≤ asianT1 a times := by
  unfold asianT2 asianT1
  have hlen : 0 < times.length := List.length_pos_of_ne_nil h.nonempty
  have hN : (0 : ℝ) < ((times.length + asianFixingCount a : Nat) : ℝ) := by exact_mod_cast Nat.add_pos_left hlen _
  have h0 : 0 ≤ times.sum := List.sum_nonneg fun t ht => (h.ordered t ht).1
  have h1 : (times.map fun s => (times.map fun t => min s t).sum).sum ≤ (times.map fun _ => times.sum).sum := by
    refine List.sum_le_sum fun s _ => ?_
    have := List.sum_le_sum (l := times) (f := fun t => min s t) (g := id) fun t _ => min_le_right _ _
    simpa using this
  rw [List.map_const', List.sum_replicate, nsmul_eq_mul] at h1
  rw [div_le_div_iff₀ (by positivity) hN]
  have h2 : (times.length : ℝ) ≤ ((times.length + asianFixingCount a : Nat) : ℝ) := by push_cast; linarith [Nat.cast_nonneg (α := ℝ) (asianFixingCount a)]
  nlinarith [mul_le_mul_of_nonneg_right h2 h0]

/-- C75: put-call parity, and the forward price of the geometric mean is at most the geometric mean of the forwards. -/
theorem C75_put_call_parity (a : AsianArgs) (times : List ℝ) (h : AsianValid a times) :
    ∃ c p F, asianOptionPrice { a with isCall := some true } = .ok c ∧ asianOptionPrice { a with isCall := some false } = .ok p ∧
      c - p = discount a.toBsArgs * (F - a.strike) ∧ 0 < F ∧ F ≤ meanForward a times := by
  have hv : ValidArgs (asianVanilla a times) := by
    refine ⟨by simp [asianVanilla], by simp [asianVanilla], mul_nonneg h.volatility (Real.sqrt_nonneg _), h.expiry.le, ?_⟩
    intro df hdf
    simp only [asianVanilla, Option.some.injEq] at hdf
    refine ⟨?_, by simp [asianVanilla]⟩
    rw [← hdf, discount_eq]
    exact asian_discount_pos a times h
  obtain ⟨c, p, h1, h2, h3⟩ := C31_put_call_parity _ hv
  have hdisc : discount (asianVanilla a times) = discount a.toBsArgs := by
    simp only [discount, asianVanilla, discount_eq]
  have hval : ∀ b, AsianValid { a with isCall := b } times := fun b =>
    ⟨h.one, h.atMostOne, h.lognormal, h.geometric, h.discrete, h.sampling, h.nonempty, h.ordered, h.volatility, h.expiry, h.strike,
      h.spot, h.forward, h.factor, h.fixings⟩
  refine ⟨c, p, asianForward a times, ?_, ?_, ?_, ?_, ?_⟩
  · unfold asianOptionPrice
    rw [asianCheck_ok _ times (hval _)]
    exact h1
  · unfold asianOptionPrice
    rw [asianCheck_ok _ times (hval _)]
    exact h2
  · rw [h3, hdisc]
    rfl
  · rw [asianForward_eq a times h]
    have := meanForward_pos a times h
    positivity
  · rw [asianForward_eq a times h]
    have h4 := meanForward_pos a times h
    have h5 := t2_le_t1 a times h
    refine mul_le_of_le_one_right h4.le (Real.exp_le_one_iff.2 ?_)
    have : 0 ≤ a.volatility ^ 2 / 2 * (asianT1 a times - asianT2 a times) := mul_nonneg (by positivity) (by linarith)
    linarith

/-- C75: exactly these arguments are refused. -/
theorem C75_rejects (a : AsianArgs) :
    (∃ e, asianOptionPrice a = .error e) ↔
      (a.spot.isSome = a.forward.isSome ∨ (a.discountRate.isSome = true ∧ a.discountFactor.isSome = true) ∨ a.isNormal = true ∨
        a.averagingType = .arithmetic ∨ a.averagingFrequency = .continuous ∨ a.samplingTimes = none ∨
        ∃ times, a.samplingTimes = some times ∧ ∀ t ∈ times.getLast?, a.expiry < t) := by
  have hprice : ∀ times, ∃ v, optionPrice (asianVanilla a times) = .ok v := by
    intro times
    rcases he : optionPrice (asianVanilla a times) with e | v
    · have := (C31_rejects (asianVanilla a times)).1 ⟨e, he⟩
      simp [asianVanilla] at this
    · exact ⟨v, rfl⟩
  unfold asianOptionPrice asianCheck asianTimes
  rcases hs : a.spot with _ | s <;> rcases hf : a.forward with _ | f <;> rcases hr : a.discountRate with _ | r <;>
    rcases hd : a.discountFactor with _ | d <;> rcases hn : a.isNormal with _ | _ <;> rcases ht : a.averagingType with _ | _ <;>
    rcases hq : a.averagingFrequency with _ | _ <;> simp [bind, Except.bind]
  all_goals
    rcases hst : a.samplingTimes with _ | times
    · simp
    · rcases hl : times.getLast? with _ | last
      · simp [hl]
      · obtain ⟨v, hv⟩ := hprice times
        by_cases hle : last ≤ a.expiry
        · simp [hle, hv, hl, not_lt.2 hle]
        · simp [hle, hl, not_le.1 hle]

/-- Two sampling times and one past fixing. -/
noncomputable def exAsian : AsianArgs :=
  { volatility := 1 / 5
    strike := 100
    expiry := 1
    spot := some 90
    discountRate := some (1 / 20)
    dividendRate := some (1 / 50)
    samplingTimes := some [1 / 2, 1]
    pastFixings := some [95] }

theorem exAsian_valid : AsianValid exAsian [1 / 2, 1] := by
  constructor <;> simp [exAsian]
  norm_num

example : asianT1 exAsian [1 / 2, 1] = 1 / 2 ∧ asianT2 exAsian [1 / 2, 1] = 5 / 18 := by
  constructor <;> norm_num [asianT1, asianT2, asianFixingCount, exAsian]

example : ∃ v, asianOptionPrice exAsian = .ok v := by
  obtain ⟨P, W, hP, hW⟩ := C75_brownian [1 / 2, 1] (by norm_num)
  exact ⟨_, C75_expectation P exAsian _ exAsian_valid W hW⟩

/-- Sampling after the expiry is refused. -/
example : ∃ e, asianOptionPrice { exAsian with expiry := 3 / 4 } = .error e := by
  rw [C75_rejects]
  norm_num [exAsian]

end Props
