import Verif.Props.Brent
import Verif.Props.HullWhiteBonds
import Verif.Props.VanillaPrices

/-! # C53 to C55: options on bonds, caps, floors and swaptions in the Hull-White model -/

namespace Spec

/-- Value at its start of a swap that pays the fixed leg; payments are `(time, daycount fraction, coupon)`, `bond` are bond prices. -/
def payerSwap (payments : List (ℝ × ℝ × ℝ)) (bond : ℝ → ℝ) : ℝ :=
  1 - bond (payments.getLastD 0).1 - (payments.map (fun p => p.2.1 * p.2.2 * bond p.1)).sum

/-- Value of a caplet (floorlet) at the start of its period `[expiry, maturity]`, for the price of the bond over the period; the rate of
the period is `(1 / bond - 1) / daycount`. -/
noncomputable def capletValue (isCap : Bool) (strike daycount bond : ℝ) : ℝ :=
  bond * (daycount * vanillaPayoff isCap strike ((1 / bond - 1) / daycount))

end Spec

namespace Lemmas
open Model Spec MeasureTheory

section
variable (m : HullWhite)

/-- The discount factor of the initial curve. -/
noncomputable def initialDiscount (t : ℝ) : ℝ := Real.exp (-(m.discountRate t * t))

theorem initialDiscount_pos (t : ℝ) : 0 < initialDiscount m t := Real.exp_pos _

theorem bondG_pos (hk : m.meanReversion ≠ 0) (t T : ℝ) (h : t < T) : 0 < bondG m t T := by
  unfold bondG
  rcases lt_or_gt_of_ne hk with h' | h'
  · apply div_pos_of_neg_of_neg _ h'
    have : 1 < Real.exp (-m.meanReversion * (T - t)) := Real.one_lt_exp_iff.2 (mul_pos (by linarith) (by linarith))
    linarith
  · apply div_pos _ h'
    have : Real.exp (-m.meanReversion * (T - t)) < 1 := by
      rw [← Real.exp_zero]; exact Real.exp_lt_exp.2 (by nlinarith)
    linarith

theorem bondOptionVariance_eq (T0 T : ℝ) : m.bondOptionVariance T0 T = m.computeYt T0 * bondG m T0 T ^ 2 := by
  unfold HullWhite.bondOptionVariance HullWhite.computeYt bondG
  have e1 : Real.exp (-m.meanReversion * T) = Real.exp (-m.meanReversion * T0) * Real.exp (-m.meanReversion * (T - T0)) := by
    rw [← Real.exp_add]; congr 1; ring
  have e2 : Real.exp (-2 * m.meanReversion * T0) = Real.exp (-m.meanReversion * T0) ^ 2 := by
    rw [sq, ← Real.exp_add]; congr 1; ring
  rw [e1, e2]
  ring

/-- The bond price for the state `√y z`. -/
theorem bond_lognormal (T0 T z : ℝ) (hy : 0 ≤ m.computeYt T0) :
    m.discountBondPrice (m.instantForwardRate T0 + Real.sqrt (m.computeYt T0) * z) T0 T =
      initialDiscount m T / initialDiscount m T0 *
        Real.exp (-(Real.sqrt (m.computeYt T0) * bondG m T0 T) * z - (-(Real.sqrt (m.computeYt T0) * bondG m T0 T)) ^ 2 / 2) := by
  rw [discountBondPrice_eq]
  unfold initialDiscount
  rw [← Real.exp_sub, ← Real.exp_add]
  congr 1
  have := Real.sq_sqrt hy
  linear_combination (bondG m T0 T ^ 2 / 2) * this

/-- Expectations of functions of the bond price are lognormal expectations. -/
theorem bond_expectation (T0 T : ℝ) (hy : 0 ≤ m.computeYt T0) (f : ℝ → ℝ) (hf : Measurable f) :
    normalExpectation (m.instantForwardRate T0) (Real.sqrt (m.computeYt T0)) (fun r => f (m.discountBondPrice r T0 T)) =
      lognormalExpectation (initialDiscount m T / initialDiscount m T0) (Real.sqrt (m.computeYt T0) * bondG m T0 T) f := by
  have hmeas : Measurable (fun r => m.discountBondPrice r T0 T) := by
    simp only [discountBondPrice_eq]; fun_prop
  have hF : 0 < initialDiscount m T / initialDiscount m T0 := div_pos (initialDiscount_pos m T) (initialDiscount_pos m T0)
  unfold lognormalExpectation
  rw [normalExpectation_std _ _ (fun r => f (m.discountBondPrice r T0 T)) (hf.comp hmeas),
    normalExpectation_std _ _ (fun x => f (Real.exp x)) (hf.comp Real.measurable_exp)]
  rw [← integral_neg_eq_self]
  congr 1
  funext z
  rw [phi_neg, bond_lognormal m T0 T (-z) hy]
  congr 2
  rw [← Real.exp_log hF, ← Real.exp_add, Real.exp_log hF]
  congr 1
  ring

variable (hm : HullWhiteOk m)
include hm

theorem computeYt_nonneg (t : ℝ) (ht : 0 ≤ t) : 0 ≤ m.computeYt t := by
  rw [computeYt_eq m hm t ht]
  exact intervalIntegral.integral_nonneg ht (fun s _ => mul_nonneg (Real.exp_pos _).le (sq_nonneg _))

theorem bondOptionPrice_eq (K T0 T : ℝ) (isCall : Bool) (hK : 0 < K) (h0 : 0 ≤ T0) (hT : T0 < T) (hy : 0 < m.computeYt T0) :
    m.bondOptionPrice K T0 T isCall = initialDiscount m T0 *
      normalExpectation (m.instantForwardRate T0) (Real.sqrt (m.computeYt T0)) (fun r => vanillaPayoff isCall K (m.discountBondPrice r T0 T)) := by
  have hg := bondG_pos m hm.mr T0 T hT
  have hsqrt : Real.sqrt (m.bondOptionVariance T0 T) = Real.sqrt (m.computeYt T0) * bondG m T0 T := by
    rw [bondOptionVariance_eq, Real.sqrt_mul hy.le, Real.sqrt_sq hg.le]
  have hs : 0 < Real.sqrt (m.computeYt T0) * bondG m T0 T := mul_pos (Real.sqrt_pos.2 hy) hg
  have hF : 0 < initialDiscount m T / initialDiscount m T0 := div_pos (initialDiscount_pos m T) (initialDiscount_pos m T0)
  have hV : m.bondOptionVariance T0 T = (Real.sqrt (m.computeYt T0) * bondG m T0 T) ^ 2 := by
    rw [← hsqrt, Real.sq_sqrt]
    rw [bondOptionVariance_eq]; positivity
  have hP0 := (initialDiscount_pos m T0).ne'
  unfold HullWhite.bondOptionPrice
  simp only
  rw [if_neg (by linarith), hsqrt, if_pos hs, hV]
  simp only [neg_mul]
  change (if isCall = true then initialDiscount m T * _ - K * initialDiscount m T0 * _ else K * initialDiscount m T0 * _ - initialDiscount m T * _) = _
  change _ = initialDiscount m T0 * _
  set s := Real.sqrt (m.computeYt T0) * bondG m T0 T
  set F := initialDiscount m T / initialDiscount m T0
  have hPF : initialDiscount m T = initialDiscount m T0 * F := by
    simp only [F]; field_simp
  have hd1 : (Real.log (F / K) + 0.5 * s ^ 2) / s = Real.log (F / K) / s + s / 2 := by
    field_simp; ring
  have hd1' : (Real.log (Real.exp (-(m.discountRate T * T)) / Real.exp (-(m.discountRate T0 * T0)) / K) + 0.5 * s ^ 2) / s = Real.log (F / K) / s + s / 2 := hd1
  rw [hd1']
  cases isCall with
  | true =>
    rw [bond_expectation m T0 T hy.le _ (vanilla_kink_call K).measurable, lognormalExpectation_kink (vanilla_kink_call K) hF hK hs]
    simp only [if_true, ncdf_eq]
    rw [hPF, show Real.log (F / K) / s + s / 2 - s = Real.log (F / K) / s - s / 2 by ring]
    ring
  | false =>
    rw [bond_expectation m T0 T hy.le _ (vanilla_kink_put K).measurable, lognormalExpectation_kink (vanilla_kink_put K) hF hK hs]
    simp only [Bool.false_eq_true, if_false, ncdf_eq, normalCdf_neg]
    rw [hPF, show Real.log (F / K) / s + s / 2 - s = Real.log (F / K) / s - s / 2 by ring]
    ring

end

end Lemmas

namespace Props
open Model Lemmas Spec MeasureTheory

/-- C53: the price of a European option on a bond is the discounted expectation of its payoff, where the bond price at expiry is the
model's own bond price for a normal short rate with the exact variance. What is missing: no volatility (`C53_no_variance`). -/
theorem C53_bond_option_partial (m : HullWhite) (hm : HullWhiteOk m) (K T0 T : ℝ) (isCall : Bool) (hK : 0 < K) (h0 : 0 ≤ T0) (hT : T0 < T)
    (hy : 0 < convexity m.meanReversion m.volatility T0) :
    m.bondOptionPrice K T0 T isCall = Real.exp (-(m.discountRate T0 * T0)) *
      normalExpectation (m.instantForwardRate T0) (Real.sqrt (convexity m.meanReversion m.volatility T0))
        (fun r => vanillaPayoff isCall K (m.discountBondPrice r T0 T)) := by
  rw [← computeYt_eq m hm T0 h0] at hy ⊢
  exact bondOptionPrice_eq m hm K T0 T isCall hK h0 hT hy

/-- C53: put-call parity. -/
theorem C53_parity (m : HullWhite) (K T0 T : ℝ) (hT : T0 ≤ T) (hv : 0 < m.bondOptionVariance T0 T) :
    m.bondOptionPrice K T0 T true - m.bondOptionPrice K T0 T false =
      Real.exp (-(m.discountRate T * T)) - K * Real.exp (-(m.discountRate T0 * T0)) := by
  unfold HullWhite.bondOptionPrice
  simp only
  rw [if_neg (not_lt.2 hT), if_neg (not_lt.2 hT), if_pos (Real.sqrt_pos.2 hv), if_pos (Real.sqrt_pos.2 hv)]
  simp only [if_true, Bool.false_eq_true, if_false, ncdf_eq, normalCdf_neg, neg_mul]
  ring

/-- C53, deviation: without variance the payoff of the forward price is returned, not discounted. -/
theorem C53_no_variance (m : HullWhite) (K T0 T : ℝ) (isCall : Bool) (hT : T0 ≤ T) (hv : m.bondOptionVariance T0 T = 0) :
    m.bondOptionPrice K T0 T isCall = vanillaPayoff isCall K (Real.exp (-(m.discountRate T * T)) / Real.exp (-(m.discountRate T0 * T0))) := by
  unfold HullWhite.bondOptionPrice vanillaPayoff
  simp only
  rw [if_neg (not_lt.2 hT), hv, Real.sqrt_zero, if_neg (lt_irrefl _)]
  simp only [neg_mul]

/-- Without volatility and at the flat rate 1 the call with strike 0 is overpriced by the factor `e`. -/
example : HullWhite.bondOptionPrice ⟨1, [], [0], fun _ => 1⟩ 0 1 2 true = Real.exp (-1) ∧ Real.exp (-(1 : ℝ) * 1) * Real.exp (-1) = Real.exp (-2) := by
  constructor
  · rw [C53_no_variance _ _ _ _ _ (by norm_num)]
    · simp only [vanillaPayoff, if_true, sub_zero]
      rw [← Real.exp_sub, max_eq_left (Real.exp_pos _).le]
      norm_num
    · simp [HullWhite.bondOptionVariance, HullWhite.varianceAt, HullWhite.varianceAtKnots, varianceInt, HullWhite.volatility, piecewiseConstant, searchLeft, cumsum, cumsum.go]
  · rw [← Real.exp_add]; norm_num

end Props

namespace Lemmas
open Model Spec MeasureTheory

theorem caplet_bond (isCap : Bool) (K d b : ℝ) (hd : 0 < d) (hK : 0 < 1 + d * K) (hb : 0 < b) :
    capletValue isCap K d b = (1 + d * K) * vanillaPayoff (!isCap) (1 / (1 + d * K)) b := by
  unfold capletValue vanillaPayoff
  have e : b * (d * ((1 / b - 1) / d - K)) = 1 - (1 + d * K) * b := by field_simp; ring
  have e' : b * (d * (K - (1 / b - 1) / d)) = (1 + d * K) * b - 1 := by field_simp; ring
  cases isCap with
  | true =>
    simp only [if_true, Bool.not_true, Bool.false_eq_true, if_false]
    rw [mul_max_of_nonneg _ _ hd.le, mul_max_of_nonneg _ _ hb.le, e, mul_max_of_nonneg _ _ hK.le, mul_sub, mul_one_div_cancel hK.ne']
    simp
  | false =>
    simp only [if_true, Bool.not_false, Bool.false_eq_true, if_false]
    rw [mul_max_of_nonneg _ _ hd.le, mul_max_of_nonneg _ _ hb.le, e', mul_max_of_nonneg _ _ hK.le, mul_sub, mul_one_div_cancel hK.ne']
    simp

/-- Expectations of sums. -/
theorem expectation_sum {ι : Type} (mean s : ℝ) (l : List ι) (c : ι → ℝ) (g : ι → ℝ → ℝ) (hg : ∀ i ∈ l, Measurable (g i))
    (hi : ∀ i ∈ l, Integrable (fun z => phi z * g i (mean + s * z))) :
    Measurable (fun r => (l.map (fun i => c i * g i r)).sum) ∧ Integrable (fun z => phi z * (l.map (fun i => c i * g i (mean + s * z))).sum) ∧
    (l.map (fun i => c i * normalExpectation mean s (g i))).sum = normalExpectation mean s (fun r => (l.map (fun i => c i * g i r)).sum) := by
  induction l with
  | nil => simp [normalExpectation]
  | cons i l ih =>
    obtain ⟨h1, h2, h3⟩ := ih (fun j hj => hg j (List.mem_cons_of_mem _ hj)) (fun j hj => hi j (List.mem_cons_of_mem _ hj))
    have hgi := hg i List.mem_cons_self
    have hii := hi i List.mem_cons_self
    have hm' : Measurable (fun r => ((i :: l).map (fun i => c i * g i r)).sum) := by
      simp only [List.map_cons, List.sum_cons]
      exact (hgi.const_mul _).add h1
    have hint : ∀ z, phi z * ((i :: l).map (fun i => c i * g i (mean + s * z))).sum =
        c i * (phi z * g i (mean + s * z)) + phi z * (l.map (fun i => c i * g i (mean + s * z))).sum := by
      intro z; simp only [List.map_cons, List.sum_cons]; ring
    refine ⟨hm', ?_, ?_⟩
    · simp only [hint]; exact (hii.const_mul _).add h2
    · rw [List.map_cons, List.sum_cons, h3, normalExpectation_std _ _ _ hgi, normalExpectation_std _ _ _ h1, normalExpectation_std _ _ _ hm']
      simp only [hint]
      rw [integral_add (hii.const_mul _) h2, integral_const_mul]

theorem payoff_integrable (m : HullWhite) (T0 T K : ℝ) (isCall : Bool) (hy : 0 ≤ m.computeYt T0) :
    Integrable (fun z => phi z * vanillaPayoff isCall K (m.discountBondPrice (m.instantForwardRate T0 + Real.sqrt (m.computeYt T0) * z) T0 T)) := by
  simp only [bond_lognormal m T0 T _ hy]
  have h1 := lognormal_integrable (initialDiscount m T / initialDiscount m T0) (-(Real.sqrt (m.computeYt T0) * bondG m T0 T))
  have h2 : Integrable (fun z => phi z * (|K| + initialDiscount m T / initialDiscount m T0 *
      Real.exp (-(Real.sqrt (m.computeYt T0) * bondG m T0 T) * z - (-(Real.sqrt (m.computeYt T0) * bondG m T0 T)) ^ 2 / 2))) := by
    refine ((phi_integrable.mul_const |K|).add h1).congr (Filter.Eventually.of_forall (fun z => ?_))
    simp only [Pi.add_apply]; ring
  refine h2.mono ?_ (Filter.Eventually.of_forall (fun z => ?_))
  · apply Measurable.aestronglyMeasurable
    apply phi_continuous.measurable.mul
    have hm' : Measurable (vanillaPayoff isCall K) := by
      cases isCall
      · exact (vanilla_kink_put K).measurable
      · exact (vanilla_kink_call K).measurable
    apply hm'.comp
    fun_prop
  · rw [norm_mul, norm_mul]
    apply mul_le_mul_of_nonneg_left _ (norm_nonneg _)
    have hF : 0 < initialDiscount m T / initialDiscount m T0 := div_pos (initialDiscount_pos m T) (initialDiscount_pos m T0)
    have hp := mul_pos hF (Real.exp_pos (-(Real.sqrt (m.computeYt T0) * bondG m T0 T) * z - (-(Real.sqrt (m.computeYt T0) * bondG m T0 T)) ^ 2 / 2))
    generalize initialDiscount m T / initialDiscount m T0 *
      Real.exp (-(Real.sqrt (m.computeYt T0) * bondG m T0 T) * z - (-(Real.sqrt (m.computeYt T0) * bondG m T0 T)) ^ 2 / 2) = P at hp ⊢
    have k1 := le_abs_self K
    have k2 := neg_abs_le K
    have k3 := abs_nonneg K
    rw [Real.norm_eq_abs, Real.norm_eq_abs, abs_of_nonneg (show (0 : ℝ) ≤ |K| + P by positivity)]
    unfold vanillaPayoff
    split
    · rw [abs_of_nonneg (le_max_right _ _)]; exact max_le (by linarith) (by linarith)
    · rw [abs_of_nonneg (le_max_right _ _)]; exact max_le (by linarith) (by linarith)

end Lemmas

namespace Props
open Model Lemmas Spec MeasureTheory

/-- C54: a cap (floor) is the sum of the discounted expectations of its caplets (floorlets). Caplets are
`(strike, expiry, maturity, daycount fraction)`. What is missing: as for bond options. -/
theorem C54_cap_floor_partial (m : HullWhite) (hm : HullWhiteOk m) (notional : ℝ) (isCap : Bool) (caplets : List (ℝ × ℝ × ℝ × ℝ))
    (h : ∀ c ∈ caplets, 0 ≤ c.2.1 ∧ c.2.1 < c.2.2.1 ∧ 0 < c.2.2.2 ∧ 0 < 1 + c.2.2.2 * c.1 ∧ 0 < convexity m.meanReversion m.volatility c.2.1) :
    m.capFloorPrice notional isCap caplets = (caplets.map (fun c => notional * (Real.exp (-(m.discountRate c.2.1 * c.2.1)) *
      normalExpectation (m.instantForwardRate c.2.1) (Real.sqrt (convexity m.meanReversion m.volatility c.2.1))
        (fun r => capletValue isCap c.1 c.2.2.2 (m.discountBondPrice r c.2.1 c.2.2.1))))).sum := by
  unfold HullWhite.capFloorPrice
  congr 1
  apply List.map_congr_left
  rintro ⟨K, T0, T, d⟩ hc
  obtain ⟨h1, h2, h3, h4, h5⟩ := h _ hc
  simp only at h1 h2 h3 h4 h5 ⊢
  rw [if_neg (not_lt.2 h1), C53_bond_option_partial m hm _ T0 T _ (by positivity) h1 h2 h5]
  have hb : ∀ r, 0 < m.discountBondPrice r T0 T := fun r => by rw [discountBondPrice_eq]; exact Real.exp_pos _
  simp only [caplet_bond isCap K d _ h3 h4 (hb _)]
  unfold normalExpectation
  rw [integral_const_mul]
  ring

/-- C54: cap-floor parity: the difference is the swap of the floating rate against the strike. -/
theorem C54_parity (m : HullWhite) (notional : ℝ) (caplets : List (ℝ × ℝ × ℝ × ℝ))
    (h : ∀ c ∈ caplets, 0 ≤ c.2.1 ∧ c.2.1 ≤ c.2.2.1 ∧ 1 + c.2.2.2 * c.1 ≠ 0 ∧ 0 < m.bondOptionVariance c.2.1 c.2.2.1) :
    m.capFloorPrice notional true caplets - m.capFloorPrice notional false caplets = (caplets.map (fun c =>
      notional * (Real.exp (-(m.discountRate c.2.1 * c.2.1)) - (1 + c.2.2.2 * c.1) * Real.exp (-(m.discountRate c.2.2.1 * c.2.2.1))))).sum := by
  unfold HullWhite.capFloorPrice
  induction caplets with
  | nil => simp
  | cons c caplets ih =>
    have ih' := ih (fun c hc => h c (List.mem_cons_of_mem _ hc))
    obtain ⟨K, T0, T, d⟩ := c
    obtain ⟨h1, h2, h3, h4⟩ := h _ List.mem_cons_self
    simp only at h1 h2 h3 h4
    have hp := C53_parity m (1 / (1 + d * K)) T0 T h2 h4
    simp only [List.map_cons, List.sum_cons, if_neg (not_lt.2 h1), Bool.not_true, Bool.not_false] at ih' ⊢
    have e : (1 + d * K) * (1 / (1 + d * K)) = 1 := mul_one_div_cancel h3
    linear_combination ih' - notional * (1 + d * K) * hp + notional * Real.exp (-(m.discountRate T0 * T0)) * e

end Props

namespace Lemmas
open Model Spec MeasureTheory

theorem payments_last {A : Type} (l : List A) (hne : l ≠ []) (d : A) : ∃ l' a, l = l' ++ [a] ∧ l.getLastD d = a := by
  refine ⟨l.dropLast, l.getLast hne, (List.dropLast_append_getLast hne).symm, ?_⟩
  cases l with
  | nil => exact absurd rfl hne
  | cons a l =>
    rw [List.getLastD_eq_getLast?, List.getLast?_eq_some_getLast hne]
    rfl

/-- The function of the break-even rate is the value of the payer swap. -/
theorem jamshidian_eq (m : HullWhite) (T0 : ℝ) (payments : List (ℝ × ℝ × ℝ)) (hne : payments ≠ []) (r : ℝ) :
    m.jamshidianFunction T0 payments r = payerSwap payments (fun T => m.discountBondPrice r T0 T) := by
  obtain ⟨l, a, hl, hlast⟩ := payments_last payments hne 0
  unfold HullWhite.jamshidianFunction payerSwap
  rw [hlast, hl]
  simp only [List.map_append, List.map_cons, List.map_nil, List.dropLast_concat, List.getLastD_concat]
  rw [List.zipWith_append (by simp)]
  simp only [List.zipWith_cons_cons, List.zipWith_nil_left, List.sum_append, List.sum_cons, List.sum_nil, List.map_map]
  have : (List.zipWith (fun c p => c * m.discountBondPrice r T0 p) (l.map ((fun c => -c) ∘ fun p => p.2.1 * p.2.2)) (l.map Prod.fst)).sum =
      -(l.map (fun p => p.2.1 * p.2.2 * m.discountBondPrice r T0 p.1)).sum := by
    clear hl hlast
    induction l with
    | nil => simp
    | cons b l ih => simp only [List.map_cons, List.zipWith_cons_cons, List.sum_cons, ih, Function.comp]; ring
  rw [this]
  ring

/-- The swaption price as a sum over the payments. -/
theorem swaptionPrice_eq (m : HullWhite) (T0 notional : ℝ) (isPayer : Bool) (payments : List (ℝ × ℝ × ℝ)) (hne : payments ≠ []) (r : ℝ) :
    m.swaptionPrice T0 notional isPayer payments r = notional *
      ((payments.map (fun p => p.2.1 * p.2.2 * m.bondOptionPrice (m.discountBondPrice r T0 p.1) T0 p.1 (!isPayer))).sum +
        m.bondOptionPrice (m.discountBondPrice r T0 (payments.getLastD 0).1) T0 (payments.getLastD 0).1 (!isPayer)) := by
  unfold HullWhite.swaptionPrice
  simp only
  have h1 : List.zipWith (fun strike (p : ℝ × ℝ × ℝ) => m.bondOptionPrice strike T0 p.1 (!isPayer))
      (payments.map (fun p => m.discountBondPrice r T0 p.1)) payments =
      payments.map (fun p => m.bondOptionPrice (m.discountBondPrice r T0 p.1) T0 p.1 (!isPayer)) := by
    clear hne
    induction payments with
    | nil => rfl
    | cons b l ih => simp only [List.map_cons, List.zipWith_cons_cons, ih]
  rw [h1]
  congr 2
  · clear hne h1
    induction payments with
    | nil => rfl
    | cons b l ih => simp only [List.map_cons, List.zipWith_cons_cons, List.sum_cons, ih]; ring
  · obtain ⟨l, a, hl, hlast⟩ := payments_last payments hne 0
    rw [hlast, hl, List.map_append, List.map_cons, List.map_nil, List.getLastD_concat]

end Lemmas

namespace Props
open Model Lemmas Spec MeasureTheory

/-- C55: whatever rate the root finder returns, the price is the discounted expectation of the positive part of the swap at expiry, less the value the
swap has at this rate. -/
theorem C55_any_rate (m : HullWhite) (hm : HullWhiteOk m) (T0 notional : ℝ) (isPayer : Bool) (payments : List (ℝ × ℝ × ℝ)) (hne : payments ≠ [])
    (h0 : 0 ≤ T0) (hy : 0 < convexity m.meanReversion m.volatility T0) (hp : ∀ p ∈ payments, T0 < p.1 ∧ 0 ≤ p.2.1 * p.2.2) (root : ℝ) :
    m.swaptionPrice T0 notional isPayer payments root = notional * (Real.exp (-(m.discountRate T0 * T0)) *
      normalExpectation (m.instantForwardRate T0) (Real.sqrt (convexity m.meanReversion m.volatility T0))
        (fun r => if isPayer then max (payerSwap payments (fun T => m.discountBondPrice r T0 T) - payerSwap payments (fun T => m.discountBondPrice root T0 T)) 0
          else max (payerSwap payments (fun T => m.discountBondPrice root T0 T) - payerSwap payments (fun T => m.discountBondPrice r T0 T)) 0)) := by
  rw [swaptionPrice_eq m T0 notional isPayer payments hne]
  obtain ⟨l, a, hl, hlast⟩ := payments_last payments hne 0
  rw [hlast]
  have ha : a ∈ payments := by rw [hl]; simp
  have hy' := hy
  rw [← computeYt_eq m hm T0 h0] at hy'
  have hb : ∀ r T, 0 < m.discountBondPrice r T0 T := fun r T => by rw [discountBondPrice_eq]; exact Real.exp_pos _
  -- the extended list: all coupons and the notional
  set ext : List (ℝ × ℝ) := (a.1, 1) :: payments.map (fun p => (p.1, p.2.1 * p.2.2)) with hext
  have hsum : ∀ f : ℝ → ℝ, (payments.map (fun p => p.2.1 * p.2.2 * f p.1)).sum + f a.1 = (ext.map (fun q => q.2 * f q.1)).sum := by
    intro f
    rw [hext, List.map_cons, List.sum_cons, List.map_map, one_mul, add_comm]
    rfl
  have hextp : ∀ q ∈ ext, T0 < q.1 ∧ 0 ≤ q.2 := by
    intro q hq
    rw [hext, List.mem_cons, List.mem_map] at hq
    rcases hq with rfl | ⟨p, hp', rfl⟩
    · exact ⟨(hp a ha).1, zero_le_one⟩
    · exact hp p hp'
  have hswap : ∀ r, payerSwap payments (fun T => m.discountBondPrice r T0 T) = 1 - (ext.map (fun q => q.2 * m.discountBondPrice r T0 q.1)).sum := by
    intro r
    rw [← hsum (fun T => m.discountBondPrice r T0 T)]
    unfold payerSwap
    rw [hlast]
    ring
  congr 1
  rw [hsum (fun T => m.bondOptionPrice (m.discountBondPrice root T0 T) T0 T (!isPayer))]
  have hterm : ext.map (fun q => q.2 * m.bondOptionPrice (m.discountBondPrice root T0 q.1) T0 q.1 (!isPayer)) =
      ext.map (fun q => Real.exp (-(m.discountRate T0 * T0)) * (q.2 * normalExpectation (m.instantForwardRate T0) (Real.sqrt (m.computeYt T0))
        (fun r => vanillaPayoff (!isPayer) (m.discountBondPrice root T0 q.1) (m.discountBondPrice r T0 q.1)))) := by
    apply List.map_congr_left
    intro q hq
    rw [bondOptionPrice_eq m hm _ T0 q.1 _ (hb root q.1) h0 (hextp q hq).1 hy']
    unfold initialDiscount
    ring
  rw [hterm, List.sum_map_mul_left]
  congr 1
  obtain ⟨_, _, h3⟩ := expectation_sum (m.instantForwardRate T0) (Real.sqrt (m.computeYt T0)) ext (fun q => q.2)
    (fun q r => vanillaPayoff (!isPayer) (m.discountBondPrice root T0 q.1) (m.discountBondPrice r T0 q.1))
    (by
      intro q _
      have hm' : Measurable (vanillaPayoff (!isPayer) (m.discountBondPrice root T0 q.1)) := by
        cases isPayer
        · exact (vanilla_kink_call _).measurable
        · exact (vanilla_kink_put _).measurable
      apply hm'.comp
      simp only [discountBondPrice_eq]
      fun_prop)
    (by intro q _; exact payoff_integrable m T0 q.1 _ _ hy'.le)
  rw [h3, ← computeYt_eq m hm T0 h0]
  congr 1
  funext r
  rw [hswap r, hswap root]
  -- pointwise: all bonds move together
  have key : ∀ (e : List (ℝ × ℝ)), (∀ q ∈ e, T0 < q.1 ∧ 0 ≤ q.2) →
      (root ≤ r → (e.map (fun q => q.2 * vanillaPayoff (!isPayer) (m.discountBondPrice root T0 q.1) (m.discountBondPrice r T0 q.1))).sum =
        (if isPayer then (e.map (fun q => q.2 * m.discountBondPrice root T0 q.1)).sum - (e.map (fun q => q.2 * m.discountBondPrice r T0 q.1)).sum else 0) ∧
        (e.map (fun q => q.2 * m.discountBondPrice r T0 q.1)).sum ≤ (e.map (fun q => q.2 * m.discountBondPrice root T0 q.1)).sum) ∧
      (r ≤ root → (e.map (fun q => q.2 * vanillaPayoff (!isPayer) (m.discountBondPrice root T0 q.1) (m.discountBondPrice r T0 q.1))).sum =
        (if isPayer then 0 else (e.map (fun q => q.2 * m.discountBondPrice r T0 q.1)).sum - (e.map (fun q => q.2 * m.discountBondPrice root T0 q.1)).sum) ∧
        (e.map (fun q => q.2 * m.discountBondPrice root T0 q.1)).sum ≤ (e.map (fun q => q.2 * m.discountBondPrice r T0 q.1)).sum) := by
    intro e he
    induction e with
    | nil => constructor <;> intro _ <;> simp
    | cons q e ih =>
      obtain ⟨i1, i2⟩ := ih (fun q' hq' => he q' (List.mem_cons_of_mem _ hq'))
      obtain ⟨q1, q2⟩ := he q List.mem_cons_self
      have hanti := (C52_decreasing m hm.mr T0 q.1 q1).antitone
      constructor
      · intro hr
        obtain ⟨j1, j2⟩ := i1 hr
        have hle : m.discountBondPrice r T0 q.1 ≤ m.discountBondPrice root T0 q.1 := hanti hr
        simp only [List.map_cons, List.sum_cons]
        rw [j1]
        unfold vanillaPayoff
        refine ⟨?_, by nlinarith [mul_le_mul_of_nonneg_left hle q2]⟩
        cases isPayer
        · simp only [Bool.not_false, if_true, Bool.false_eq_true, if_false]
          rw [max_eq_right (by linarith)]; ring
        · simp only [Bool.not_true, if_true, Bool.false_eq_true, if_false]
          rw [max_eq_left (by linarith)]; ring
      · intro hr
        obtain ⟨j1, j2⟩ := i2 hr
        have hle : m.discountBondPrice root T0 q.1 ≤ m.discountBondPrice r T0 q.1 := hanti hr
        simp only [List.map_cons, List.sum_cons]
        rw [j1]
        unfold vanillaPayoff
        refine ⟨?_, by nlinarith [mul_le_mul_of_nonneg_left hle q2]⟩
        cases isPayer
        · simp only [Bool.not_false, if_true, Bool.false_eq_true, if_false]
          rw [max_eq_left (by linarith)]; ring
        · simp only [Bool.not_true, if_true, Bool.false_eq_true, if_false]
          rw [max_eq_right (by linarith)]; ring
  obtain ⟨k1, k2⟩ := key ext hextp
  rcases le_total root r with hr | hr
  · obtain ⟨e1, e2⟩ := k1 hr
    rw [e1]
    cases isPayer
    · simp only [Bool.false_eq_true, if_false]; rw [max_eq_right (by linarith)]
    · simp only [if_true]; rw [max_eq_left (by linarith)]; linarith
  · obtain ⟨e1, e2⟩ := k2 hr
    rw [e1]
    cases isPayer
    · simp only [Bool.false_eq_true, if_false]; rw [max_eq_left (by linarith)]; linarith
    · simp only [if_true]; rw [max_eq_right (by linarith)]

/-- C55: Jamshidian's decomposition. If the break-even rate is a root, the price is the discounted expectation of the payoff of the
swaption, the positive part of the value of the swap at expiry. What is missing: the case without variance, a deviation as for bond options. Rates that
are no exact roots are `C55_tolerance`. -/
theorem C55_swaption_partial (m : HullWhite) (hm : HullWhiteOk m) (T0 notional : ℝ) (isPayer : Bool) (payments : List (ℝ × ℝ × ℝ)) (hne : payments ≠ [])
    (h0 : 0 ≤ T0) (hy : 0 < convexity m.meanReversion m.volatility T0) (hp : ∀ p ∈ payments, T0 < p.1 ∧ 0 ≤ p.2.1 * p.2.2) (root : ℝ)
    (hroot : m.jamshidianFunction T0 payments root = 0) :
    m.swaptionPrice T0 notional isPayer payments root = notional * (Real.exp (-(m.discountRate T0 * T0)) *
      normalExpectation (m.instantForwardRate T0) (Real.sqrt (convexity m.meanReversion m.volatility T0))
        (fun r => if isPayer then max (payerSwap payments (fun T => m.discountBondPrice r T0 T)) 0
          else max (-payerSwap payments (fun T => m.discountBondPrice r T0 T)) 0)) := by
  rw [jamshidian_eq m T0 payments hne] at hroot
  rw [C55_any_rate m hm T0 notional isPayer payments hne h0 hy hp root, hroot]
  simp only [sub_zero, zero_sub]

end Props

namespace Lemmas
open Model Spec MeasureTheory ProbabilityTheory

theorem payerSwap_continuous (m : HullWhite) (T0 : ℝ) (payments : List (ℝ × ℝ × ℝ)) :
    Continuous (fun r => payerSwap payments (fun T => m.discountBondPrice r T0 T)) := by
  have hcont : ∀ T, Continuous (fun r => m.discountBondPrice r T0 T) := by
    intro T; simp only [discountBondPrice_eq]; fun_prop
  unfold payerSwap
  refine (continuous_const.sub (hcont _)).sub ?_
  induction payments with
  | nil => simpa using continuous_const
  | cons p payments ih => simp only [List.map_cons, List.sum_cons]; exact (continuous_const.mul (hcont _)).add ih

/-- Expectations of functions that are close. -/
theorem normalExpectation_close (mean s c : ℝ) (f g : ℝ → ℝ) (hf : Continuous f) (hg : Continuous g) (hc : ∀ x, |f x - g x| ≤ c) :
    |normalExpectation mean s f - normalExpectation mean s g| ≤ c := by
  unfold normalExpectation
  have hd : Integrable (fun x => f x - g x) (gaussianReal mean (Real.toNNReal (s ^ 2))) :=
    Integrable.of_bound (hf.sub hg).aestronglyMeasurable c (Filter.Eventually.of_forall hc)
  have hb : |∫ x, (f x - g x) ∂(gaussianReal mean (Real.toNNReal (s ^ 2)))| ≤ c := by
    have := norm_integral_le_of_norm_le_const (μ := gaussianReal mean (Real.toNNReal (s ^ 2))) (f := fun x => f x - g x) (C := c) (Filter.Eventually.of_forall hc)
    simpa [Real.norm_eq_abs] using this
  by_cases hi : Integrable f (gaussianReal mean (Real.toNNReal (s ^ 2)))
  · have hj : Integrable g (gaussianReal mean (Real.toNNReal (s ^ 2))) := by
      refine (hi.sub hd).congr (Filter.Eventually.of_forall fun x => ?_)
      simp
    rwa [← integral_sub hi hj]
  · have hj : ¬Integrable g (gaussianReal mean (Real.toNNReal (s ^ 2))) := by
      intro hj
      refine hi ((hj.add hd).congr (Filter.Eventually.of_forall fun x => ?_))
      simp
    rw [integral_undef hi, integral_undef hj, sub_zero, abs_zero]
    exact le_trans (abs_nonneg _) (hc 0)

end Lemmas

namespace Props
open Model Lemmas Spec MeasureTheory

/-- C55: the error of the price is at most the discounted notional times the value of the swap at the rate that the root finder returned. -/
theorem C55_tolerance (m : HullWhite) (hm : HullWhiteOk m) (T0 notional : ℝ) (isPayer : Bool) (payments : List (ℝ × ℝ × ℝ)) (hne : payments ≠ [])
    (h0 : 0 ≤ T0) (hy : 0 < convexity m.meanReversion m.volatility T0) (hp : ∀ p ∈ payments, T0 < p.1 ∧ 0 ≤ p.2.1 * p.2.2) (root : ℝ) :
    |m.swaptionPrice T0 notional isPayer payments root - notional * (Real.exp (-(m.discountRate T0 * T0)) *
      normalExpectation (m.instantForwardRate T0) (Real.sqrt (convexity m.meanReversion m.volatility T0))
        (fun r => if isPayer then max (payerSwap payments (fun T => m.discountBondPrice r T0 T)) 0
          else max (-payerSwap payments (fun T => m.discountBondPrice r T0 T)) 0))| ≤
      |notional| * Real.exp (-(m.discountRate T0 * T0)) * |payerSwap payments (fun T => m.discountBondPrice root T0 T)| := by
  rw [C55_any_rate m hm T0 notional isPayer payments hne h0 hy hp root, ← mul_sub, ← mul_sub, abs_mul, abs_mul, abs_of_pos (Real.exp_pos _), mul_assoc]
  refine mul_le_mul_of_nonneg_left (mul_le_mul_of_nonneg_left ?_ (Real.exp_pos _).le) (abs_nonneg _)
  have hs := payerSwap_continuous m T0 payments
  have hmax : ∀ a b : ℝ, |max a 0 - max b 0| ≤ |a - b| := fun a b => abs_max_sub_max_le_abs a b 0
  cases isPayer
  · simp only [Bool.false_eq_true, if_false]
    refine normalExpectation_close _ _ _ _ _ (by fun_prop) (by fun_prop) fun r => ?_
    refine (hmax _ _).trans (le_of_eq ?_)
    congr 1
    ring
  · simp only [if_true]
    refine normalExpectation_close _ _ _ _ _ (by fun_prop) (by fun_prop) fun r => ?_
    refine (hmax _ _).trans (le_of_eq ?_)
    rw [← abs_neg (payerSwap payments fun T => m.discountBondPrice root T0 T)]
    congr 1
    ring

/-- C55: each price of a batch, with the break-even rates found by Brent's method. If the value of the swap has different signs at the ends of the
bracket, the search stays within it; whenever it reports success, the price is the discounted expectation of the payoff up to the tolerance of the search
times the discounted notional. -/
theorem C55_batch (m : HullWhite) (hm : HullWhiteOk m) (relTol : ℝ) (hr : 0 ≤ relTol) (swaptions : List (ℝ × ℝ × Bool × List (ℝ × ℝ × ℝ))) (i : Nat)
    (T0 notional : ℝ) (isPayer : Bool) (payments : List (ℝ × ℝ × ℝ)) (hi : swaptions[i]? = some (T0, notional, isPayer, payments)) (hne : payments ≠ [])
    (h0 : 0 ≤ T0) (hy : 0 < convexity m.meanReversion m.volatility T0) (hp : ∀ p ∈ payments, T0 < p.1 ∧ 0 ≤ p.2.1 * p.2.2)
    (hsign : payerSwap payments (fun T => m.discountBondPrice (-1) T0 T) * payerSwap payments (fun T => m.discountBondPrice 1 T0 T) ≤ 0) :
    ∃ rate price, (m.swaptionPrices relTol swaptions)[i]? = some price ∧ -1 ≤ rate ∧ rate ≤ 1 ∧
      price = m.swaptionPrice T0 notional isPayer payments rate ∧
      (|payerSwap payments (fun T => m.discountBondPrice rate T0 T)| ≤ 2e-7 →
        |price - notional * (Real.exp (-(m.discountRate T0 * T0)) *
          normalExpectation (m.instantForwardRate T0) (Real.sqrt (convexity m.meanReversion m.volatility T0))
            (fun r => if isPayer then max (payerSwap payments (fun T => m.discountBondPrice r T0 T)) 0
              else max (-payerSwap payments (fun T => m.discountBondPrice r T0 T)) 0))| ≤
          |notional| * Real.exp (-(m.discountRate T0 * T0)) * 2e-7) ∧
      ((brentq stopAll 100 (swaptions.map (fun s => (⟨m.jamshidianFunction s.1 s.2.2.2, 100, 2e-7, relTol, 2e-7⟩, -1, 1))))[i]?.map (·.converged) = some true ↔
        |payerSwap payments (fun T => m.discountBondPrice rate T0 T)| ≤ 2e-7) := by
  obtain ⟨r, h1, h2, h3, _, _, h6, _⟩ := C28_result stopAll 100
    (swaptions.map (fun s => ((⟨m.jamshidianFunction s.1 s.2.2.2, 100, 2e-7, relTol, 2e-7⟩ : BrentParams ℝ), (-1 : ℝ), (1 : ℝ)))) i
    ⟨m.jamshidianFunction T0 payments, 100, 2e-7, relTol, 2e-7⟩ (-1) 1 (by rw [List.getElem?_map, hi]; rfl) (by norm_num) hr (by norm_num)
    (by simpa only [jamshidian_eq m T0 payments hne] using hsign)
  simp only [jamshidian_eq m T0 payments hne] at h6
  refine ⟨r.estimatedRoot, m.swaptionPrice T0 notional isPayer payments r.estimatedRoot, ?_, by simpa using h2, by simpa using h3, rfl, fun h => ?_, ?_⟩
  · unfold HullWhite.swaptionPrices
    simp only
    rw [List.getElem?_zipWith, hi, h1]
  · refine (C55_tolerance m hm T0 notional isPayer payments hne h0 hy hp _).trans ?_
    exact mul_le_mul_of_nonneg_left h (mul_nonneg (abs_nonneg _) (Real.exp_pos _).le)
  · rw [h1, ← h6]
    simp

/-- C55: payer minus receiver is the forward swap. -/
theorem C55_parity (m : HullWhite) (T0 notional : ℝ) (payments : List (ℝ × ℝ × ℝ)) (hne : payments ≠ [])
    (hv : ∀ p ∈ payments, T0 ≤ p.1 ∧ 0 < m.bondOptionVariance T0 p.1) (root : ℝ) (hroot : m.jamshidianFunction T0 payments root = 0) :
    m.swaptionPrice T0 notional true payments root - m.swaptionPrice T0 notional false payments root =
      notional * (Real.exp (-(m.discountRate T0 * T0)) * payerSwap payments (fun T => Real.exp (-(m.discountRate T * T)) / Real.exp (-(m.discountRate T0 * T0)))) := by
  rw [jamshidian_eq m T0 payments hne] at hroot
  rw [swaptionPrice_eq m T0 notional true payments hne, swaptionPrice_eq m T0 notional false payments hne, ← mul_sub]
  congr 1
  obtain ⟨l, a, hl, hlast⟩ := payments_last payments hne 0
  have ha : a ∈ payments := by rw [hl]; simp
  unfold payerSwap at hroot ⊢
  rw [hlast] at hroot ⊢
  simp only [Bool.not_true, Bool.not_false]
  have hpar := C53_parity m (m.discountBondPrice root T0 a.1) T0 a.1 (hv a ha).1 (hv a ha).2
  have hD := (Real.exp_pos (-(m.discountRate T0 * T0))).ne'
  have hsum : (payments.map (fun p => p.2.1 * p.2.2 * m.bondOptionPrice (m.discountBondPrice root T0 p.1) T0 p.1 false)).sum -
      (payments.map (fun p => p.2.1 * p.2.2 * m.bondOptionPrice (m.discountBondPrice root T0 p.1) T0 p.1 true)).sum =
      Real.exp (-(m.discountRate T0 * T0)) * ((payments.map (fun p => p.2.1 * p.2.2 * m.discountBondPrice root T0 p.1)).sum -
        (payments.map (fun p => p.2.1 * p.2.2 * (Real.exp (-(m.discountRate p.1 * p.1)) / Real.exp (-(m.discountRate T0 * T0))))).sum) := by
    clear hne hl hlast ha hroot hpar
    induction payments with
    | nil => simp
    | cons p payments ih =>
      have ih' := ih (fun q hq => hv q (List.mem_cons_of_mem _ hq))
      have hp := C53_parity m (m.discountBondPrice root T0 p.1) T0 p.1 (hv p List.mem_cons_self).1 (hv p List.mem_cons_self).2
      simp only [List.map_cons, List.sum_cons]
      have e : Real.exp (-(m.discountRate T0 * T0)) * (Real.exp (-(m.discountRate p.1 * p.1)) / Real.exp (-(m.discountRate T0 * T0))) =
        Real.exp (-(m.discountRate p.1 * p.1)) := by field_simp
      linear_combination ih' - p.2.1 * p.2.2 * hp + p.2.1 * p.2.2 * e
  have e : Real.exp (-(m.discountRate T0 * T0)) * (Real.exp (-(m.discountRate a.1 * a.1)) / Real.exp (-(m.discountRate T0 * T0))) =
    Real.exp (-(m.discountRate a.1 * a.1)) := by field_simp
  linear_combination hsum - hpar + e - Real.exp (-(m.discountRate T0 * T0)) * hroot

/-- C55: there is exactly one break-even rate. -/
theorem C55_break_even (m : HullWhite) (hk : m.meanReversion ≠ 0) (T0 : ℝ) (payments : List (ℝ × ℝ × ℝ)) (hne : payments ≠ [])
    (hp : ∀ p ∈ payments, T0 < p.1 ∧ 0 ≤ p.2.1 * p.2.2) : ∃! root, m.jamshidianFunction T0 payments root = 0 := by
  obtain ⟨l, a, hl, hlast⟩ := payments_last payments hne 0
  have ha : a ∈ payments := by rw [hl]; simp
  have hcont : ∀ T, Continuous (fun r => m.discountBondPrice r T0 T) := by
    intro T; simp only [discountBondPrice_eq]; fun_prop
  have hb : ∀ r T, 0 < m.discountBondPrice r T0 T := fun r T => by rw [discountBondPrice_eq]; exact Real.exp_pos _
  have hj : ∀ r, m.jamshidianFunction T0 payments r = 1 - m.discountBondPrice r T0 a.1 -
      (payments.map (fun p => p.2.1 * p.2.2 * m.discountBondPrice r T0 p.1)).sum := by
    intro r; rw [jamshidian_eq m T0 payments hne]; unfold payerSwap; rw [hlast]
  have hmono : StrictMono (m.jamshidianFunction T0 payments) := by
    intro r r' hr
    rw [hj, hj]
    have h1 := C52_decreasing m hk T0 a.1 (hp a ha).1 hr
    have h2 : (payments.map (fun p => p.2.1 * p.2.2 * m.discountBondPrice r' T0 p.1)).sum ≤
        (payments.map (fun p => p.2.1 * p.2.2 * m.discountBondPrice r T0 p.1)).sum := by
      apply List.sum_le_sum
      intro p hp'
      exact mul_le_mul_of_nonneg_left ((C52_decreasing m hk T0 p.1 (hp p hp').1).antitone hr.le) (hp p hp').2
    simp only at h1
    linarith
  have hc : Continuous (m.jamshidianFunction T0 payments) := by
    have : m.jamshidianFunction T0 payments = fun r => 1 - m.discountBondPrice r T0 a.1 -
      (payments.map (fun p => p.2.1 * p.2.2 * m.discountBondPrice r T0 p.1)).sum := funext hj
    rw [this]
    apply (continuous_const.sub (hcont _)).sub
    clear hj hmono this hl hlast ha hp hne
    induction payments with
    | nil => simpa using continuous_const
    | cons p payments ih => simp only [List.map_cons, List.sum_cons]; exact (continuous_const.mul (hcont _)).add ih
  -- bond prices tend to zero and to infinity
  have hup : ∀ T, T0 < T → Filter.Tendsto (fun r => m.discountBondPrice r T0 T) Filter.atTop (nhds 0) := by
    intro T hT
    have hg := bondG_pos m hk T0 T hT
    simp only [discountBondPrice_eq]
    apply Real.tendsto_exp_atBot.comp
    have : (fun r => -(m.discountRate T * T) + m.discountRate T0 * T0 - (r - m.instantForwardRate T0) * bondG m T0 T -
        m.computeYt T0 * bondG m T0 T ^ 2 / 2) = fun r => (-(bondG m T0 T)) * r + (-(m.discountRate T * T) + m.discountRate T0 * T0 +
          m.instantForwardRate T0 * bondG m T0 T - m.computeYt T0 * bondG m T0 T ^ 2 / 2) := by funext r; ring
    rw [this]
    exact Filter.tendsto_atBot_add_const_right _ _ (Filter.tendsto_id.const_mul_atTop_of_neg (by linarith))
  have hdown : Filter.Tendsto (fun r => m.discountBondPrice r T0 a.1) Filter.atBot Filter.atTop := by
    have hg := bondG_pos m hk T0 a.1 (hp a ha).1
    simp only [discountBondPrice_eq]
    apply Real.tendsto_exp_atTop.comp
    have : (fun r => -(m.discountRate a.1 * a.1) + m.discountRate T0 * T0 - (r - m.instantForwardRate T0) * bondG m T0 a.1 -
        m.computeYt T0 * bondG m T0 a.1 ^ 2 / 2) = fun r => (-(bondG m T0 a.1)) * r + (-(m.discountRate a.1 * a.1) + m.discountRate T0 * T0 +
          m.instantForwardRate T0 * bondG m T0 a.1 - m.computeYt T0 * bondG m T0 a.1 ^ 2 / 2) := by funext r; ring
    rw [this]
    exact Filter.tendsto_atTop_add_const_right _ _ (Filter.tendsto_id.const_mul_atBot_of_neg (by linarith))
  have hlow : ∃ r, m.jamshidianFunction T0 payments r ≤ 0 := by
    obtain ⟨r, hr⟩ := (hdown.eventually_ge_atTop 1).exists
    refine ⟨r, ?_⟩
    rw [hj]
    have : 0 ≤ (payments.map (fun p => p.2.1 * p.2.2 * m.discountBondPrice r T0 p.1)).sum := by
      apply List.sum_nonneg
      intro x hx
      rw [List.mem_map] at hx
      obtain ⟨p, hp', rfl⟩ := hx
      exact mul_nonneg (hp p hp').2 (hb _ _).le
    linarith
  have hhigh : ∃ r, 0 ≤ m.jamshidianFunction T0 payments r := by
    have ht : Filter.Tendsto (fun r => (payments.map (fun p => p.2.1 * p.2.2 * m.discountBondPrice r T0 p.1)).sum) Filter.atTop (nhds 0) := by
      clear hj hmono hc hl hlast ha hne hdown hlow
      induction payments with
      | nil => simp
      | cons p payments ih =>
        simp only [List.map_cons, List.sum_cons]
        have h1 := (hup p.1 (hp p List.mem_cons_self).1).const_mul (p.2.1 * p.2.2)
        have h2 := ih (fun q hq => hp q (List.mem_cons_of_mem _ hq))
        simpa using h1.add h2
    have hsum : Filter.Tendsto (fun r => m.discountBondPrice r T0 a.1 + (payments.map (fun p => p.2.1 * p.2.2 * m.discountBondPrice r T0 p.1)).sum)
        Filter.atTop (nhds 0) := by simpa using (hup a.1 (hp a ha).1).add ht
    obtain ⟨r, hr⟩ := (hsum.eventually_lt_const (show (0 : ℝ) < 1 by norm_num)).exists
    exact ⟨r, by rw [hj]; linarith⟩
  obtain ⟨r1, h1⟩ := hlow
  obtain ⟨r2, h2⟩ := hhigh
  obtain ⟨r, hr⟩ := mem_range_of_exists_le_of_exists_ge hc ⟨r1, h1⟩ ⟨r2, h2⟩
  exact ⟨r, hr, fun r' hr' => hmono.injective (hr'.trans hr.symm)⟩

/-- A one-period swaption at the flat rate: the hypotheses are met, with a break-even rate from `C55_break_even`. -/
example : ∃ root : ℝ, HullWhite.jamshidianFunction ⟨1, [], [1], fun _ => 1 / 10⟩ 1 [(2, 1, 1 / 20), (3, 1, 1 / 20)] root = 0 := by
  obtain ⟨r, hr, _⟩ := C55_break_even ⟨1, [], [1], fun _ => 1 / 10⟩ (by norm_num) 1 [(2, 1, 1 / 20), (3, 1, 1 / 20)] (by simp)
    (by intro p hp; simp at hp; rcases hp with rfl | rfl <;> norm_num)
  exact ⟨r, hr⟩

end Props
