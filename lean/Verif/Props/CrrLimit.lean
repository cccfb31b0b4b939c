import Verif.Props.VanillaPrices
import Verif.Lemmas.BinomialLimit

/-! # C117 Prices of the binomial tree converge to the Black-Scholes price -/

namespace Spec
open Model

/-- The arguments of `option_price` that describe the option of the tree. -/
noncomputable def treeArgs (o : CrrOption) : BsArgs :=
  { volatility := o.volatility, strike := o.strike, expiry := o.expiry, spot := some o.spot, discountRate := some o.discountRate, dividendRate := some o.dividendRate, isCall := some o.isCall }

end Spec

namespace Lemmas
open Model Spec MeasureTheory ProbabilityTheory Filter Topology

/-- A put payoff as a bounded continuous function of the log price. -/
noncomputable def putOfLog (K : ℝ) : BoundedContinuousFunction ℝ ℝ :=
  BoundedContinuousFunction.ofNormedAddCommGroup (fun x => max (K - Real.exp x) 0) (by fun_prop) |K| (by
    intro x
    have := Real.exp_pos x
    rw [Real.norm_eq_abs, abs_of_nonneg (le_max_right _ _)]
    exact max_le (by have := le_abs_self K; linarith) (abs_nonneg K))

theorem crr_prob_excess (c d : ℝ) (hd : 0 < d) :
    (Real.exp (c * d ^ 2) - Real.exp (-d)) / (Real.exp d - Real.exp (-d)) = (1 + upExcess c d) / 2 := by
  have h1 : Real.exp (-d) < Real.exp d := Real.exp_lt_exp.2 (by linarith)
  have h2 : Real.exp d - Real.exp (-d) ≠ 0 := by linarith
  unfold upExcess
  rw [Real.cosh_eq, Real.sinh_eq]
  generalize Real.exp (c * d ^ 2) = E
  field_simp
  ring

theorem crr_step_fine (o : CrrOption) (hv : 0 < o.volatility) :
    ∀ᶠ n : ℕ in atTop, |o.discountRate - o.dividendRate| * Real.sqrt (o.expiry / n) ≤ o.volatility := by
  have h1 : Tendsto (fun n : ℕ => |o.discountRate - o.dividendRate| * Real.sqrt (o.expiry / n)) atTop (𝓝 0) := by
    have := ((Real.continuous_sqrt.tendsto 0).comp (tendsto_const_div_atTop_nhds_zero_nat o.expiry)).const_mul |o.discountRate - o.dividendRate|
    rwa [Real.sqrt_zero, mul_zero] at this
  exact h1.eventually_le_const hv

/-- The expectation of a bounded continuous function of the log price in the tree converges to the one under the lognormal law. -/
theorem crr_weak (o : CrrOption) (hT : 0 < o.expiry) (hS : 0 < o.spot) (hv : 0 < o.volatility) (f : BoundedContinuousFunction ℝ ℝ) :
    Tendsto (fun n : ℕ =>
        let dt := o.expiry / n
        let u := Real.exp (o.volatility * Real.sqrt dt)
        let d := Real.exp (-(o.volatility * Real.sqrt dt))
        let p := (Real.exp ((o.discountRate - o.dividendRate) * dt) - d) / (u - d)
        binomialExpectation n p u d o.spot (fun s => f (Real.log s))) atTop
      (𝓝 (lognormalExpectation (o.spot * Real.exp ((o.discountRate - o.dividendRate) * o.expiry)) (o.volatility * Real.sqrt o.expiry) (fun s => f (Real.log s)))) := by
  have hd : ∀ n : ℕ, 0 < n → 0 < o.volatility * Real.sqrt (o.expiry / n) ∧ (n : ℝ) * (o.volatility * Real.sqrt (o.expiry / n)) ^ 2 = o.volatility ^ 2 * o.expiry := by
    intro n hn
    have hn' : (0 : ℝ) < n := by exact_mod_cast hn
    refine ⟨mul_pos hv (Real.sqrt_pos.2 (div_pos hT hn')), ?_⟩
    rw [mul_pow, Real.sq_sqrt (div_pos hT hn').le]
    field_simp
  have hprob : ∀ n : ℕ, 0 < n → (Real.exp ((o.discountRate - o.dividendRate) * (o.expiry / n)) - Real.exp (-(o.volatility * Real.sqrt (o.expiry / n)))) /
      (Real.exp (o.volatility * Real.sqrt (o.expiry / n)) - Real.exp (-(o.volatility * Real.sqrt (o.expiry / n)))) =
      (1 + upExcess ((o.discountRate - o.dividendRate) / o.volatility ^ 2) (o.volatility * Real.sqrt (o.expiry / n))) / 2 := by
    intro n hn
    have hn' : (0 : ℝ) < n := by exact_mod_cast hn
    rw [← crr_prob_excess _ _ (hd n hn).1]
    congr 3
    rw [mul_pow, Real.sq_sqrt (div_pos hT hn').le]
    field_simp
  have hp : ∀ᶠ n : ℕ in atTop, 0 ≤ (1 + upExcess ((o.discountRate - o.dividendRate) / o.volatility ^ 2) (o.volatility * Real.sqrt (o.expiry / n))) / 2 ∧
      (1 + upExcess ((o.discountRate - o.dividendRate) / o.volatility ^ 2) (o.volatility * Real.sqrt (o.expiry / n))) / 2 ≤ 1 := by
    filter_upwards [eventually_gt_atTop 0, crr_step_fine o hv] with n hn hstep
    have hn' : (0 : ℝ) < n := by exact_mod_cast hn
    have hdt := div_pos hT hn'
    rw [← hprob n hn]
    have hpos := (hd n hn).1
    have hb : |(o.discountRate - o.dividendRate) * (o.expiry / n)| ≤ o.volatility * Real.sqrt (o.expiry / n) := by
      rw [abs_mul, abs_of_pos hdt]
      calc |o.discountRate - o.dividendRate| * (o.expiry / n)
          = |o.discountRate - o.dividendRate| * Real.sqrt (o.expiry / n) * Real.sqrt (o.expiry / n) := by rw [mul_assoc, Real.mul_self_sqrt hdt.le]
        _ ≤ _ := mul_le_mul_of_nonneg_right hstep (Real.sqrt_nonneg _)
    rw [abs_le] at hb
    have h1 := Real.exp_le_exp.2 hb.1
    have h2 := Real.exp_le_exp.2 hb.2
    have h3 : Real.exp (-(o.volatility * Real.sqrt (o.expiry / n))) < Real.exp (o.volatility * Real.sqrt (o.expiry / n)) := Real.exp_lt_exp.2 (by linarith)
    exact ⟨div_nonneg (by linarith) (by linarith), (div_le_one (by linarith)).2 (by linarith)⟩
  have hvar : 0 < o.volatility ^ 2 * o.expiry := mul_pos (pow_pos hv 2) hT
  have main := tendsto_binomialLaw ((o.discountRate - o.dividendRate) / o.volatility ^ 2) (o.volatility ^ 2 * o.expiry) (Real.log o.spot) hvar _ hd hp f
  refine (main.congr' ?_).trans (le_of_eq ?_)
  · filter_upwards [eventually_gt_atTop 0] with n hn
    simp only [hprob n hn]
    unfold binomialExpectation
    refine Finset.sum_congr rfl fun k _ => ?_
    congr 2
    rw [← Real.exp_nat_mul, ← Real.exp_nat_mul, Real.log_mul (mul_pos hS (Real.exp_pos _)).ne' (Real.exp_pos _).ne',
      Real.log_mul hS.ne' (Real.exp_pos _).ne', Real.log_exp, Real.log_exp]
    ring
  · congr 1
    unfold lognormalExpectation normalExpectation
    have e1 : (o.volatility * Real.sqrt o.expiry) ^ 2 = o.volatility ^ 2 * o.expiry := by rw [mul_pow, Real.sq_sqrt hT.le]
    rw [e1, Real.log_mul hS.ne' (Real.exp_pos _).ne', Real.log_exp]
    have e2 : Real.log o.spot + o.volatility ^ 2 * o.expiry * ((o.discountRate - o.dividendRate) / o.volatility ^ 2 - 1 / 2) =
        Real.log o.spot + (o.discountRate - o.dividendRate) * o.expiry - o.volatility ^ 2 * o.expiry / 2 := by
      field_simp
      ring
    rw [e2]
    simp only [Real.log_exp]

theorem treeArgs_forward (o : CrrOption) : forward (treeArgs o) = o.spot * Real.exp ((o.discountRate - o.dividendRate) * o.expiry) := by
  simp only [forward, treeArgs, discount, Option.getD_some]
  rw [mul_div_assoc, ← Real.exp_sub]
  congr 2
  ring

theorem treeArgs_valid (o : CrrOption) (hT : 0 < o.expiry) (hv : 0 < o.volatility) : ValidArgs (treeArgs o) :=
  ⟨by simp [treeArgs], by simp [treeArgs], hv.le, hT.le, by simp [treeArgs]⟩

theorem treeArgs_positive (o : CrrOption) (hS : 0 < o.spot) (hK : 0 < o.strike) : Positive (treeArgs o) := by
  intro _
  rw [treeArgs_forward]
  exact ⟨mul_pos hS (Real.exp_pos _), hK⟩

end Lemmas

namespace Props
open Model Lemmas Spec Filter Topology

/-- C117: as the number of steps grows, the expectation that `C30_european_expectation` finds in the tree converges, for any payoff that is a bounded continuous
function of the log price, to the expectation under the lognormal law of `C31_expectation`. -/
theorem C117_law (o : CrrOption) (hT : 0 < o.expiry) (hS : 0 < o.spot) (hv : 0 < o.volatility) (f : BoundedContinuousFunction ℝ ℝ) :
    Tendsto (fun n : ℕ =>
        let dt := o.expiry / n
        let u := Real.exp (o.volatility * Real.sqrt dt)
        let d := Real.exp (-(o.volatility * Real.sqrt dt))
        let p := (Real.exp ((o.discountRate - o.dividendRate) * dt) - d) / (u - d)
        binomialExpectation n p u d o.spot (fun s => f (Real.log s))) atTop
      (𝓝 (expectation (treeArgs o) (fun s => f (Real.log s)))) := by
  have := crr_weak o hT hS hv f
  rwa [← treeArgs_forward] at this

/-- C117: the price of a European put in the tree converges to its Black-Scholes price. -/
theorem C117_put (o : CrrOption) (hT : 0 < o.expiry) (hS : 0 < o.spot) (hK : 0 < o.strike) (hv : 0 < o.volatility) (hput : o.isCall = false) (hE : o.isAmerican = false) :
    ∃ v, optionPrice (treeArgs o) = .ok v ∧ Tendsto (fun n : ℕ => optionPriceBinomial { o with numSteps := n }) atTop (𝓝 v) := by
  refine ⟨_, C31_expectation _ (treeArgs_valid o hT hv) (treeArgs_positive o hS hK), ?_⟩
  have h := (C117_law o hT hS hv (putOfLog o.strike)).const_mul (Real.exp (-o.discountRate * o.expiry))
  refine (h.congr' ?_).trans (le_of_eq ?_)
  · filter_upwards [eventually_gt_atTop 0] with n hn
    rw [C30_european_expectation { o with numSteps := n } hT hS hv hn hE]
    congr 1
    unfold binomialExpectation
    refine Finset.sum_congr rfl fun k _ => ?_
    congr 1
    change max (o.strike - Real.exp (Real.log _)) 0 = vanillaPayoff o.isCall o.strike _
    rw [Real.exp_log (mul_pos (mul_pos hS (pow_pos (Real.exp_pos _) _)) (pow_pos (Real.exp_pos _) _)), hput]
    rfl
  · congr 1
    have e1 : discount (treeArgs o) = Real.exp (-o.discountRate * o.expiry) := by
      simp only [discount, treeArgs, neg_mul]
    rw [e1]
    congr 1
    have e2 : ∀ f, expectation (treeArgs o) f = lognormalExpectation (forward (treeArgs o)) (stdDev (treeArgs o)) f := fun f => if_neg Bool.false_ne_true
    rw [e2, e2]
    unfold lognormalExpectation normalExpectation
    congr 1
    funext x
    change max (o.strike - Real.exp (Real.log (Real.exp x))) 0 = vanillaPayoff o.isCall o.strike _
    rw [Real.log_exp, hput]
    rfl

/-- C117: the price of a European option in the tree converges to its Black-Scholes price as the number of steps grows. -/
theorem C117_european (o : CrrOption) (hT : 0 < o.expiry) (hS : 0 < o.spot) (hK : 0 < o.strike) (hv : 0 < o.volatility) (hE : o.isAmerican = false) :
    ∃ v, optionPrice (treeArgs o) = .ok v ∧ Tendsto (fun n : ℕ => optionPriceBinomial { o with numSteps := n }) atTop (𝓝 v) := by
  by_cases hc : o.isCall = true
  swap
  · exact C117_put o hT hS hK hv (by simpa using hc) hE
  · obtain ⟨p, hp, hlim⟩ := C117_put { o with isCall := false } hT hS hK hv rfl hE
    obtain ⟨c, p', hc1, hp1, hpar⟩ := C31_put_call_parity (treeArgs o) (treeArgs_valid o hT hv)
    have e1 : { treeArgs o with isCall := some true } = treeArgs o := by
      unfold treeArgs; rw [hc]
    have e2 : { treeArgs o with isCall := some false } = treeArgs { o with isCall := false } := rfl
    rw [e2, hp] at hp1
    injection hp1 with hp1
    rw [e1] at hc1
    refine ⟨c, hc1, ?_⟩
    have hcp : c = p + (o.spot * Real.exp (-o.dividendRate * o.expiry) - o.strike * Real.exp (-o.discountRate * o.expiry)) := by
      have h1 : discount (treeArgs o) = Real.exp (-o.discountRate * o.expiry) := by
        simp only [discount, treeArgs, neg_mul]
      have h2 : Real.exp (-o.discountRate * o.expiry) * Real.exp ((o.discountRate - o.dividendRate) * o.expiry) = Real.exp (-o.dividendRate * o.expiry) := by
        rw [← Real.exp_add]; congr 1; ring
      rw [treeArgs_forward, h1, ← hp1] at hpar
      have h3 : (treeArgs o).strike = o.strike := rfl
      rw [h3] at hpar
      linear_combination hpar + o.spot * h2
    rw [hcp]
    refine (hlim.add_const _).congr' ?_
    filter_upwards [eventually_gt_atTop 0] with n hn
    have := C30_put_call_parity { o with numSteps := n } hT hS hv hn hE
    have e3 : ({ o with numSteps := n } : CrrOption) = { o with isCall := true, numSteps := n } := by rw [← hc]
    simp only at this
    rw [e3]
    linarith

/-- C117: the price of an American call without dividends, at a rate that is not negative, converges to the Black-Scholes price of the European call. -/
theorem C117_american_call (o : CrrOption) (hT : 0 < o.expiry) (hS : 0 < o.spot) (hK : 0 < o.strike) (hv : 0 < o.volatility) (hcall : o.isCall = true)
    (hr : 0 ≤ o.discountRate) (hq : o.dividendRate = 0) :
    ∃ v, optionPrice (treeArgs o) = .ok v ∧ Tendsto (fun n : ℕ => optionPriceBinomial { o with isAmerican := true, numSteps := n }) atTop (𝓝 v) := by
  obtain ⟨v, hv1, hlim⟩ := C117_european { o with isAmerican := false } hT hS hK hv rfl
  refine ⟨v, hv1, hlim.congr' ?_⟩
  filter_upwards [eventually_gt_atTop 0, crr_step_fine o hv] with n hn hstep
  exact (C30_american_call_without_dividends { o with numSteps := n } hT hv hn hr hq hK.le hcall hstep).symm

/-- C117: any other American option is eventually, up to any margin, worth at least its Black-Scholes price in the tree. -/
theorem C117_american_ge (o : CrrOption) (hT : 0 < o.expiry) (hS : 0 < o.spot) (hK : 0 < o.strike) (hv : 0 < o.volatility) (ε : ℝ) (hε : 0 < ε) :
    ∃ v, optionPrice (treeArgs o) = .ok v ∧ ∀ᶠ n : ℕ in atTop, v - ε ≤ optionPriceBinomial { o with isAmerican := true, numSteps := n } := by
  obtain ⟨v, hv1, hlim⟩ := C117_european { o with isAmerican := false } hT hS hK hv rfl
  refine ⟨v, hv1, ?_⟩
  filter_upwards [eventually_gt_atTop 0, crr_step_fine o hv, hlim.eventually_const_le (show v - ε < v by linarith)] with n hn hstep h
  exact h.trans (C30_american_ge_european { o with numSteps := n } hT hv hn hstep)

/-- The option of the example: at the money without interest, where the limit is `spot * (2 Φ(σ√T / 2) - 1)`. -/
noncomputable def exTree : CrrOption := ⟨1 / 5, 100, 1, 100, 0, 0, true, false, 1⟩

example : Tendsto (fun n : ℕ => optionPriceBinomial { exTree with numSteps := n }) atTop (𝓝 (100 * ncdf (1 / 10) - 100 * ncdf (-(1 / 10)))) := by
  obtain ⟨v, hv, hlim⟩ := C117_european exTree (by norm_num [exTree]) (by norm_num [exTree]) (by norm_num [exTree]) (by norm_num [exTree]) rfl
  have : optionPrice (treeArgs exTree) = .ok (100 * ncdf (1 / 10) - 100 * ncdf (-(1 / 10))) := by
    unfold optionPrice
    rw [bsCheck_ok _ (treeArgs_valid exTree (by norm_num [exTree]) (by norm_num [exTree]))]
    norm_num [treeArgs, exTree, bsForward, bsDiscounting]
  rw [this] at hv
  injection hv with hv
  rwa [hv]

end Props
