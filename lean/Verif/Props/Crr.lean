import Verif.Lemmas.Crr
import Verif.Spec.Payoffs
import Mathlib.Analysis.Complex.ExponentialBounds

/-! # C30 Binomial tree prices -/

namespace Spec

/-- Discounted expectation of the payoff after `n` independent moves of a share price, up by the factor `u` with probability
`p` and down by the factor `d` otherwise. -/
noncomputable def binomialExpectation (n : ℕ) (p u d spot : ℝ) (payoff : ℝ → ℝ) : ℝ :=
  ∑ k ∈ Finset.range (n + 1), (n.choose k : ℝ) * p ^ k * (1 - p) ^ (n - k) * payoff (spot * u ^ k * d ^ (n - k))

end Spec

namespace Lemmas
open Model Spec

theorem crrPayoff_eq (strike : ℝ) (isCall : Bool) (s : ℝ) : crrPayoff strike isCall s = vanillaPayoff isCall strike s := by
  cases isCall
  · simp [crrPayoff, vanillaPayoff]
  · simp [crrPayoff, vanillaPayoff]; norm_num

theorem vanillaPayoff_nonneg (strike : ℝ) (isCall : Bool) (s : ℝ) : 0 ≤ vanillaPayoff isCall strike s := by
  unfold vanillaPayoff; split <;> exact le_max_right _ _

theorem payoff_parity (strike s : ℝ) : vanillaPayoff true strike s - vanillaPayoff false strike s = s - strike := by
  simp only [vanillaPayoff, if_true, Bool.false_eq_true, if_false]
  rcases le_total s strike with h | h
  · rw [max_eq_right (by linarith), max_eq_left (by linarith)]; ring
  · rw [max_eq_left (by linarith), max_eq_right (by linarith)]; ring

theorem crrLnUp_pos (o : CrrOption) (hT : 0 < o.expiry) (hv : 0 < o.volatility) (hN : 0 < o.numSteps) : 0 < crrLnUp o := by
  unfold crrLnUp
  exact mul_pos hv (Real.sqrt_pos.mpr (div_pos hT (by exact_mod_cast hN)))

/-- The up-probability makes the discounted share price (with dividends) a martingale. -/
theorem crr_martingale (o : CrrOption) (hu : 0 < crrLnUp o) :
    (1 - crrPUp o) * Real.exp (-crrLnUp o) + crrPUp o * Real.exp (crrLnUp o) =
      Real.exp ((o.discountRate - o.dividendRate) * (o.expiry / o.numSteps)) := by
  have h1 : Real.exp (2 * crrLnUp o) = Real.exp (crrLnUp o) * Real.exp (crrLnUp o) := by rw [← Real.exp_add]; ring_nf
  have h2 : 1 < Real.exp (crrLnUp o) := Real.one_lt_exp_iff.mpr hu
  have h3 : Real.exp (crrLnUp o) * Real.exp (crrLnUp o) - 1 ≠ 0 := by nlinarith
  unfold crrPUp
  rw [h1, Real.exp_add, Real.exp_neg]
  have h4 : Real.exp (crrLnUp o) ≠ 0 := (Real.exp_pos _).ne'
  generalize Real.exp (crrLnUp o) = u at *
  generalize Real.exp ((o.discountRate - o.dividendRate) * (o.expiry / o.numSteps)) = a
  have h5 : u ^ 2 - 1 ≠ 0 := by rw [pow_two]; exact h3
  field_simp
  ring

theorem crrPUp_mem (o : CrrOption) (hu : 0 < crrLnUp o)
    (hs : |(o.discountRate - o.dividendRate) * (o.expiry / o.numSteps)| ≤ crrLnUp o) : 0 ≤ crrPUp o ∧ crrPUp o ≤ 1 := by
  rw [abs_le] at hs
  have h1 : 0 < Real.exp (2 * crrLnUp o) - 1 := by
    have := Real.one_lt_exp_iff.mpr (show 0 < 2 * crrLnUp o by linarith)
    linarith
  unfold crrPUp
  constructor
  · apply div_nonneg _ h1.le
    have := Real.one_le_exp_iff.mpr (show 0 ≤ (o.discountRate - o.dividendRate) * (o.expiry / o.numSteps) + crrLnUp o by linarith)
    linarith
  · rw [div_le_one h1]
    have := Real.exp_le_exp.mpr
      (show (o.discountRate - o.dividendRate) * (o.expiry / o.numSteps) + crrLnUp o ≤ 2 * crrLnUp o by linarith)
    linarith

theorem crr_spot_step (o : CrrOption) (hu : 0 < crrLnUp o) (m i : ℕ) :
    Real.exp (crrLog o m (i + 1)) * (1 - crrPUp o) + Real.exp (crrLog o m i) * crrPUp o =
      Real.exp ((o.discountRate - o.dividendRate) * (o.expiry / o.numSteps)) * Real.exp (crrLog o (m + 1) i) := by
  have h1 : crrLog o m (i + 1) = crrLog o (m + 1) i + -crrLnUp o := by
    simp only [crrLog]; push_cast; ring
  have h2 : crrLog o m i = crrLog o (m + 1) i + crrLnUp o := by
    simp only [crrLog]; push_cast; ring
  rw [h1, h2, Real.exp_add, Real.exp_add, ← crr_martingale o hu]
  ring

theorem crr_root_spot (o : CrrOption) (hS : 0 < o.spot) : Real.exp (crrLog o o.numSteps 0) = o.spot := by
  simp [crrLog, Real.exp_log hS]

theorem crrDf_pow (o : CrrOption) (hN : 0 < o.numSteps) : crrDf o ^ o.numSteps = Real.exp (-o.discountRate * o.expiry) := by
  have : (o.numSteps : ℝ) ≠ 0 := by exact_mod_cast hN.ne'
  unfold crrDf
  rw [← Real.exp_nat_mul]
  congr 1
  field_simp

theorem crrValue_parity (o : CrrOption) (hu : 0 < crrLnUp o) (hE : o.isAmerican = false) (m i : ℕ) :
    crrValue { o with isCall := true } m i - crrValue { o with isCall := false } m i =
      Real.exp (-o.dividendRate * (o.expiry / o.numSteps)) ^ m * Real.exp (crrLog o m i) - o.strike * crrDf o ^ m := by
  induction m generalizing i with
  | zero =>
    simp only [crrValue, crrPayoff_eq]
    have := payoff_parity o.strike (Real.exp (crrLog o 0 i))
    simp only [pow_zero, one_mul, mul_one]
    exact this
  | succ m ih =>
    simp only [crrValue, crrModifier, hE, Bool.false_eq_true, if_false]
    simp only [hE] at ih
    have h1 := ih i
    have h2 := ih (i + 1)
    have h3 := crr_spot_step o hu m i
    have h4 : crrDf o * Real.exp ((o.discountRate - o.dividendRate) * (o.expiry / o.numSteps)) =
        Real.exp (-o.dividendRate * (o.expiry / o.numSteps)) := by
      unfold crrDf; rw [← Real.exp_add]; congr 1; ring
    change crrDf o * (_ * (1 - crrPUp o) + _ * crrPUp o) - crrDf o * (_ * (1 - crrPUp o) + _ * crrPUp o) = _
    have h5 := h4.symm
    generalize hA : Real.exp (-o.dividendRate * (o.expiry / o.numSteps)) = A at *
    generalize hD : Real.exp ((o.discountRate - o.dividendRate) * (o.expiry / o.numSteps)) = D at *
    rw [pow_succ, pow_succ]
    linear_combination crrDf o * (1 - crrPUp o) * h2 + crrDf o * crrPUp o * h1 + crrDf o * A ^ m * h3 +
      A ^ m * Real.exp (crrLog o (m + 1) i) * h4

theorem crrDf_pos (o : CrrOption) : 0 < crrDf o := Real.exp_pos _

theorem crrValue_nonneg (o : CrrOption) (hp : 0 ≤ crrPUp o ∧ crrPUp o ≤ 1) (m i : ℕ) : 0 ≤ crrValue o m i := by
  induction m generalizing i with
  | zero => rw [crrValue, crrPayoff_eq]; exact vanillaPayoff_nonneg _ _ _
  | succ m ih =>
    rw [crrValue]
    have h : 0 ≤ crrValue o m (i + 1) * (1 - crrPUp o) + crrValue o m i * crrPUp o :=
      add_nonneg (mul_nonneg (ih _) (by linarith [hp.2])) (mul_nonneg (ih _) hp.1)
    apply mul_nonneg (crrDf_pos o).le
    unfold crrModifier
    split
    · exact le_trans h (le_max_right _ _)
    · exact h

theorem crrValue_american_ge (o : CrrOption) (hp : 0 ≤ crrPUp o ∧ crrPUp o ≤ 1) (m i : ℕ) :
    crrValue { o with isAmerican := false } m i ≤ crrValue { o with isAmerican := true } m i := by
  induction m generalizing i with
  | zero => exact le_refl _
  | succ m ih =>
    simp only [crrValue, crrModifier, Bool.false_eq_true, if_false, if_true]
    change crrDf o * (_ * (1 - crrPUp o) + _ * crrPUp o) ≤ crrDf o * max _ (_ * (1 - crrPUp o) + _ * crrPUp o)
    apply mul_le_mul_of_nonneg_left _ (crrDf_pos o).le
    refine le_trans ?_ (le_max_right _ _)
    exact add_le_add (mul_le_mul_of_nonneg_right (ih _) (by linarith [hp.2])) (mul_le_mul_of_nonneg_right (ih _) hp.1)

/-- With a nonnegative rate and no dividends, waiting is worth at least the exercise value of a call. -/
theorem crrValue_american_call (o : CrrOption) (hu : 0 < crrLnUp o) (hp : 0 ≤ crrPUp o ∧ crrPUp o ≤ 1)
    (hdt : 0 ≤ o.expiry / o.numSteps) (hr : 0 ≤ o.discountRate) (hq : o.dividendRate = 0) (hK : 0 ≤ o.strike) (m i : ℕ) :
    crrValue { o with isAmerican := true, isCall := true } m i =
      crrValue { o with isAmerican := false, isCall := true } m i := by
  induction m generalizing i with
  | zero => rfl
  | succ m ih =>
    simp only [crrValue, crrModifier, Bool.false_eq_true, if_false, if_true, ih]
    congr 1
    apply max_eq_right
    let e : CrrOption := { o with isAmerican := false }
    have hlow : ∀ j, Real.exp (crrLog o m j) - o.strike * crrDf o ^ m ≤
        crrValue { o with isAmerican := false, isCall := true } m j := by
      intro j
      have h1 := crrValue_parity e hu rfl m j
      have h2 := crrValue_nonneg { e with isCall := false } hp m j
      have h3 : Real.exp (-e.dividendRate * (e.expiry / e.numSteps)) = 1 := by
        change Real.exp (-o.dividendRate * (o.expiry / o.numSteps)) = 1
        rw [hq]; simp
      rw [h3, one_pow, one_mul] at h1
      change Real.exp (crrLog e m j) - e.strike * crrDf e ^ m ≤ crrValue { e with isCall := true } m j
      linarith
    have hwait : 0 ≤ crrValue { o with isAmerican := false, isCall := true } m (i + 1) * (1 - crrPUp o) +
        crrValue { o with isAmerican := false, isCall := true } m i * crrPUp o :=
      add_nonneg (mul_nonneg (crrValue_nonneg { e with isCall := true } hp _ _) (by linarith [hp.2]))
        (mul_nonneg (crrValue_nonneg { e with isCall := true } hp _ _) hp.1)
    have hdf1 : crrDf o ^ m ≤ 1 := by
      apply pow_le_one₀ (crrDf_pos o).le
      unfold crrDf
      apply Real.exp_le_one_iff.mpr
      nlinarith
    have hspot := crr_spot_step o hu m i
    have hgrow : 1 ≤ Real.exp ((o.discountRate - o.dividendRate) * (o.expiry / o.numSteps)) := by
      apply Real.one_le_exp_iff.mpr
      rw [hq]; simpa using mul_nonneg hr hdt
    change crrPayoff o.strike true (Real.exp (crrLog o (m + 1) i)) ≤ _ * (1 - crrPUp o) + _ * crrPUp o
    rw [crrPayoff_eq]
    simp only [vanillaPayoff, if_true]
    apply max_le _ hwait
    have a1 := mul_le_mul_of_nonneg_right (hlow (i + 1)) (show 0 ≤ 1 - crrPUp o by linarith [hp.2])
    have a2 := mul_le_mul_of_nonneg_right (hlow i) hp.1
    have a3 := Real.exp_pos (crrLog o (m + 1) i)
    have a4 := mul_le_mul_of_nonneg_left hdf1 hK
    have a5 := mul_le_mul_of_nonneg_right hgrow a3.le
    nlinarith

end Lemmas

namespace Props
open Model Lemmas Spec

/-- C30: the European price is the discounted expectation of the payoff under the risk-neutral binomial law of the share
price with Cox-Ross-Rubinstein moves. -/
theorem C30_european_expectation (o : CrrOption) (hT : 0 < o.expiry) (hS : 0 < o.spot) (hv : 0 < o.volatility)
    (hN : 0 < o.numSteps) (hE : o.isAmerican = false) :
    let dt := o.expiry / o.numSteps
    let u := Real.exp (o.volatility * Real.sqrt dt)
    let d := Real.exp (-(o.volatility * Real.sqrt dt))
    let p := (Real.exp ((o.discountRate - o.dividendRate) * dt) - d) / (u - d)
    optionPriceBinomial o = Real.exp (-o.discountRate * o.expiry) *
      binomialExpectation o.numSteps p u d o.spot (vanillaPayoff o.isCall o.strike) := by
  intro dt u d p
  have hu := crrLnUp_pos o hT hv hN
  have hp : p = crrPUp o := by
    have h1 : Real.exp (2 * crrLnUp o) = Real.exp (crrLnUp o) * Real.exp (crrLnUp o) := by rw [← Real.exp_add]; ring_nf
    have h2 : 1 < Real.exp (crrLnUp o) := Real.one_lt_exp_iff.mpr hu
    change (Real.exp ((o.discountRate - o.dividendRate) * (o.expiry / o.numSteps)) - Real.exp (-crrLnUp o)) /
      (Real.exp (crrLnUp o) - Real.exp (-crrLnUp o)) = crrPUp o
    unfold crrPUp
    rw [h1, Real.exp_add, Real.exp_neg]
    have h4 : Real.exp (crrLnUp o) ≠ 0 := (Real.exp_pos _).ne'
    generalize Real.exp (crrLnUp o) = w at *
    generalize Real.exp ((o.discountRate - o.dividendRate) * (o.expiry / o.numSteps)) = a
    have h5 : w * w - 1 ≠ 0 := by nlinarith
    have h6 : w - w⁻¹ ≠ 0 := by
      intro h7
      apply h5
      have := congrArg (fun t => t * w) h7
      simp only [sub_mul, inv_mul_cancel₀ h4, zero_mul] at this
      exact this
    rw [div_eq_div_iff h6 h5]
    field_simp
  rw [optionPriceBinomial_value o hT, crrValue_european o hE, crrDf_pow o hN, hp]
  congr 1
  unfold binomialExpectation
  rw [Finset.Nat.sum_antidiagonal_eq_sum_range_succ_mk, ← Finset.sum_range_reflect]
  apply Finset.sum_congr rfl
  intro k hk
  rw [Finset.mem_range] at hk
  have hk' : o.numSteps.succ - 1 - k = o.numSteps - k := by omega
  have hkk : o.numSteps - (o.numSteps - k) = k := by omega
  simp only [hk', hkk, Nat.choose_symm (show k ≤ o.numSteps by omega), crrPayoff_eq]
  have hspot : Real.exp (crrLog o 0 (0 + (o.numSteps - k))) = o.spot * u ^ k * d ^ (o.numSteps - k) := by
    change _ = o.spot * Real.exp (crrLnUp o) ^ k * Real.exp (-crrLnUp o) ^ (o.numSteps - k)
    rw [← Real.exp_nat_mul, ← Real.exp_nat_mul]
    conv_rhs => rw [← Real.exp_log hS]
    rw [← Real.exp_add, ← Real.exp_add]
    congr 1
    simp only [crrLog]
    push_cast [Nat.cast_sub (show k ≤ o.numSteps by omega)]
    ring
  rw [hspot]
  ring

/-- C30: European put-call parity holds exactly in the tree. -/
theorem C30_put_call_parity (o : CrrOption) (hT : 0 < o.expiry) (hS : 0 < o.spot) (hv : 0 < o.volatility)
    (hN : 0 < o.numSteps) (hE : o.isAmerican = false) :
    optionPriceBinomial { o with isCall := true } - optionPriceBinomial { o with isCall := false } =
      o.spot * Real.exp (-o.dividendRate * o.expiry) - o.strike * Real.exp (-o.discountRate * o.expiry) := by
  rw [optionPriceBinomial_value { o with isCall := true } hT, optionPriceBinomial_value { o with isCall := false } hT]
  have h := crrValue_parity o (crrLnUp_pos o hT hv hN) hE o.numSteps 0
  change crrValue { o with isCall := true } o.numSteps 0 - crrValue { o with isCall := false } o.numSteps 0 = _
  rw [h, crr_root_spot o hS, crrDf_pow o hN, ← Real.exp_nat_mul]
  have : (o.numSteps : ℝ) ≠ 0 := by exact_mod_cast hN.ne'
  rw [show (o.numSteps : ℝ) * (-o.dividendRate * (o.expiry / o.numSteps)) = -o.dividendRate * o.expiry by field_simp]
  ring

/-- C30: the step is fine enough for the tree to be free of arbitrage. Then European prices lie between the no-arbitrage
bounds. -/
theorem C30_european_bounds (o : CrrOption) (hT : 0 < o.expiry) (hS : 0 < o.spot) (hv : 0 < o.volatility)
    (hN : 0 < o.numSteps) (hE : o.isAmerican = false)
    (hstep : |o.discountRate - o.dividendRate| * Real.sqrt (o.expiry / o.numSteps) ≤ o.volatility) :
    let spotPv := o.spot * Real.exp (-o.dividendRate * o.expiry)
    let strikePv := o.strike * Real.exp (-o.discountRate * o.expiry)
    (max (spotPv - strikePv) 0 ≤ optionPriceBinomial { o with isCall := true }) ∧
    (max (strikePv - spotPv) 0 ≤ optionPriceBinomial { o with isCall := false }) ∧
    (0 ≤ o.strike → optionPriceBinomial { o with isCall := true } ≤ spotPv ∧
      optionPriceBinomial { o with isCall := false } ≤ strikePv) := by
  intro spotPv strikePv
  have hu := crrLnUp_pos o hT hv hN
  have hdt : 0 < o.expiry / o.numSteps := div_pos hT (by exact_mod_cast hN)
  have hp : 0 ≤ crrPUp o ∧ crrPUp o ≤ 1 := by
    apply crrPUp_mem o hu
    rw [abs_mul, abs_of_pos hdt]
    unfold crrLnUp
    calc |o.discountRate - o.dividendRate| * (o.expiry / o.numSteps)
        = |o.discountRate - o.dividendRate| * Real.sqrt (o.expiry / o.numSteps) * Real.sqrt (o.expiry / o.numSteps) := by
          rw [mul_assoc, Real.mul_self_sqrt hdt.le]
      _ ≤ _ := mul_le_mul_of_nonneg_right hstep (Real.sqrt_nonneg _)
  have hpar := C30_put_call_parity o hT hS hv hN hE
  have hc : 0 ≤ optionPriceBinomial { o with isCall := true } := by
    rw [optionPriceBinomial_value { o with isCall := true } hT]; exact crrValue_nonneg { o with isCall := true } hp _ _
  have hpu : 0 ≤ optionPriceBinomial { o with isCall := false } := by
    rw [optionPriceBinomial_value { o with isCall := false } hT]; exact crrValue_nonneg { o with isCall := false } hp _ _
  refine ⟨max_le (by linarith) hc, max_le (by linarith) hpu, ?_⟩
  intro hK
  -- a put never exceeds the discounted strike
  have hput : ∀ m i, crrValue { o with isCall := false } m i ≤ o.strike * crrDf o ^ m := by
    intro m
    induction m with
    | zero =>
      intro i
      rw [crrValue, crrPayoff_eq]
      simp only [vanillaPayoff, Bool.false_eq_true, if_false, pow_zero, mul_one]
      exact max_le (by linarith [Real.exp_pos (crrLog { o with isCall := false } 0 i)]) hK
    | succ m ih =>
      intro i
      simp only [crrValue, crrModifier, hE, Bool.false_eq_true, if_false]
      simp only [hE] at ih
      change crrDf o * (_ * (1 - crrPUp o) + _ * crrPUp o) ≤ _
      have a1 := mul_le_mul_of_nonneg_right (ih (i + 1)) (show 0 ≤ 1 - crrPUp o by linarith [hp.2])
      have a2 := mul_le_mul_of_nonneg_right (ih i) hp.1
      rw [pow_succ]
      calc crrDf o * (_ * (1 - crrPUp o) + _ * crrPUp o) ≤ crrDf o * (o.strike * crrDf o ^ m) := by
            apply mul_le_mul_of_nonneg_left _ (crrDf_pos o).le
            linarith
        _ = _ := by ring
  have h1 : optionPriceBinomial { o with isCall := false } ≤ strikePv := by
    rw [optionPriceBinomial_value { o with isCall := false } hT]
    have := hput o.numSteps 0
    rw [crrDf_pow o hN] at this
    exact this
  exact ⟨by linarith, h1⟩

/-- C30: when the step is fine enough for the up-probability to be a probability, an American option is worth at least the
European one. -/
theorem C30_american_ge_european (o : CrrOption) (hT : 0 < o.expiry) (hv : 0 < o.volatility) (hN : 0 < o.numSteps)
    (hstep : |o.discountRate - o.dividendRate| * Real.sqrt (o.expiry / o.numSteps) ≤ o.volatility) :
    optionPriceBinomial { o with isAmerican := false } ≤ optionPriceBinomial { o with isAmerican := true } := by
  have hu := crrLnUp_pos o hT hv hN
  have hdt : 0 < o.expiry / o.numSteps := div_pos hT (by exact_mod_cast hN)
  have hp : 0 ≤ crrPUp o ∧ crrPUp o ≤ 1 := by
    apply crrPUp_mem o hu
    rw [abs_mul, abs_of_pos hdt]
    unfold crrLnUp
    calc |o.discountRate - o.dividendRate| * (o.expiry / o.numSteps)
        = |o.discountRate - o.dividendRate| * Real.sqrt (o.expiry / o.numSteps) * Real.sqrt (o.expiry / o.numSteps) := by
          rw [mul_assoc, Real.mul_self_sqrt hdt.le]
      _ ≤ _ := mul_le_mul_of_nonneg_right hstep (Real.sqrt_nonneg _)
  rw [optionPriceBinomial_value { o with isAmerican := true } hT, optionPriceBinomial_value { o with isAmerican := false } hT]
  exact crrValue_american_ge o hp o.numSteps 0

/-- C30 (partial): an American option is worth at least its exercise value discounted over one step, and so at least its
exercise value when the rate is not positive. The full claim is false for positive rates:
`C30_american_below_exercise`. -/
theorem C30_american_ge_exercise_partial (o : CrrOption) (hT : 0 < o.expiry) (hS : 0 < o.spot) (hN : 0 < o.numSteps)
    (hA : o.isAmerican = true) :
    Real.exp (-o.discountRate * (o.expiry / o.numSteps)) * vanillaPayoff o.isCall o.strike o.spot ≤ optionPriceBinomial o ∧
    (o.discountRate ≤ 0 → vanillaPayoff o.isCall o.strike o.spot ≤ optionPriceBinomial o) := by
  have h1 : Real.exp (-o.discountRate * (o.expiry / o.numSteps)) * vanillaPayoff o.isCall o.strike o.spot ≤
      optionPriceBinomial o := by
    rw [optionPriceBinomial_value _ hT]
    obtain ⟨n, hn⟩ : ∃ n, o.numSteps = n + 1 := ⟨o.numSteps - 1, by omega⟩
    have hroot := crr_root_spot o hS
    rw [hn] at hroot
    conv_rhs => rw [hn]
    simp only [crrValue, crrModifier, hA, if_true, hroot]
    apply mul_le_mul_of_nonneg_left _ (crrDf_pos o).le
    rw [← crrPayoff_eq]
    exact le_max_left _ _
  refine ⟨h1, fun hr => le_trans ?_ h1⟩
  have h2 : 1 ≤ Real.exp (-o.discountRate * (o.expiry / o.numSteps)) := by
    apply Real.one_le_exp_iff.mpr
    apply mul_nonneg (by linarith) (div_nonneg hT.le (Nat.cast_nonneg _))
  have h3 := vanillaPayoff_nonneg o.strike o.isCall o.spot
  nlinarith

/-- Deviation: the code discounts the exercise value together with the continuation value, so the price of an American put
that is deep in the money is below what exercising it at once pays. -/
theorem C30_american_below_exercise :
    ∃ o : CrrOption, 0 < o.expiry ∧ 0 < o.spot ∧ 0 < o.strike ∧ 0 < o.volatility ∧ 0 < o.numSteps ∧
      |o.discountRate - o.dividendRate| * Real.sqrt (o.expiry / o.numSteps) ≤ o.volatility ∧
      o.isAmerican = true ∧ optionPriceBinomial o < vanillaPayoff o.isCall o.strike o.spot := by
  let o : CrrOption := ⟨1, 3, 1, 1, 1 / 2, 0, false, true, 1⟩
  refine ⟨o, by norm_num [o], by norm_num [o], by norm_num [o], by norm_num [o], by norm_num [o], ?_, rfl, ?_⟩
  · norm_num [o, abs_of_pos]
  · have hT : 0 < o.expiry := by norm_num [o]
    have hu : crrLnUp o = 1 := by norm_num [o, crrLnUp]
    have hlog : ∀ m i, crrLog o m i = 1 - m - 2 * i := by
      intro m i; rw [crrLog, hu]; norm_num [o]
    have hmart := crr_spot_step o (by rw [hu]; norm_num) 0 0
    rw [hlog, hlog, hlog] at hmart
    have he1 : Real.exp 1 < 3 := lt_trans Real.exp_one_lt_d9 (by norm_num)
    have hem : Real.exp (-1) < 1 := Real.exp_lt_one_iff.mpr (by norm_num)
    have hgrow : 1 < Real.exp ((o.discountRate - o.dividendRate) * (o.expiry / o.numSteps)) := by
      apply Real.one_lt_exp_iff.mpr; norm_num [o]
    have hdf : crrDf o < 1 := by unfold crrDf; apply Real.exp_lt_one_iff.mpr; norm_num [o]
    rw [optionPriceBinomial_value o hT]
    change crrDf o * max (crrPayoff 3 false (Real.exp (crrLog o 1 0)))
      (crrPayoff 3 false (Real.exp (crrLog o 0 1)) * (1 - crrPUp o) + crrPayoff 3 false (Real.exp (crrLog o 0 0)) * crrPUp o) <
      vanillaPayoff false 3 1
    rw [crrPayoff_eq, crrPayoff_eq, crrPayoff_eq, hlog, hlog, hlog]
    norm_num at hmart ⊢
    simp only [vanillaPayoff, Bool.false_eq_true, if_false]
    rw [max_eq_left (show (0 : ℝ) ≤ 3 - 1 by norm_num), max_eq_left (show 0 ≤ 3 - Real.exp (-1) by linarith),
      max_eq_left (show 0 ≤ 3 - Real.exp 1 by linarith)]
    have hcont : (3 - Real.exp (-1)) * (1 - crrPUp o) + (3 - Real.exp 1) * crrPUp o ≤ 3 - 1 := by
      nlinarith
    rw [max_eq_left hcont]
    nlinarith [crrDf_pos o]

/-- C30: with a rate that is not negative and no dividends, early exercise of a call is worthless. -/
theorem C30_american_call_without_dividends (o : CrrOption) (hT : 0 < o.expiry) (hv : 0 < o.volatility)
    (hN : 0 < o.numSteps) (hr : 0 ≤ o.discountRate) (hq : o.dividendRate = 0) (hK : 0 ≤ o.strike) (hcall : o.isCall = true)
    (hstep : |o.discountRate - o.dividendRate| * Real.sqrt (o.expiry / o.numSteps) ≤ o.volatility) :
    optionPriceBinomial { o with isAmerican := true } = optionPriceBinomial { o with isAmerican := false } := by
  have hu := crrLnUp_pos o hT hv hN
  have hdt : 0 < o.expiry / o.numSteps := div_pos hT (by exact_mod_cast hN)
  have hp : 0 ≤ crrPUp o ∧ crrPUp o ≤ 1 := by
    apply crrPUp_mem o hu
    rw [abs_mul, abs_of_pos hdt]
    unfold crrLnUp
    calc |o.discountRate - o.dividendRate| * (o.expiry / o.numSteps)
        = |o.discountRate - o.dividendRate| * Real.sqrt (o.expiry / o.numSteps) * Real.sqrt (o.expiry / o.numSteps) := by
          rw [mul_assoc, Real.mul_self_sqrt hdt.le]
      _ ≤ _ := mul_le_mul_of_nonneg_right hstep (Real.sqrt_nonneg _)
  rw [optionPriceBinomial_value { o with isAmerican := true } hT, optionPriceBinomial_value { o with isAmerican := false } hT]
  have := crrValue_american_call o hu hp hdt.le hr hq hK o.numSteps 0
  rw [show o = { o with isCall := true } by rw [← hcall]]
  exact this

/-- C30: an expired option is worth its payoff. -/
theorem C30_expired (o : CrrOption) (hT : o.expiry ≤ 0) :
    optionPriceBinomial o = vanillaPayoff o.isCall o.strike o.spot := by
  unfold optionPriceBinomial vanillaPayoff
  simp [not_lt.mpr hT]

/-- The option of the theorems above: two steps of half a year. -/
noncomputable def exCrr : CrrOption := ⟨1 / 5, 100, 1, 90, 1 / 20, 1 / 50, true, false, 2⟩

example : 0 < exCrr.expiry ∧ 0 < exCrr.spot ∧ 0 < exCrr.volatility ∧ 0 < exCrr.numSteps ∧ exCrr.isAmerican = false ∧
    |exCrr.discountRate - exCrr.dividendRate| * Real.sqrt (exCrr.expiry / exCrr.numSteps) ≤ exCrr.volatility := by
  refine ⟨by norm_num [exCrr], by norm_num [exCrr], by norm_num [exCrr], by norm_num [exCrr], rfl, ?_⟩
  have h : Real.sqrt (exCrr.expiry / exCrr.numSteps) ≤ 1 := by
    apply Real.sqrt_le_one.mpr; norm_num [exCrr]
  have h2 : |exCrr.discountRate - exCrr.dividendRate| = 3 / 100 := by norm_num [exCrr, abs_of_pos]
  rw [h2]
  have : exCrr.volatility = 1 / 5 := rfl
  rw [this]
  nlinarith [Real.sqrt_nonneg (exCrr.expiry / exCrr.numSteps)]

/-- Its value with one step written out: both moves weighted with the risk-neutral probabilities. -/
example (p u d s : ℝ) (f : ℝ → ℝ) : binomialExpectation 1 p u d s f = (1 - p) * f (s * d) + p * f (s * u) := by
  simp [binomialExpectation, Finset.sum_range_succ]

end Props
