import Verif.Props.TreeAmerican

/-! # C142: calls and puts in the binomial tree are mirror images, and prices of American calls converge -/

namespace Spec
open Model MeasureTheory ProbabilityTheory

/-- A call payoff as a function of the log price. -/
noncomputable def callLog (K x : ℝ) : ℝ := max (Real.exp x - K) 0

/-- Value at an exercise date of a call with `j` exercise dates left after it, a time `Δ` apart from each other. -/
noncomputable def bermudanCall (K r q σ Δ : ℝ) : ℕ → ℝ → ℝ
  | 0 => callLog K
  | j + 1 => fun x => max (callLog K x) (bsLater r q σ Δ (bermudanCall K r q σ Δ j) x)

/-- The option with spot and strike, the rates, and call and put swapped. -/
def mirror (o : CrrOption) : CrrOption :=
  { o with spot := o.strike, strike := o.spot, discountRate := o.dividendRate, dividendRate := o.discountRate, isCall := !o.isCall }

end Spec

namespace Lemmas
open Model Spec MeasureTheory ProbabilityTheory Filter Topology

/-! ## The tree -/

theorem call_mirror (S K x : ℝ) (hS : 0 < S) (hK : 0 < K) : callLog K x = Real.exp x / S * putLog S (Real.log S + Real.log K - x) := by
  unfold callLog putLog
  rw [mul_max_of_nonneg _ _ (by positivity), mul_zero, Real.exp_sub, Real.exp_add, Real.exp_log hS, Real.exp_log hK]
  congr 1
  have := Real.exp_pos x
  field_simp

theorem treeValue_mirror {S K r q σ T κ : ℝ} (hS : 0 < S) (hK : 0 < K) (hσ : 0 < σ) (hT : 0 < T) {n : ℕ} (hn : 0 < n) (X : ℕ → Bool) (m : ℕ) (x : ℝ) :
    treeValue (callLog K) (moveProb r q σ T n) (moveLog σ T n) (moveDisc r T n) κ X m x =
      Real.exp x / S * treeValue (putLog S) (moveProb q r σ T n) (moveLog σ T n) (moveDisc q T n) κ X m (Real.log S + Real.log K - x) := by
  have hn' : (0 : ℝ) < n := by exact_mod_cast hn
  have hd := moveLog_pos hσ hT hn
  set d := moveLog σ T n with hdd
  have h1 : Real.exp (-d) < Real.exp d := Real.exp_lt_exp.2 (by linarith)
  have h2 : Real.exp d - Real.exp (-d) ≠ 0 := by linarith
  have hinv : Real.exp (-d) * Real.exp d = 1 := by rw [← Real.exp_add]; simp
  have hdown : moveDisc r T n * ((1 - moveProb r q σ T n) * Real.exp (-d)) = moveDisc q T n * moveProb q r σ T n := by
    rw [moveProb_eq hσ hT hn, moveProb_eq hσ hT hn, ← hdd]
    unfold moveDisc
    have e1 : Real.exp (-q * (T / n)) * Real.exp ((q - r) * (T / n)) = Real.exp (-r * (T / n)) := by rw [← Real.exp_add]; congr 1; ring
    have e2 : Real.exp (-r * (T / n)) * Real.exp ((r - q) * (T / n)) = Real.exp (-q * (T / n)) := by rw [← Real.exp_add]; congr 1; ring
    generalize Real.exp (-q * (T / n)) = A at *
    generalize Real.exp (-r * (T / n)) = B at *
    generalize Real.exp ((q - r) * (T / n)) = C at *
    generalize Real.exp ((r - q) * (T / n)) = D at *
    field_simp
    linear_combination B * hinv - Real.exp (-d) * e2 - e1
  have hup : moveDisc r T n * (moveProb r q σ T n * Real.exp d) = moveDisc q T n * (1 - moveProb q r σ T n) := by
    rw [moveProb_eq hσ hT hn, moveProb_eq hσ hT hn, ← hdd]
    unfold moveDisc
    have e1 : Real.exp (-q * (T / n)) * Real.exp ((q - r) * (T / n)) = Real.exp (-r * (T / n)) := by rw [← Real.exp_add]; congr 1; ring
    have e2 : Real.exp (-r * (T / n)) * Real.exp ((r - q) * (T / n)) = Real.exp (-q * (T / n)) := by rw [← Real.exp_add]; congr 1; ring
    generalize Real.exp (-q * (T / n)) = A at *
    generalize Real.exp (-r * (T / n)) = B at *
    generalize Real.exp ((q - r) * (T / n)) = C at *
    generalize Real.exp ((r - q) * (T / n)) = D at *
    field_simp
    linear_combination -B * hinv + Real.exp d * e2 + e1
  induction m generalizing x with
  | zero => exact call_mirror S K x hS hK
  | succ m ih =>
    set P := treeValue (putLog S) (moveProb q r σ T n) d (moveDisc q T n) κ X m with hP
    have hc : moveDisc r T n * ((1 - moveProb r q σ T n) * (Real.exp (x - d) / S * P (Real.log S + Real.log K - (x - d))) +
        moveProb r q σ T n * (Real.exp (x + d) / S * P (Real.log S + Real.log K - (x + d)))) =
        Real.exp x / S * (moveDisc q T n * ((1 - moveProb q r σ T n) * P (Real.log S + Real.log K - x - d) + moveProb q r σ T n * P (Real.log S + Real.log K - x + d))) := by
      rw [show Real.log S + Real.log K - (x - d) = Real.log S + Real.log K - x + d by ring, show Real.log S + Real.log K - (x + d) = Real.log S + Real.log K - x - d by ring,
        sub_eq_add_neg x d, Real.exp_add, Real.exp_add]
      linear_combination Real.exp x / S * P (Real.log S + Real.log K - x + d) * hdown + Real.exp x / S * P (Real.log S + Real.log K - x - d) * hup
    simp only [treeValue]
    rw [ih, ih, hc, call_mirror S K x hS hK, mul_left_comm κ]
    split
    · rw [mul_max_of_nonneg _ _ (show 0 ≤ Real.exp x / S by positivity)]
    · rfl

theorem crrValue_tree_european (o : CrrOption) (hT : 0 < o.expiry) (hv : 0 < o.volatility) (hn : 0 < o.numSteps) (hA : o.isAmerican = false) (m i : ℕ) :
    crrValue o m i = treeValue (fun x => crrPayoff o.strike o.isCall (Real.exp x)) (moveProb o.discountRate o.dividendRate o.volatility o.expiry o.numSteps)
      (moveLog o.volatility o.expiry o.numSteps) (moveDisc o.discountRate o.expiry o.numSteps) 1 (fun _ => false) m (crrLog o m i) := by
  have hu : crrLnUp o = moveLog o.volatility o.expiry o.numSteps := rfl
  have hdf : crrDf o = moveDisc o.discountRate o.expiry o.numSteps := rfl
  induction m generalizing i with
  | zero => rfl
  | succ m ih =>
    have h1 : crrLog o m (i + 1) = crrLog o (m + 1) i - crrLnUp o := by simp only [crrLog]; push_cast; ring
    have h2 : crrLog o m i = crrLog o (m + 1) i + crrLnUp o := by simp only [crrLog]; push_cast; ring
    simp only [crrValue, treeValue, crrModifier, hA, Bool.false_eq_true, if_false]
    rw [ih, ih, h1, h2, crrPUp_eq o hT hv hn, hdf, hu]
    ring

theorem crrPayoff_call (K : ℝ) : (fun x => crrPayoff K true (Real.exp x)) = callLog K := by
  funext x
  simp only [crrPayoff, callLog]
  congr 1
  norm_num

theorem crrPayoff_put (K : ℝ) : (fun x => crrPayoff K false (Real.exp x)) = putLog K := by
  funext x
  simp only [crrPayoff, putLog]
  congr 1
  simp

/-- The price of an American call in the tree of the code. -/
theorem optionPriceBinomial_american_call (o : CrrOption) (hT : 0 < o.expiry) (hS : 0 < o.spot) (hK : 0 < o.strike) (hv : 0 < o.volatility) (hn : 0 < o.numSteps)
    (hA : o.isAmerican = true) (hC : o.isCall = true) :
    optionPriceBinomial o = americanValue o.spot o.dividendRate o.discountRate o.volatility o.expiry (moveDisc o.discountRate o.expiry o.numSteps) o.numSteps (Real.log o.strike) := by
  rw [optionPriceBinomial_value o hT, crrValue_tree o hT hv hn hA, hC, crrPayoff_call]
  have e2 : crrLog o o.numSteps 0 = Real.log o.spot := by simp [crrLog]
  rw [e2, treeValue_mirror hS hK hv hT hn, Real.exp_log hS, div_self hS.ne', one_mul, add_sub_cancel_left]
  rfl

/-! ## Black-Scholes values -/

theorem gaussian_exp_tilt (m v : ℝ) (hv : 0 < v) (h : ℝ → ℝ) :
    ∫ y, Real.exp y * h y ∂gaussianReal m (Real.toNNReal v) = Real.exp (m + v / 2) * ∫ y, h y ∂gaussianReal (m + v) (Real.toNNReal v) := by
  have hv' : Real.toNNReal v ≠ 0 := by simpa using hv
  rw [integral_gaussianReal_eq_integral_smul hv', integral_gaussianReal_eq_integral_smul hv', ← integral_const_mul]
  refine integral_congr_ae (Eventually.of_forall fun y => ?_)
  simp only [smul_eq_mul, gaussianPDFReal, Real.coe_toNNReal v hv.le]
  have e : Real.exp (-(y - m) ^ 2 / (2 * v)) * Real.exp y = Real.exp (m + v / 2) * Real.exp (-(y - (m + v)) ^ 2 / (2 * v)) := by
    rw [← Real.exp_add, ← Real.exp_add]
    congr 1
    field_simp
    ring
  linear_combination (√(2 * Real.pi * v))⁻¹ * h y * e

theorem bsLater_mirror {S r q σ Δ : ℝ} (hσ : 0 < σ) (hΔ : 0 < Δ) (c : ℝ) (g : ℝ → ℝ) (hg : Measurable g) (x : ℝ) :
    bsLater r q σ Δ (fun y => Real.exp y / S * g (c - y)) x = Real.exp x / S * bsLater q r σ Δ g (c - x) := by
  unfold bsLater
  have hv : 0 < σ ^ 2 * Δ := by positivity
  have e1 : (fun y => Real.exp y / S * g (c - y)) = fun y => S⁻¹ * (Real.exp y * g (c - y)) := by
    funext y
    ring
  rw [e1, integral_const_mul, gaussian_exp_tilt _ _ hv]
  have e2 : ∫ y, g (c - y) ∂gaussianReal (x + (r - q - σ ^ 2 / 2) * Δ + σ ^ 2 * Δ) (Real.toNNReal (σ ^ 2 * Δ)) =
      ∫ y, g y ∂gaussianReal (c - x + (q - r - σ ^ 2 / 2) * Δ) (Real.toNNReal (σ ^ 2 * Δ)) := by
    have := gaussianReal_map_const_sub (μ := x + (r - q - σ ^ 2 / 2) * Δ + σ ^ 2 * Δ) (v := Real.toNNReal (σ ^ 2 * Δ)) c
    rw [show c - x + (q - r - σ ^ 2 / 2) * Δ = c - (x + (r - q - σ ^ 2 / 2) * Δ + σ ^ 2 * Δ) by ring, ← this, integral_map (by fun_prop) hg.aestronglyMeasurable]
  rw [e2]
  have e3 : Real.exp (-r * Δ) * Real.exp (x + (r - q - σ ^ 2 / 2) * Δ + σ ^ 2 * Δ / 2) = Real.exp x * Real.exp (-q * Δ) := by
    rw [← Real.exp_add, ← Real.exp_add]
    congr 1
    ring
  rw [show Real.exp x / S = Real.exp x * S⁻¹ from div_eq_mul_inv _ _]
  linear_combination (S⁻¹ * ∫ y, g y ∂gaussianReal (c - x + (q - r - σ ^ 2 / 2) * Δ) (Real.toNNReal (σ ^ 2 * Δ))) * e3

theorem bermudanCall_mirror {S K r q σ Δ : ℝ} (hS : 0 < S) (hK : 0 < K) (hσ : 0 < σ) (hΔ : 0 < Δ) (j : ℕ) :
    bermudanCall K r q σ Δ j = fun x => Real.exp x / S * bermudanPut S q r σ Δ j (Real.log S + Real.log K - x) := by
  induction j with
  | zero => exact funext fun x => call_mirror S K x hS hK
  | succ j ih =>
    funext x
    simp only [bermudanCall, bermudanPut]
    rw [ih, bsLater_mirror hσ hΔ _ _ (bermudanPut_regular hS.le hσ hΔ j).1, call_mirror S K x hS hK, mul_max_of_nonneg _ _ (show 0 ≤ Real.exp x / S by positivity)]

theorem bermudanCall_value {S K r q σ Δ : ℝ} (hS : 0 < S) (hK : 0 < K) (hσ : 0 < σ) (hΔ : 0 < Δ) (j : ℕ) :
    bsLater r q σ Δ (bermudanCall K r q σ Δ j) (Real.log S) = bsLater q r σ Δ (bermudanPut S q r σ Δ j) (Real.log K) := by
  rw [bermudanCall_mirror hS hK hσ hΔ, bsLater_mirror hσ hΔ _ _ (bermudanPut_regular hS.le hσ hΔ j).1, Real.exp_log hS, div_self hS.ne', one_mul, add_sub_cancel_left]

end Lemmas

namespace Props
open Model Spec Lemmas MeasureTheory ProbabilityTheory Filter Topology

/-- C142: in every tree a European call has the price of the European put with spot and strike swapped and the rates swapped. -/
theorem C142_european (o : CrrOption) (hT : 0 < o.expiry) (hS : 0 < o.spot) (hK : 0 < o.strike) (hv : 0 < o.volatility) (hn : 0 < o.numSteps) (hA : o.isAmerican = false) :
    optionPriceBinomial (mirror o) = optionPriceBinomial o := by
  have main : ∀ o : CrrOption, 0 < o.expiry → 0 < o.spot → 0 < o.strike → 0 < o.volatility → 0 < o.numSteps → o.isAmerican = false → o.isCall = true →
      optionPriceBinomial (mirror o) = optionPriceBinomial o := by
    intro o hT hS hK hv hn hA hC
    have hp : (mirror o).isCall = false := by simp [mirror, hC]
    rw [optionPriceBinomial_value o hT, optionPriceBinomial_value (mirror o) hT, crrValue_tree_european o hT hv hn hA, crrValue_tree_european (mirror o) hT hv hn hA, hC, hp,
      crrPayoff_call, crrPayoff_put]
    have e1 : crrLog o o.numSteps 0 = Real.log o.spot := by simp [crrLog]
    have e2 : crrLog (mirror o) (mirror o).numSteps 0 = Real.log o.strike := by simp [crrLog, mirror]
    rw [e1, e2, treeValue_mirror hS hK hv hT hn, Real.exp_log hS, div_self hS.ne', one_mul, add_sub_cancel_left]
    rfl
  cases hC : o.isCall with
  | true => exact main o hT hS hK hv hn hA hC
  | false =>
    have h := main (mirror o) hT hK hS hv hn hA (by simp [mirror, hC])
    have e : mirror (mirror o) = o := by simp [mirror]
    rw [e] at h
    exact h.symm

/-- C142: the price of an American call in the binomial tree converges. The limit is the least upper bound of the values by backward induction of the calls that can be exercised at
finitely many even times, and it is the value of the American put with spot and strike swapped and the rates swapped. -/
theorem C142_call (o : CrrOption) (hT : 0 < o.expiry) (hS : 0 < o.spot) (hK : 0 < o.strike) (hv : 0 < o.volatility) (hA : o.isAmerican = true) (hC : o.isCall = true) :
    ∃ V, Tendsto (fun n : ℕ => optionPriceBinomial { o with numSteps := n }) atTop (𝓝 V) ∧
      IsLUB {w | ∃ k : ℕ, 0 < k ∧ w = bsLater o.discountRate o.dividendRate o.volatility (o.expiry / k)
        (bermudanCall o.strike o.discountRate o.dividendRate o.volatility (o.expiry / k) (k - 1)) (Real.log o.spot)} V ∧
      IsLUB (blackScholesPutWorths o.strike o.spot o.dividendRate o.discountRate o.volatility o.expiry) V := by
  obtain ⟨V, hV, -, hlub⟩ := american_limit_sup (r := o.dividendRate) (q := o.discountRate) hS.le hv hT (fun n => moveDisc o.discountRate o.expiry n) (moveDisc_one _ _) (Real.log o.strike)
  refine ⟨V, hV.congr' ?_, ?_, even_lub hK hS hT hv hlub⟩
  · filter_upwards [eventually_gt_atTop 0] with n hn
    exact (optionPriceBinomial_american_call { o with numSteps := n } hT hS hK hv hn hA hC).symm
  · suffices heq : {w | ∃ k : ℕ, 0 < k ∧ w = bsLater o.discountRate o.dividendRate o.volatility (o.expiry / k)
        (bermudanCall o.strike o.discountRate o.dividendRate o.volatility (o.expiry / k) (k - 1)) (Real.log o.spot)} =
        {w | ∃ k : ℕ, 0 < k ∧ w = bsLater o.dividendRate o.discountRate o.volatility (o.expiry / k)
          (bermudanPut o.spot o.dividendRate o.discountRate o.volatility (o.expiry / k) (k - 1)) (Real.log o.strike)} by
      rw [heq]
      exact hlub
    ext w
    refine exists_congr fun k => and_congr_right fun hk => ?_
    have hk' : (0 : ℝ) < k := by exact_mod_cast hk
    rw [bermudanCall_value hS hK hv (div_pos hT hk')]

/-- C142: the prices of an American option and of its mirror image have the same limit. -/
theorem C142_american (o : CrrOption) (hT : 0 < o.expiry) (hS : 0 < o.spot) (hK : 0 < o.strike) (hv : 0 < o.volatility) (hA : o.isAmerican = true) :
    ∃ V, Tendsto (fun n : ℕ => optionPriceBinomial { o with numSteps := n }) atTop (𝓝 V) ∧
      Tendsto (fun n : ℕ => optionPriceBinomial { mirror o with numSteps := n }) atTop (𝓝 V) := by
  rcases Bool.eq_false_or_eq_true o.isCall with hC | hC
  · obtain ⟨V, hV, -, hlub⟩ := C142_call o hT hS hK hv hA hC
    obtain ⟨V', hlub', hV'⟩ := C141_put (mirror o) hT hK hS hv hA (by simp [mirror, hC])
    have : V' = V := hlub'.unique hlub
    exact ⟨V, hV, this ▸ hV'⟩
  · obtain ⟨V, hV, -, hlub⟩ := C142_call (mirror o) hT hK hS hv hA (by simp [mirror, hC])
    obtain ⟨V', hlub', hV'⟩ := C141_put o hT hS hK hv hA hC
    have : V' = V := hlub'.unique hlub
    exact ⟨V, this ▸ hV', hV⟩

/-- C142: the limit is at least the payoff of immediate exercise and at least the Black-Scholes price of the European option. -/
theorem C142_bounds (o : CrrOption) (hT : 0 < o.expiry) (hS : 0 < o.spot) (hK : 0 < o.strike) (hv : 0 < o.volatility) (hA : o.isAmerican = true) (hC : o.isCall = true)
    (V : ℝ) (hV : Tendsto (fun n : ℕ => optionPriceBinomial { o with numSteps := n }) atTop (𝓝 V)) :
    max (o.spot - o.strike) 0 ≤ V ∧ ∃ v, optionPrice (treeArgs o) = .ok v ∧ v ≤ V := by
  constructor
  · obtain ⟨V', h1, h2⟩ := C142_american o hT hS hK hv hA
    rw [tendsto_nhds_unique hV h1]
    exact (C141_bounds (mirror o) hT hK hS hv hA (by simp [mirror, hC]) V' h2).1
  · have h := fun ε hε => C117_american_ge o hT hS hK hv ε hε
    obtain ⟨v, hv1, -⟩ := h 1 one_pos
    refine ⟨v, hv1, le_of_forall_pos_le_add fun ε hε => ?_⟩
    obtain ⟨v', hv2, hev⟩ := h ε hε
    rw [hv1] at hv2
    injection hv2 with hv2
    have := ge_of_tendsto hV (hev.mono fun n hn => by
      have e : ({ o with isAmerican := true, numSteps := n } : CrrOption) = { o with numSteps := n } := by rw [← hA]
      rw [e] at hn
      exact hn)
    linarith

/-- C142: with finitely many steps an American option and its mirror image can differ in price, because the code discounts the payoff of an exercise by a step: a call on a spot of
100 with strike 1, a dividend yield of 1 and one step. -/
theorem C142_american_deviates : ∃ o : CrrOption, 0 < o.expiry ∧ 0 < o.spot ∧ 0 < o.strike ∧ 0 < o.volatility ∧ 0 < o.numSteps ∧ o.isAmerican = true ∧
    optionPriceBinomial (mirror o) < optionPriceBinomial o := by
  refine ⟨⟨1, 1, 1, 100, 0, 1, true, true, 1⟩, one_pos, by norm_num, one_pos, one_pos, one_pos, rfl, ?_⟩
  rw [optionPriceBinomial_american_call ⟨1, 1, 1, 100, 0, 1, true, true, 1⟩ one_pos (by norm_num) one_pos one_pos one_pos rfl rfl,
    optionPriceBinomial_american_put (mirror ⟨1, 1, 1, 100, 0, 1, true, true, 1⟩) one_pos one_pos one_pos rfl rfl]
  have hp := crrPUp_mem ⟨1, 1, 1, 1, 1, 0, false, true, 1⟩ (by norm_num [crrLnUp]) (by norm_num [crrLnUp])
  rw [crrPUp_eq ⟨1, 1, 1, 1, 1, 0, false, true, 1⟩ one_pos one_pos one_pos] at hp
  simp only [mirror, americanValue, treeValue, if_true] at hp ⊢
  generalize moveProb 1 0 1 1 1 = p at hp ⊢
  generalize moveLog 1 1 1 = d
  have he : Real.exp (-1) < 1 / 2 := by
    have := Real.exp_one_gt_d9
    rw [Real.exp_neg, inv_lt_comm₀ (Real.exp_pos _) (by norm_num)]
    norm_num
    linarith
  have h0 := Real.exp_pos (-1)
  have h1 : moveDisc 1 1 1 = Real.exp (-1) := by norm_num [moveDisc]
  have h2 : moveDisc 0 1 1 = 1 := by norm_num [moveDisc]
  have h3 : putLog 100 (Real.log 1) = 99 := by norm_num [putLog]
  rw [h1, h2, h3]
  have h4 := putLog_le 100 (by norm_num) (Real.log 1 - d)
  have h5 := putLog_le 100 (by norm_num) (Real.log 1 + d)
  have h6 := mul_le_mul_of_nonneg_left h4 (show (0 : ℝ) ≤ 1 - p by linarith [hp.2])
  have h7 := mul_le_mul_of_nonneg_left h5 hp.1
  have h8 : Real.exp (-1) * ((1 - p) * putLog 100 (Real.log 1 - d) + p * putLog 100 (Real.log 1 + d)) ≤ Real.exp (-1) * 100 := mul_le_mul_of_nonneg_left (by linarith) h0.le
  refine lt_of_lt_of_le (max_lt (by linarith) (by linarith)) (le_max_left _ _)

/-- A call with a dividend yield of a tenth and no interest has in every tree the price of a put with interest and no dividends. -/
example (n : ℕ) (hn : 0 < n) : optionPriceBinomial ⟨1 / 5, 90, 1, 100, 0, 1 / 10, true, false, n⟩ = optionPriceBinomial ⟨1 / 5, 100, 1, 90, 1 / 10, 0, false, false, n⟩ :=
  (C142_european ⟨1 / 5, 90, 1, 100, 0, 1 / 10, true, false, n⟩ (by norm_num) (by norm_num) (by norm_num) (by norm_num) hn rfl).symm

/-- An American call with dividends, in the money by 10: its prices converge to at least 10. -/
example : ∃ V, Tendsto (fun n : ℕ => optionPriceBinomial ⟨1 / 5, 90, 1, 100, 0, 1 / 10, true, true, n⟩) atTop (𝓝 V) ∧ 10 ≤ V := by
  obtain ⟨V, hV, -, -⟩ := C142_call ⟨1 / 5, 90, 1, 100, 0, 1 / 10, true, true, 1⟩ (by norm_num) (by norm_num) (by norm_num) (by norm_num) rfl rfl
  have := (C142_bounds ⟨1 / 5, 90, 1, 100, 0, 1 / 10, true, true, 1⟩ (by norm_num) (by norm_num) (by norm_num) (by norm_num) rfl rfl V hV).1
  refine ⟨V, hV, le_trans ?_ this⟩
  norm_num

end Props
