import Verif.Props.HullWhite
import Verif.Lemmas.VanillaPrices

/-! # C52: bond prices of the Hull-White model -/

namespace Lemmas
open Model Spec MeasureTheory Filter Topology

section
variable (m : HullWhite)

/-- `G(t, T)`. -/
noncomputable def bondG (t maturity : ℝ) : ℝ := (1 - Real.exp (-m.meanReversion * (maturity - t))) / m.meanReversion

theorem instantForwardRate_eq (t : ℝ) : m.instantForwardRate t = deriv (fun x => m.discountRate x * x) t := by
  unfold HullWhite.instantForwardRate
  have : (fun x => -m.discountRate x * x) = -(fun x => m.discountRate x * x) := by
    funext x; simp
  rw [this, deriv.neg, neg_neg]

theorem discountBondPrice_eq (r t T : ℝ) : m.discountBondPrice r t T =
    Real.exp (-(m.discountRate T * T) + m.discountRate t * t - (r - m.instantForwardRate t) * bondG m t T - m.computeYt t * bondG m t T ^ 2 / 2) := by
  unfold HullWhite.discountBondPrice
  simp only
  rw [← Real.exp_sub, ← Real.exp_add]
  congr 1
  unfold bondG
  ring

variable (hm : HullWhiteOk m)
include hm

/-- The integrated variance is differentiable between the jumps. -/
theorem varianceAt_hasDerivAt (t : ℝ) (ht : 0 < t) (hj : t ∉ m.volJumps) :
    HasDerivAt m.varianceAt (m.volatility t ^ 2 * Real.exp (2 * m.meanReversion * t)) t := by
  obtain ⟨h1, h2, h3⟩ := searchLeft_piece m.volJumps hm.sorted t ht.le
  set i := searchLeft m.volJumps t with hi
  have h2' : (0 :: m.volJumps).getD i 0 < t := by
    rcases lt_or_eq_of_le h2 with h | h
    · exact h
    · exfalso
      cases hi' : i with
      | zero => rw [hi'] at h; simp at h; linarith
      | succ j =>
        rw [hi', List.getD_cons_succ] at h
        exact hj (h ▸ List.mem_of_getElem? (getD_some m.volJumps j (by omega)))
  have h3' : i < m.volJumps.length → t < m.volJumps.getD i 0 := by
    intro hlt
    rcases lt_or_eq_of_le (h3 hlt) with h | h
    · exact h
    · exact absurd (h ▸ List.mem_of_getElem? (getD_some m.volJumps i hlt)) hj
  have hev : ∀ᶠ s in 𝓝 t, m.varianceAt s = varianceInt ((0 :: m.volJumps).getD i 0) s (m.volValues.getD i 0) m.meanReversion +
      m.varianceAtKnots.getD i 0 := by
    have e1 := eventually_gt_nhds h2'
    have e2 : ∀ᶠ s in 𝓝 t, i < m.volJumps.length → s < m.volJumps.getD i 0 := by
      by_cases hlt : i < m.volJumps.length
      · filter_upwards [eventually_lt_nhds (h3' hlt)] with s hs _ using hs
      · exact Eventually.of_forall (fun s h => absurd h hlt)
    filter_upwards [e1, e2, eventually_gt_nhds ht] with s a b c
    exact varianceAt_on_piece m hm i h1 s a.le (fun h => (b h).le) c.le
  have hvol : m.volatility t = m.volValues.getD i 0 := rfl
  have hk := hm.mr
  have hd : HasDerivAt (fun s => varianceInt ((0 :: m.volJumps).getD i 0) s (m.volValues.getD i 0) m.meanReversion +
      m.varianceAtKnots.getD i 0) (m.volatility t ^ 2 * Real.exp (2 * m.meanReversion * t)) t := by
    unfold varianceInt
    have h1 : HasDerivAt (fun s : ℝ => 2 * m.meanReversion * s) (2 * m.meanReversion) t := by
      simpa using (hasDerivAt_id t).const_mul (2 * m.meanReversion)
    refine (((h1.exp.sub_const _).const_mul _).add_const _).congr_deriv ?_
    rw [hvol]
    field_simp
  exact hd.congr_of_eventuallyEq hev

theorem computeYt_hasDerivAt (t : ℝ) (ht : 0 < t) (hj : t ∉ m.volJumps) :
    HasDerivAt m.computeYt (m.volatility t ^ 2 - 2 * m.meanReversion * m.computeYt t) t := by
  have h1 : HasDerivAt (fun s : ℝ => -2 * m.meanReversion * s) (-2 * m.meanReversion) t := by
    simpa using (hasDerivAt_id t).const_mul (-2 * m.meanReversion)
  have h := h1.exp.mul (varianceAt_hasDerivAt m hm t ht hj)
  have : m.computeYt = fun s => Real.exp (-2 * m.meanReversion * s) * m.varianceAt s := rfl
  rw [this]
  refine h.congr_deriv ?_
  have e : Real.exp (-2 * m.meanReversion * t) * Real.exp (2 * m.meanReversion * t) = 1 := by
    rw [← Real.exp_add]; simp
  simp only
  linear_combination m.volatility t ^ 2 * e

theorem bondG_hasDerivAt (t T : ℝ) : HasDerivAt (fun s => bondG m s T) (-(1 - m.meanReversion * bondG m t T)) t := by
  have hk := hm.mr
  have h1 : HasDerivAt (fun s : ℝ => -m.meanReversion * (T - s)) m.meanReversion t := by
    have := ((hasDerivAt_const t T).sub (hasDerivAt_id t)).const_mul (-m.meanReversion)
    exact this.congr_deriv (by ring)
  unfold bondG
  refine ((h1.exp.const_sub 1).div_const m.meanReversion).congr_deriv ?_
  field_simp
  ring

end

end Lemmas

namespace Props
open Model Lemmas Spec MeasureTheory Filter Topology

/-- C52: at time 0 and the initial short rate the bond prices are those of the initial curve. -/
theorem C52_initial_curve (m : HullWhite) (hm : HullWhiteOk m) (T : ℝ) :
    m.discountBondPrice (m.instantForwardRate 0) 0 T = Real.exp (-(m.discountRate T * T)) := by
  have h0 : m.computeYt 0 = 0 := by
    rw [computeYt_eq m hm 0 le_rfl]; unfold convexity stateVariance; simp
  rw [discountBondPrice_eq, h0]
  simp

/-- C52: a bond is worth 1 at its maturity. -/
theorem C52_maturity (m : HullWhite) (r t : ℝ) : m.discountBondPrice r t t = 1 := by
  rw [discountBondPrice_eq]
  simp [bondG]

/-- C52: later bonds are cheaper relative to the initial curve where rates are higher: the price is strictly decreasing in the short
rate. -/
theorem C52_decreasing (m : HullWhite) (hk : m.meanReversion ≠ 0) (t T : ℝ) (h : t < T) : StrictAnti (fun r => m.discountBondPrice r t T) := by
  have hg : 0 < bondG m t T := by
    unfold bondG
    rcases lt_or_gt_of_ne hk with h' | h'
    · apply div_pos_of_neg_of_neg _ h'
      have : 1 < Real.exp (-m.meanReversion * (T - t)) := Real.one_lt_exp_iff.2 (mul_pos (by linarith) (by linarith))
      linarith
    · apply div_pos _ h'
      have : Real.exp (-m.meanReversion * (T - t)) < 1 := by
        rw [← Real.exp_zero]; exact Real.exp_lt_exp.2 (by nlinarith)
      linarith
  intro r r' hr
  simp only [discountBondPrice_eq]
  apply Real.exp_lt_exp.2
  have := mul_lt_mul_of_pos_right hr hg
  linarith

/-- C52: with a normal state of mean 0 and variance `y(t)`, the law in the `t`-forward measure, the expected bond price is the forward
price of the initial curve. -/
theorem C52_forward_expectation (m : HullWhite) (hm : HullWhiteOk m) (t T : ℝ) (ht : 0 ≤ t) :
    normalExpectation (m.instantForwardRate t) (Real.sqrt (convexity m.meanReversion m.volatility t)) (fun r => m.discountBondPrice r t T) =
      Real.exp (-(m.discountRate T * T)) / Real.exp (-(m.discountRate t * t)) := by
  have hy : 0 ≤ m.computeYt t := by
    rw [computeYt_eq m hm t ht]
    exact intervalIntegral.integral_nonneg ht (fun s _ => mul_nonneg (Real.exp_pos _).le (sq_nonneg _))
  have hmeas : Measurable (fun r => m.discountBondPrice r t T) := by
    simp only [discountBondPrice_eq]; fun_prop
  rw [normalExpectation_std _ _ _ hmeas, ← computeYt_eq m hm t ht]
  rw [← lognormal_mean (Real.exp (-(m.discountRate T * T)) / Real.exp (-(m.discountRate t * t))) (-(Real.sqrt (m.computeYt t) * bondG m t T))]
  congr 1
  funext z
  rw [discountBondPrice_eq, ← Real.exp_sub, ← Real.exp_add]
  congr 2
  have := Real.sq_sqrt hy
  linear_combination (bondG m t T ^ 2 / 2) * this

/-- C52: between the jumps of the volatility the bond price solves the pricing equation
`P_t + (f' + k f + y - k r) P_r + sigma^2 / 2 P_rr = r P`. -/
theorem C52_pricing_equation (m : HullWhite) (hm : HullWhiteOk m) (r t T : ℝ) (ht : 0 < t) (hj : t ∉ m.volJumps)
    (hD : DifferentiableAt ℝ (fun x => m.discountRate x * x) t) (hf : DifferentiableAt ℝ m.instantForwardRate t) :
    DifferentiableAt ℝ (fun s => m.discountBondPrice r s T) t ∧
    deriv (fun s => m.discountBondPrice r s T) t +
      (deriv m.instantForwardRate t + m.meanReversion * m.instantForwardRate t + convexity m.meanReversion m.volatility t - m.meanReversion * r) *
        deriv (fun q => m.discountBondPrice q t T) r +
      m.volatility t ^ 2 / 2 * deriv (deriv (fun q => m.discountBondPrice q t T)) r = r * m.discountBondPrice r t T := by
  have hP : ∀ q, HasDerivAt (fun q => m.discountBondPrice q t T) (-(bondG m t T) * m.discountBondPrice q t T) q := by
    intro q
    simp only [discountBondPrice_eq]
    have h1 : HasDerivAt (fun q => -(m.discountRate T * T) + m.discountRate t * t - (q - m.instantForwardRate t) * bondG m t T -
        m.computeYt t * bondG m t T ^ 2 / 2) (-(bondG m t T)) q := by
      have := (((((hasDerivAt_id q).sub_const (m.instantForwardRate t)).mul_const (bondG m t T)).const_sub
        (-(m.discountRate T * T) + m.discountRate t * t))).sub_const (m.computeYt t * bondG m t T ^ 2 / 2)
      exact this.congr_deriv (by ring)
    exact h1.exp.congr_deriv (by ring)
  have hd1 : deriv (fun q => m.discountBondPrice q t T) = fun q => -(bondG m t T) * m.discountBondPrice q t T := funext (fun q => (hP q).deriv)
  have hd2 : deriv (deriv (fun q => m.discountBondPrice q t T)) r = -(bondG m t T) * (-(bondG m t T) * m.discountBondPrice r t T) := by
    rw [hd1]; exact ((hP r).const_mul _).deriv
  have hf' : HasDerivAt (fun x => m.discountRate x * x) (m.instantForwardRate t) t := by
    rw [instantForwardRate_eq]; exact hD.hasDerivAt
  have hy := computeYt_hasDerivAt m hm t ht hj
  have hg := bondG_hasDerivAt m hm t T
  have hE := (((hf'.const_add (-(m.discountRate T * T))).sub ((hf.hasDerivAt.const_sub r).mul hg)).sub ((hy.mul (hg.pow 2)).div_const 2)).exp
  have hfun : (fun s => m.discountBondPrice r s T) = fun s => Real.exp (-(m.discountRate T * T) + m.discountRate s * s -
      (r - m.instantForwardRate s) * bondG m s T - m.computeYt s * bondG m s T ^ 2 / 2) := funext (fun s => discountBondPrice_eq m r s T)
  have hE' : HasDerivAt (fun s => m.discountBondPrice r s T) (m.discountBondPrice r t T * (m.instantForwardRate t -
      (-deriv m.instantForwardRate t * bondG m t T + (r - m.instantForwardRate t) * -(1 - m.meanReversion * bondG m t T)) -
      ((m.volatility t ^ 2 - 2 * m.meanReversion * m.computeYt t) * bondG m t T ^ 2 +
        m.computeYt t * (2 * bondG m t T * -(1 - m.meanReversion * bondG m t T))) / 2)) t := by
    rw [hfun, discountBondPrice_eq]
    refine hE.congr_deriv ?_
    simp only [Pi.sub_apply, Pi.mul_apply, Pi.pow_apply, Nat.cast_ofNat, Nat.add_one_sub_one, pow_one]
  refine ⟨hE'.differentiableAt, ?_⟩
  rw [hE'.deriv, hd2, hd1, ← computeYt_eq m hm t ht.le]
  simp only
  ring

/-- C52: for a constant volatility the drift function is the one of the pricing equation. -/
theorem C52_drift_constant_partial (k sigma : ℝ) (hk : k ≠ 0) (rate : ℝ → ℝ) (t x : ℝ) (ht : 0 ≤ t) :
    let m : HullWhite := ⟨k, [], [sigma], rate⟩
    m.driftFn t x = deriv m.instantForwardRate t + k * m.instantForwardRate t + convexity k m.volatility t - k * x := by
  intro m
  have hv : m.volatility = fun _ => sigma := by funext s; rfl
  unfold convexity
  rw [hv, (C51_constant k sigma hk rate t ht).1]
  unfold HullWhite.driftFn
  rw [hv]
  simp only [m]
  ring

/-- C52, deviation: for a volatility with a jump the drift function uses the current volatility as if it had always held. With the
volatility 0 before time 1 and `sigma` after it, the drift exceeds the right one. -/
theorem C52_drift_jump (k sigma : ℝ) (hk : 0 < k) (hsigma : sigma ≠ 0) (rate : ℝ → ℝ) (t x : ℝ) (ht : 1 < t) :
    let m : HullWhite := ⟨k, [1], [0, sigma], rate⟩
    deriv m.instantForwardRate t + k * m.instantForwardRate t + convexity k m.volatility t - k * x < m.driftFn t x := by
  intro m
  have hm : HullWhiteOk m := ⟨hk.ne', by simp [m], by simp [m]⟩
  have hs : searchLeft m.volJumps t = 1 := by simp [m, searchLeft, ht]
  have hvol : m.volatility t = sigma := by
    unfold HullWhite.volatility piecewiseConstant
    rw [if_pos rfl, hs]; rfl
  have h1 : m.volatility 1 = 0 := by
    have := volatility_jump m hm 0 (by simp [m])
    simpa [m] using this
  have hyt : convexity k m.volatility t = Real.exp (-2 * k * t) * (sigma * sigma / (2 * k) * (Real.exp (2 * k * t) - Real.exp (2 * k * 1))) := by
    rw [← computeYt_eq m hm t (by linarith)]
    unfold HullWhite.computeYt HullWhite.varianceAt
    simp only
    rw [hs, hvol]
    unfold HullWhite.varianceAtKnots HullWhite.jumpValuesVol HullWhite.paddedKnots HullWhite.vn
    simp only [m, List.map_cons, List.map_nil, List.dropLast_singleton, List.zip_cons_cons, List.zip_nil_left, List.zipWith_cons_cons,
      List.zipWith_nil_left, cumsum, cumsum.go]
    rw [show HullWhite.volatility ⟨k, [1], [0, sigma], rate⟩ 1 = 0 from h1]
    simp [varianceInt]
  rw [hyt]
  unfold HullWhite.driftFn
  rw [hvol]
  simp only [m]
  have e1 : Real.exp (-2 * k * t) * Real.exp (2 * k * t) = 1 := by rw [← Real.exp_add]; simp
  have e2 : Real.exp (-2 * k * t) < Real.exp (-2 * k * t) * Real.exp (2 * k * 1) := by
    have h1 : 1 < Real.exp (2 * k * 1) := Real.one_lt_exp_iff.2 (by linarith)
    have h2 := Real.exp_pos (-2 * k * t)
    nlinarith
  have hc : 0 < sigma ^ 2 / (2 * k) := by positivity
  have e3 := mul_lt_mul_of_pos_left e2 hc
  have e4 : Real.exp (-2 * k * t) * (sigma * sigma / (2 * k) * (Real.exp (2 * k * t) - Real.exp (2 * k * 1))) =
      sigma ^ 2 / (2 * k) * (1 - Real.exp (-2 * k * t) * Real.exp (2 * k * 1)) := by
    linear_combination (sigma ^ 2 / (2 * k)) * e1
  rw [e4]
  have e5 : sigma ^ 2 / 2 / k * (1 - Real.exp (-2 * k * t)) = sigma ^ 2 / (2 * k) * (1 - Real.exp (-2 * k * t)) := by
    rw [div_div]
  rw [e5]
  linarith

/-- A flat curve of 2%: the price of a bond of one year in one year, at the forward rate. -/
example : HullWhite.discountBondPrice ⟨1 / 10, [], [0], fun _ => 1 / 50⟩ (1 / 50) 1 2 = Real.exp (-(1 / 50)) := by
  have hm : HullWhiteOk ⟨1 / 10, [], [0], fun _ => 1 / 50⟩ := ⟨by norm_num, by simp, by simp⟩
  have hf : HullWhite.instantForwardRate ⟨1 / 10, [], [0], fun _ => 1 / 50⟩ 1 = 1 / 50 := by
    rw [instantForwardRate_eq]
    simp only
    rw [deriv_const_mul _ differentiableAt_fun_id]; simp
  rw [discountBondPrice_eq, hf]
  have : HullWhite.computeYt ⟨1 / 10, [], [0], fun _ => 1 / 50⟩ 1 = 0 := by
    simp [HullWhite.computeYt, HullWhite.varianceAt, HullWhite.varianceAtKnots, varianceInt, HullWhite.volatility, piecewiseConstant, searchLeft, cumsum, cumsum.go]
  rw [this]
  norm_num

end Props
