import Verif.Model.Sabr
import Verif.Spec.Sabr
import Verif.Props.VanillaPrices
import Mathlib.Analysis.SpecialFunctions.Sqrt
import Mathlib.Analysis.SpecialFunctions.Log.Deriv
import Mathlib.MeasureTheory.Integral.IntervalIntegral.FundThmCalculus
import Mathlib.Analysis.Calculus.Deriv.MeanValue

/-!
# Property theorems C78: implied volatilities and option prices of the SABR approximation
-/

namespace Lemmas
open Model Spec

/-- The logarithm of the code. -/
noncomputable def xhatLog (rho z : ℝ) : ℝ := Real.log ((Real.sqrt (1 - 2 * rho * z + z * z) - rho + z) / (1 - rho))

theorem xhat_radicand (rho z : ℝ) (h : |rho| < 1) : 0 < 1 - 2 * rho * z + z ^ 2 := by
  have := (sq_lt_one_iff_abs_lt_one rho).2 h
  nlinarith [sq_nonneg (z - rho)]

theorem xhat_arg_pos (rho z : ℝ) (h : |rho| < 1) : 0 < Real.sqrt (1 - 2 * rho * z + z * z) - rho + z := by
  have h1 := (sq_lt_one_iff_abs_lt_one rho).2 h
  have : |rho - z| < Real.sqrt (1 - 2 * rho * z + z * z) := by
    rw [← Real.sqrt_sq_eq_abs]
    exact Real.sqrt_lt_sqrt (sq_nonneg _) (by nlinarith)
  have := lt_of_abs_lt this
  linarith

theorem xhatLog_hasDerivAt (rho z : ℝ) (h : |rho| < 1) :
    HasDerivAt (xhatLog rho) (1 / Real.sqrt (1 - 2 * rho * z + z ^ 2)) z := by
  have hD := xhat_radicand rho z h
  have hu := xhat_arg_pos rho z h
  have hr : 0 < 1 - rho := by linarith [(abs_lt.1 h).2]
  have e : z * z = z ^ 2 := by ring
  have d0 : HasDerivAt (fun z => 1 - 2 * rho * z + z * z) (2 * (z - rho)) z := by
    have := (((hasDerivAt_id z).const_mul (2 * rho)).const_sub 1).add ((hasDerivAt_id z).mul (hasDerivAt_id z))
    refine this.congr_deriv ?_
    simp only [id]; ring
  have d1 := d0.sqrt (by rw [e]; exact hD.ne')
  have d2 := ((d1.sub_const rho).add (hasDerivAt_id z)).div_const (1 - rho)
  have d3 := d2.log (by exact (div_pos hu hr).ne')
  refine d3.congr_deriv ?_
  simp only [id, Pi.add_apply]
  rw [e] at hu ⊢
  have hq := Real.sqrt_pos.2 hD
  generalize Real.sqrt (1 - 2 * rho * z + z ^ 2) = q at hu hq
  field_simp
  ring

theorem xhatLog_zero (rho : ℝ) (h : |rho| < 1) : xhatLog rho 0 = 0 := by
  unfold xhatLog
  have hr : 1 - rho ≠ 0 := by linarith [(abs_lt.1 h).2]
  simp [div_self hr]

theorem xhatLog_eq (rho z : ℝ) (h : |rho| < 1) : xhatLog rho z = haganXhat rho z := by
  unfold haganXhat
  rw [intervalIntegral.integral_eq_sub_of_hasDerivAt (fun y _ => xhatLog_hasDerivAt rho y h), xhatLog_zero rho h, sub_zero]
  refine ContinuousOn.intervalIntegrable (ContinuousOn.div continuousOn_const (by fun_prop) ?_)
  intro y _
  exact (Real.sqrt_pos.2 (xhat_radicand rho y h)).ne'

theorem xhatLog_neg (rho z : ℝ) (h : |rho| < 1) : xhatLog (-rho) (-z) = -xhatLog rho z := by
  have h' : |-rho| < 1 := by rwa [abs_neg]
  have u1 := xhat_arg_pos rho z h
  have u2 := xhat_arg_pos (-rho) (-z) h'
  have r1 : 0 < 1 - rho := by linarith [(abs_lt.1 h).2]
  have r2 : 0 < 1 - -rho := by linarith [(abs_lt.1 h).1]
  unfold xhatLog
  rw [← Real.log_inv]
  congr 1
  have e : 1 - 2 * -rho * -z + -z * -z = 1 - 2 * rho * z + z * z := by ring
  rw [e] at u2 ⊢
  have hq := Real.sq_sqrt (show 0 ≤ 1 - 2 * rho * z + z * z by have := xhat_radicand rho z h; nlinarith)
  generalize Real.sqrt (1 - 2 * rho * z + z * z) = q at u1 u2 hq
  rw [inv_div, div_eq_div_iff r2.ne' u1.ne']
  linear_combination hq

theorem xhatLog_strictMono (rho : ℝ) (h : |rho| < 1) : StrictMono (xhatLog rho) := by
  refine strictMono_of_deriv_pos fun z => ?_
  rw [(xhatLog_hasDerivAt rho z h).deriv]
  have := Real.sqrt_pos.2 (xhat_radicand rho z h)
  positivity

theorem xhatLog_bounds_pos (rho z : ℝ) (h : |rho| < 1) (hz : 0 < z) :
    Real.log (1 + z) ≤ xhatLog rho z ∧ (z < 1 → xhatLog rho z ≤ -Real.log (1 - z)) := by
  have hr := abs_lt.1 h
  constructor
  · have hm : MonotoneOn (fun y => xhatLog rho y - Real.log (1 + y)) (Set.Icc 0 z) := by
      have hd : ∀ y, 0 ≤ y → HasDerivAt (fun y => xhatLog rho y - Real.log (1 + y))
          (1 / Real.sqrt (1 - 2 * rho * y + y ^ 2) - 1 / (1 + y)) y := fun y hy =>
        (xhatLog_hasDerivAt rho y h).sub (((hasDerivAt_id y).const_add 1).log (by simp only [id]; positivity))
      refine monotoneOn_of_deriv_nonneg (convex_Icc _ _) (fun y hy => (hd y hy.1).continuousAt.continuousWithinAt)
        (fun y hy => (hd y (interior_subset hy).1).differentiableAt.differentiableWithinAt) ?_
      intro y hy
      have hy0 := (interior_subset hy).1
      rw [(hd y hy0).deriv, sub_nonneg]
      refine one_div_le_one_div_of_le (Real.sqrt_pos.2 (xhat_radicand rho y h)) ?_
      refine (Real.sqrt_le_left (by linarith)).2 ?_
      nlinarith
    have := hm (Set.left_mem_Icc.2 hz.le) (Set.right_mem_Icc.2 hz.le) hz.le
    simp only [xhatLog_zero rho h, add_zero, Real.log_one, sub_zero] at this
    linarith
  · intro hz1
    have hm : MonotoneOn (fun y => -Real.log (1 - y) - xhatLog rho y) (Set.Icc 0 z) := by
      have hd : ∀ y, y < 1 → HasDerivAt (fun y => -Real.log (1 - y) - xhatLog rho y)
          (1 / (1 - y) - 1 / Real.sqrt (1 - 2 * rho * y + y ^ 2)) y := by
        intro y hy
        have h1 : (1 : ℝ) - y ≠ 0 := by linarith
        have := ((((hasDerivAt_id y).const_sub 1).log (by simpa using h1)).neg).sub (xhatLog_hasDerivAt rho y h)
        refine this.congr_deriv ?_
        simp only [id]
        rw [neg_div, neg_neg]
      refine monotoneOn_of_deriv_nonneg (convex_Icc _ _) (fun y hy => (hd y (by linarith [hy.2])).continuousAt.continuousWithinAt)
        (fun y hy => (hd y (by linarith [(interior_subset hy).2])).differentiableAt.differentiableWithinAt) ?_
      intro y hy
      have hy0 := (interior_subset hy).1
      have hy1 : y < 1 := by linarith [(interior_subset hy).2]
      rw [(hd y hy1).deriv, sub_nonneg]
      refine one_div_le_one_div_of_le (by linarith) ?_
      refine Real.le_sqrt_of_sq_le ?_
      nlinarith
    have := hm (Set.left_mem_Icc.2 hz.le) (Set.right_mem_Icc.2 hz.le) hz.le
    simp only [xhatLog_zero rho h, sub_zero, Real.log_one, neg_zero] at this
    linarith

theorem ratio_pos (rho z : ℝ) (h : |rho| < 1) (hz : z ≠ 0) : 0 < z / xhatLog rho z := by
  have hm := xhatLog_strictMono rho h
  rcases lt_or_gt_of_ne hz with h0 | h0
  · have := hm h0
    rw [xhatLog_zero rho h] at this
    exact div_pos_of_neg_of_neg h0 this
  · have := hm h0
    rw [xhatLog_zero rho h] at this
    exact div_pos h0 this

theorem ratio_bound_pos (rho z : ℝ) (h : |rho| < 1) (hz : 0 < z) : |z / xhatLog rho z - 1| ≤ z := by
  obtain ⟨h1, h2⟩ := xhatLog_bounds_pos rho z h hz
  have hx : 0 < xhatLog rho z := by
    have := xhatLog_strictMono rho h hz
    rwa [xhatLog_zero rho h] at this
  rw [abs_le]
  constructor
  · by_cases hz1 : z < 1
    · have h3 := h2 hz1
      have h4 : -Real.log (1 - z) ≤ z / (1 - z) := by
        have := Real.one_sub_inv_le_log_of_pos (show 0 < 1 - z by linarith)
        have e : z / (1 - z) = (1 - z)⁻¹ - 1 := by
          have : 1 - z ≠ 0 := by linarith
          field_simp
          ring
        rw [e]; linarith
      have h5 : 1 - z ≤ z / xhatLog rho z := by
        rw [le_div_iff₀ hx]
        have h6 : xhatLog rho z ≤ z / (1 - z) := h3.trans h4
        rw [le_div_iff₀ (by linarith)] at h6
        linarith
      linarith
    · have := div_pos hz hx
      linarith
  · have h3 : z / (1 + z) ≤ Real.log (1 + z) := by
      have := Real.one_sub_inv_le_log_of_pos (show 0 < 1 + z by linarith)
      have e : z / (1 + z) = 1 - (1 + z)⁻¹ := by field_simp; ring
      rw [e]; exact this
    have h4 : z / xhatLog rho z ≤ 1 + z := by
      rw [div_le_iff₀ hx]
      have h6 : z / (1 + z) ≤ xhatLog rho z := h3.trans h1
      rw [div_le_iff₀ (by linarith)] at h6
      linarith
    linarith

theorem ratio_bound (rho z : ℝ) (h : |rho| < 1) (hz : z ≠ 0) : |z / xhatLog rho z - 1| ≤ |z| := by
  rcases lt_or_gt_of_ne hz with h0 | h0
  · have := ratio_bound_pos (-rho) (-z) (by rwa [abs_neg]) (by linarith)
    rw [xhatLog_neg rho z h, neg_div_neg_eq] at this
    rwa [abs_of_neg h0]
  · rw [abs_of_pos h0]
    exact ratio_bound_pos rho z h h0

end Lemmas

namespace Props
open Model Spec Lemmas

/-- The arguments the documentation allows. -/
structure ValidSabr (a : SabrArgs) : Prop where
  strike : 0 < a.strike + a.shift
  forward : 0 < a.forward + a.shift
  alpha : 0 < a.alpha
  rho : |a.rho| < 1

/-- C78: the factor `zeta / xhat` is that of Hagan's formula, with `xhat` the integral of `1 / √(1 - 2 rho y + y²)`, where `zeta` exceeds
the threshold; everywhere the difference is at most the threshold. It is positive, differs from one by at most `|zeta|`, and is
unchanged when `zeta` and the correlation change their signs. -/
theorem C78_ratio (eps zeta rho : ℝ) (he : 0 ≤ eps) (h : |rho| < 1) :
    (eps < |zeta| → sabrZetaByXhat eps zeta rho = haganRatio rho zeta) ∧
    |sabrZetaByXhat eps zeta rho - haganRatio rho zeta| ≤ eps ∧ 0 < sabrZetaByXhat eps zeta rho ∧
    |sabrZetaByXhat eps zeta rho - 1| ≤ |zeta| ∧ sabrZetaByXhat eps (-zeta) (-rho) = sabrZetaByXhat eps zeta rho := by
  have e : ∀ z r, sabrZetaByXhat eps z r = if |z| > eps then z / xhatLog r z else 1 := fun z r => rfl
  have hne : eps < |zeta| → zeta ≠ 0 := by
    intro h1 h2
    rw [h2, abs_zero] at h1
    linarith
  have h1 : eps < |zeta| → sabrZetaByXhat eps zeta rho = haganRatio rho zeta := by
    intro hz
    rw [e, if_pos hz, haganRatio, if_neg (hne hz), xhatLog_eq rho zeta h]
  refine ⟨h1, ?_, ?_, ?_, ?_⟩
  · by_cases hz : eps < |zeta|
    · rw [h1 hz, sub_self, abs_zero]; exact he
    · rw [e, if_neg hz]
      unfold haganRatio
      by_cases h0 : zeta = 0
      · rw [if_pos h0, sub_self, abs_zero]; exact he
      · rw [if_neg h0, ← xhatLog_eq rho zeta h, abs_sub_comm]
        exact (ratio_bound rho zeta h h0).trans (not_lt.1 hz)
  · rw [e]
    split
    · rename_i hz
      exact ratio_pos rho zeta h (hne hz)
    · exact one_pos
  · rw [e]
    split
    · rename_i hz
      exact ratio_bound rho zeta h (hne hz)
    · rw [sub_self, abs_zero]; exact abs_nonneg _
  · rw [e, e, abs_neg, xhatLog_neg rho zeta h, neg_div_neg_eq]

theorem sabrDenom_pos (beta l : ℝ) : 0 < sabrDenom beta l := by
  have : sabrDenom beta l = 1 + ((1 - beta) * l) ^ 2 / 24 + ((1 - beta) * l) ^ 4 / 1920 := by unfold sabrDenom; ring
  rw [this]
  positivity

theorem powers (f K beta : ℝ) (hf : 0 < f) (hK : 0 < K) :
    Real.sqrt ((f / K) ^ (1 - beta)) = (f * K) ^ ((1 - beta) / 2) * K ^ (beta - 1) ∧
    (f / K) ^ (1 - beta) = (f * K) ^ (1 - beta) * (K ^ (beta - 1)) ^ 2 ∧
    (f / K) ^ (beta / 2) * (K ^ (beta - 1) * K) = (f * K) ^ (beta / 2) := by
  have hm := div_pos hf hK
  refine ⟨?_, ?_, ?_⟩
  · rw [Real.sqrt_eq_rpow, ← Real.rpow_mul hm.le, Real.div_rpow hf.le hK.le, Real.mul_rpow hf.le hK.le, mul_assoc, ← Real.rpow_add hK,
      div_eq_mul_inv, ← Real.rpow_neg hK.le]
    congr 2 <;> ring
  · rw [Real.div_rpow hf.le hK.le, Real.mul_rpow hf.le hK.le, ← Real.rpow_natCast, ← Real.rpow_mul hK.le, mul_assoc, ← Real.rpow_add hK,
      div_eq_mul_inv, ← Real.rpow_neg hK.le]
    congr 2
    push_cast
    ring
  · rw [Real.div_rpow hf.le hK.le, Real.mul_rpow hf.le hK.le, ← Real.rpow_add_one hK.ne', div_mul_eq_mul_div, mul_div_assoc, ← Real.rpow_sub hK]
    congr 2
    ring

theorem zeta_eq (a : SabrArgs) (h : ValidSabr a) :
    (a.volvol / (a.alpha * (a.strike + a.shift) ^ (a.beta - 1))) * Real.sqrt (((a.forward + a.shift) / (a.strike + a.shift)) ^ (1 - a.beta)) *
      Real.log ((a.forward + a.shift) / (a.strike + a.shift)) =
    haganZeta (a.forward + a.shift) (a.strike + a.shift) a.alpha a.beta a.volvol := by
  obtain ⟨p1, _, _⟩ := powers (a.forward + a.shift) (a.strike + a.shift) a.beta h.forward h.strike
  unfold haganZeta
  rw [p1]
  have hk := (Real.rpow_pos_of_pos h.strike (a.beta - 1)).ne'
  have ha := h.alpha.ne'
  field_simp

theorem hagan_with_ratio (eps : ℝ) (a : SabrArgs) (h : ValidSabr a) :
    sabrImpliedVol eps .lognormal a = haganLognormal (a.forward + a.shift) (a.strike + a.shift) a.expiry a.alpha a.beta a.volvol a.rho
      (sabrZetaByXhat eps (haganZeta (a.forward + a.shift) (a.strike + a.shift) a.alpha a.beta a.volvol) a.rho) ∧
    sabrImpliedVol eps .normal a = haganNormal (a.forward + a.shift) (a.strike + a.shift) a.expiry a.alpha a.beta a.volvol a.rho
      (sabrZetaByXhat eps (haganZeta (a.forward + a.shift) (a.strike + a.shift) a.alpha a.beta a.volvol) a.rho) := by
  have hz := zeta_eq a h
  set f := a.forward + a.shift with hfdef
  set K := a.strike + a.shift with hKdef
  set zeta := haganZeta f K a.alpha a.beta a.volvol with hzdef
  constructor
  · unfold sabrImpliedVol haganLognormal
    dsimp only
    rw [hz]
    obtain ⟨p1, p2, _⟩ := powers f K a.beta h.forward h.strike
    change a.alpha * K ^ (a.beta - 1) * (1 / Real.sqrt ((f / K) ^ (1 - a.beta))) * (1 / sabrDenom a.beta (Real.log (f / K))) *
      sabrZetaByXhat eps zeta a.rho * (1 + (1 - a.beta) * (1 - a.beta) / 24 * (1 / (f / K) ^ (1 - a.beta)) *
        (a.alpha * K ^ (a.beta - 1) * (a.alpha * K ^ (a.beta - 1)) * a.expiry) +
        a.rho * a.beta / 4 * (1 / Real.sqrt ((f / K) ^ (1 - a.beta))) * (a.alpha * K ^ (a.beta - 1) * a.volvol * a.expiry) +
        (2 - 3 * a.rho * a.rho) / 24 * (a.volvol * a.volvol * a.expiry)) = _
    rw [p1, p2]
    have hfk : 0 < f * K := mul_pos h.forward h.strike
    have hk := (Real.rpow_pos_of_pos h.strike (a.beta - 1)).ne'
    have hp := (Real.rpow_pos_of_pos hfk ((1 - a.beta) / 2)).ne'
    have hp2 := (Real.rpow_pos_of_pos hfk (1 - a.beta)).ne'
    have hk' : K ^ (a.beta - 1) ≠ 0 := hk
    have hd : sabrDenom a.beta (Real.log (f / K)) = 1 + (1 - a.beta) ^ 2 / 24 * Real.log (f / K) ^ 2 +
        (1 - a.beta) ^ 4 / 1920 * Real.log (f / K) ^ 4 := by unfold sabrDenom; ring
    have hdp := (sabrDenom_pos a.beta (Real.log (f / K))).ne'
    rw [← hd]
    generalize sabrDenom a.beta (Real.log (f / K)) = D at hdp
    generalize K ^ (a.beta - 1) = k at hk'
    generalize (f * K) ^ ((1 - a.beta) / 2) = P at hp
    generalize (f * K) ^ (1 - a.beta) = P2 at hp2
    field_simp
    ring
  · unfold sabrImpliedVol haganNormal
    dsimp only
    rw [hz]
    obtain ⟨p1, p2, p3⟩ := powers f K a.beta h.forward h.strike
    change a.alpha * K ^ (a.beta - 1) * K * (f / K) ^ (a.beta / 2) * (sabrDenom 0 (Real.log (f / K)) / sabrDenom a.beta (Real.log (f / K))) *
      sabrZetaByXhat eps zeta a.rho * (1 + -a.beta * (2 - a.beta) / 24 * (1 / (f / K) ^ (1 - a.beta)) *
        (a.alpha * K ^ (a.beta - 1) * (a.alpha * K ^ (a.beta - 1)) * a.expiry) +
        a.rho * a.beta / 4 * (1 / Real.sqrt ((f / K) ^ (1 - a.beta))) * (a.alpha * K ^ (a.beta - 1) * a.volvol * a.expiry) +
        (2 - 3 * a.rho * a.rho) / 24 * (a.volvol * a.volvol * a.expiry)) = _
    rw [p1, p2, ← p3]
    have hfk : 0 < f * K := mul_pos h.forward h.strike
    have hk := (Real.rpow_pos_of_pos h.strike (a.beta - 1)).ne'
    have hp := (Real.rpow_pos_of_pos hfk ((1 - a.beta) / 2)).ne'
    have hp2 := (Real.rpow_pos_of_pos hfk (1 - a.beta)).ne'
    have hk' : K ^ (a.beta - 1) ≠ 0 := hk
    have hd : sabrDenom a.beta (Real.log (f / K)) = 1 + (1 - a.beta) ^ 2 / 24 * Real.log (f / K) ^ 2 +
        (1 - a.beta) ^ 4 / 1920 * Real.log (f / K) ^ 4 := by unfold sabrDenom; ring
    have hd0 : sabrDenom 0 (Real.log (f / K)) = 1 + Real.log (f / K) ^ 2 / 24 + Real.log (f / K) ^ 4 / 1920 := by unfold sabrDenom; ring
    have hdp := (sabrDenom_pos a.beta (Real.log (f / K))).ne'
    rw [← hd, ← hd0]
    generalize sabrDenom a.beta (Real.log (f / K)) = D at hdp
    generalize sabrDenom 0 (Real.log (f / K)) = D0
    generalize K ^ (a.beta - 1) = k at hk'
    generalize (f / K) ^ (a.beta / 2) = M
    generalize (f * K) ^ ((1 - a.beta) / 2) = P at hp
    generalize (f * K) ^ (1 - a.beta) = P2 at hp2
    field_simp
    ring

/-- C78: the volatilities are those of Hagan's formulas (A.69) for the shifted forward and strike, in which the factor `zeta / xhat` is
replaced by that of the code, which differs from it by at most the threshold, and not at all where `zeta` exceeds the threshold. -/
theorem C78_hagan (eps : ℝ) (a : SabrArgs) (h : ValidSabr a) (he : 0 ≤ eps) :
    let f := a.forward + a.shift
    let K := a.strike + a.shift
    let zeta := haganZeta f K a.alpha a.beta a.volvol
    ∃ ratio, sabrImpliedVol eps .lognormal a = haganLognormal f K a.expiry a.alpha a.beta a.volvol a.rho ratio ∧
      sabrImpliedVol eps .normal a = haganNormal f K a.expiry a.alpha a.beta a.volvol a.rho ratio ∧
      |ratio - haganRatio a.rho zeta| ≤ eps ∧ 0 < ratio ∧ (eps < |zeta| → ratio = haganRatio a.rho zeta) := by
  intro f K zeta
  obtain ⟨r1, r2, r3, _, _⟩ := C78_ratio eps zeta a.rho he h.rho
  obtain ⟨e1, e2⟩ := hagan_with_ratio eps a h
  exact ⟨sabrZetaByXhat eps zeta a.rho, e1, e2, r2, r3, r1⟩

/-- C78: scaling. When forward, strike and shift are multiplied by `lam` and `alpha` by `lam ^ (1 - beta)`, the lognormal volatility stays
and the normal volatility is multiplied by `lam`. -/
theorem C78_scaling (eps lam : ℝ) (hl : 0 < lam) (a : SabrArgs) (h : ValidSabr a) :
    let b : SabrArgs := { a with strike := lam * a.strike, forward := lam * a.forward, shift := lam * a.shift, alpha := lam ^ (1 - a.beta) * a.alpha }
    sabrImpliedVol eps .lognormal b = sabrImpliedVol eps .lognormal a ∧ sabrImpliedVol eps .normal b = lam * sabrImpliedVol eps .normal a := by
  intro b
  have hk : b.strike + b.shift = lam * (a.strike + a.shift) := by change lam * a.strike + lam * a.shift = _; ring
  have hf : b.forward + b.shift = lam * (a.forward + a.shift) := by change lam * a.forward + lam * a.shift = _; ring
  have hm : (b.forward + b.shift) / (b.strike + b.shift) = (a.forward + a.shift) / (a.strike + a.shift) := by
    rw [hk, hf, mul_div_mul_left _ _ hl.ne']
  have ha : b.alpha * (b.strike + b.shift) ^ (b.beta - 1) = a.alpha * (a.strike + a.shift) ^ (a.beta - 1) := by
    rw [hk, Real.mul_rpow hl.le h.strike.le]
    change lam ^ (1 - a.beta) * a.alpha * (lam ^ (a.beta - 1) * _) = _
    have : lam ^ (1 - a.beta) * lam ^ (a.beta - 1) = 1 := by
      rw [← Real.rpow_add hl]
      simp
    linear_combination (a.alpha * (a.strike + a.shift) ^ (a.beta - 1)) * this
  unfold sabrImpliedVol
  dsimp only
  constructor
  · rw [hm, ha]
  · rw [hm, ha, hk]
    change _ * (lam * _) * _ * _ * _ * _ = _
    change a.alpha * (a.strike + a.shift) ^ (a.beta - 1) * (lam * (a.strike + a.shift)) * _ * _ * _ * _ = _
    rw [← mul_assoc, mul_comm _ lam]
    simp only [mul_assoc]
    rfl

/-- C78: the shift only moves forward and strike. -/
theorem C78_shift (eps : ℝ) (type : SabrVolType) (isCall : Bool) (a : SabrArgs) :
    let b : SabrArgs := { a with strike := a.strike + a.shift, forward := a.forward + a.shift, shift := 0 }
    sabrImpliedVol eps type a = sabrImpliedVol eps type b ∧ sabrOptionPrice eps type isCall a = sabrOptionPrice eps type isCall b := by
  intro b
  have hk : b.strike + b.shift = a.strike + a.shift := add_zero _
  have hf : b.forward + b.shift = a.forward + a.shift := add_zero _
  have h1 : sabrImpliedVol eps type a = sabrImpliedVol eps type b := by
    unfold sabrImpliedVol
    dsimp only
    rw [hk, hf]
  refine ⟨h1, ?_⟩
  unfold sabrOptionPrice
  rw [h1, hk, hf]

/-- C78: without volatility of the volatility the approximation is exact for the two processes whose law is known: for `beta = 1` the
lognormal volatility, and for `beta = 0` the normal volatility, is `alpha`, for every strike and expiry. -/
theorem C78_exact (eps : ℝ) (a : SabrArgs) (h : ValidSabr a) (he : 0 ≤ eps) (hv : a.volvol = 0) :
    (a.beta = 1 → sabrImpliedVol eps .lognormal a = a.alpha) ∧ (a.beta = 0 → sabrImpliedVol eps .normal a = a.alpha) := by
  have hz : ∀ r, sabrZetaByXhat eps 0 r = 1 := by
    intro r
    unfold sabrZetaByXhat
    dsimp only
    rw [if_neg (by rw [abs_zero]; exact not_lt.2 he)]
  constructor
  · intro hb
    unfold sabrImpliedVol
    dsimp only
    rw [hv, hb]
    simp [hz, sabrDenom]
  · intro hb
    unfold sabrImpliedVol
    dsimp only
    rw [hv, hb]
    have hd := (sabrDenom_pos 0 (Real.log ((a.forward + a.shift) / (a.strike + a.shift)))).ne'
    simp only [zero_div, zero_mul, hz, div_self hd, Real.rpow_zero, neg_zero, mul_zero, add_zero, mul_one, zero_sub]
    rw [mul_assoc, Real.rpow_neg_one, inv_mul_cancel₀ h.strike.ne', mul_one]

/-- C78: at the money. -/
theorem C78_at_the_money (eps : ℝ) (a : SabrArgs) (h : ValidSabr a) (he : 0 ≤ eps) (hf : a.forward = a.strike) :
    let K := a.strike + a.shift
    sabrImpliedVol eps .lognormal a = a.alpha * K ^ (a.beta - 1) *
      (1 + ((1 - a.beta) ^ 2 / 24 * a.alpha ^ 2 * K ^ (2 * (a.beta - 1)) + a.rho * a.beta * a.volvol * a.alpha / 4 * K ^ (a.beta - 1) +
        (2 - 3 * a.rho ^ 2) / 24 * a.volvol ^ 2) * a.expiry) ∧
    sabrImpliedVol eps .normal a = a.alpha * K ^ a.beta *
      (1 + (-a.beta * (2 - a.beta) / 24 * a.alpha ^ 2 * K ^ (2 * (a.beta - 1)) + a.rho * a.beta * a.volvol * a.alpha / 4 * K ^ (a.beta - 1) +
        (2 - 3 * a.rho ^ 2) / 24 * a.volvol ^ 2) * a.expiry) := by
  intro K
  have hK : 0 < K := h.strike
  have hz : ∀ r, sabrZetaByXhat eps 0 r = 1 := by
    intro r
    unfold sabrZetaByXhat
    dsimp only
    rw [if_neg (by rw [abs_zero]; exact not_lt.2 he)]
  have hm : (a.forward + a.shift) / (a.strike + a.shift) = 1 := by rw [hf]; exact div_self hK.ne'
  have h2 : K ^ (2 * (a.beta - 1)) = (K ^ (a.beta - 1)) ^ 2 := by
    rw [mul_comm, Real.rpow_mul hK.le]
    norm_num
  have hb : K ^ a.beta = K ^ (a.beta - 1) * K := by
    rw [← Real.rpow_add_one hK.ne']
    congr 1
    ring
  have hd : ∀ b, sabrDenom b 0 = 1 := by intro b; unfold sabrDenom; simp
  unfold sabrImpliedVol
  dsimp only
  rw [hm, Real.log_one, mul_zero, hz, h2, hb]
  simp only [Real.one_rpow, Real.sqrt_one, hd, div_one, mul_one, one_mul]
  change (a.alpha * K ^ (a.beta - 1) * _ = _) ∧ (a.alpha * K ^ (a.beta - 1) * K * _ = _)
  change (a.alpha * K ^ (a.beta - 1) * (1 + (1 - a.beta) * (1 - a.beta) / 24 * (a.alpha * K ^ (a.beta - 1) * (a.alpha * K ^ (a.beta - 1)) * a.expiry) +
        a.rho * a.beta / 4 * (a.alpha * K ^ (a.beta - 1) * a.volvol * a.expiry) + _) = _) ∧
    (_ * (1 + -a.beta * (2 - a.beta) / 24 * (a.alpha * K ^ (a.beta - 1) * (a.alpha * K ^ (a.beta - 1)) * a.expiry) +
        a.rho * a.beta / 4 * (a.alpha * K ^ (a.beta - 1) * a.volvol * a.expiry) + _) = _)
  constructor <;> ring

theorem haganZeta_swap (f K alpha beta volvol : ℝ) : haganZeta K f alpha beta volvol = -haganZeta f K alpha beta volvol := by
  unfold haganZeta
  rw [mul_comm K f, ← inv_div f K, Real.log_inv]
  ring

/-- C78: where the term with `rho * beta` vanishes, exchanging forward and strike has the effect of changing the sign of the correlation; the
smile is symmetric if the correlation is zero. -/
theorem C78_symmetry (eps : ℝ) (type : SabrVolType) (a : SabrArgs) (h : ValidSabr a) (he : 0 ≤ eps) (hr : a.rho * a.beta = 0) :
    sabrImpliedVol eps type { a with strike := a.forward, forward := a.strike, rho := -a.rho } = sabrImpliedVol eps type a := by
  set b : SabrArgs := { a with strike := a.forward, forward := a.strike, rho := -a.rho } with hbdef
  have hb : ValidSabr b := ⟨h.forward, h.strike, h.alpha, by change |-a.rho| < 1; rw [abs_neg]; exact h.rho⟩
  have hl : Real.log ((a.strike + a.shift) / (a.forward + a.shift)) = -Real.log ((a.forward + a.shift) / (a.strike + a.shift)) := by
    rw [← inv_div, Real.log_inv]
  have key : ∀ c : SabrArgs, ValidSabr c →
      sabrImpliedVol eps .lognormal c = haganLognormal (c.forward + c.shift) (c.strike + c.shift) c.expiry c.alpha c.beta c.volvol c.rho
        (sabrZetaByXhat eps (haganZeta (c.forward + c.shift) (c.strike + c.shift) c.alpha c.beta c.volvol) c.rho) ∧
      sabrImpliedVol eps .normal c = haganNormal (c.forward + c.shift) (c.strike + c.shift) c.expiry c.alpha c.beta c.volvol c.rho
        (sabrZetaByXhat eps (haganZeta (c.forward + c.shift) (c.strike + c.shift) c.alpha c.beta c.volvol) c.rho) :=
    fun c hc => hagan_with_ratio eps c hc
  have hz : sabrZetaByXhat eps (haganZeta (b.forward + b.shift) (b.strike + b.shift) b.alpha b.beta b.volvol) b.rho =
      sabrZetaByXhat eps (haganZeta (a.forward + a.shift) (a.strike + a.shift) a.alpha a.beta a.volvol) a.rho := by
    change sabrZetaByXhat eps (haganZeta (a.strike + a.shift) (a.forward + a.shift) a.alpha a.beta a.volvol) (-a.rho) = _
    rw [haganZeta_swap]
    exact (C78_ratio eps _ a.rho he h.rho).2.2.2.2
  have hr' : -a.rho * a.beta = 0 := by rw [neg_mul, hr, neg_zero]
  rcases type with _ | _
  · rw [(key b hb).2, (key a h).2, hz]
    unfold haganNormal
    change a.alpha * ((a.strike + a.shift) * (a.forward + a.shift)) ^ (a.beta / 2) * _ * _ * _ = _
    simp only [hbdef]
    rw [hl, mul_comm (a.strike + a.shift), hr, hr']
    ring
  · rw [(key b hb).1, (key a h).1, hz]
    unfold haganLognormal
    simp only [hbdef]
    rw [hl, mul_comm (a.strike + a.shift), hr, hr']
    ring

/-- C78: where the volatility is not negative, the price is the expectation of the payoff under the law with that volatility. The put-call parity
holds in any case. -/
theorem C78_price (eps : ℝ) (type : SabrVolType) (a : SabrArgs) (h : ValidSabr a) (ht : 0 ≤ a.expiry) :
    (0 ≤ sabrImpliedVol eps type a → ∀ isCall, sabrOptionPrice eps type isCall a =
      .ok ((match type with
        | .normal => normalExpectation (a.forward + a.shift) (sabrImpliedVol eps type a * Real.sqrt a.expiry)
        | .lognormal => lognormalExpectation (a.forward + a.shift) (sabrImpliedVol eps type a * Real.sqrt a.expiry))
          (vanillaPayoff isCall (a.strike + a.shift)))) ∧
    ∃ c p, sabrOptionPrice eps type true a = .ok c ∧ sabrOptionPrice eps type false a = .ok p ∧ c - p = a.forward - a.strike := by
  constructor
  · intro hv isCall
    unfold sabrOptionPrice
    rw [C31_expectation]
    · rcases type with _ | _ <;> simp [discount, expectation, forward, stdDev]
    · exact ⟨by simp, by simp, hv, ht, by simp⟩
    · exact fun _ => ⟨h.forward, h.strike⟩
  · unfold sabrOptionPrice optionPrice
    refine ⟨_, _, rfl, rfl, ?_⟩
    simp only [bsDiscounting, bsForward]
    simp

/-- C78: the sign of the volatility is that of the expansion in the expiry. -/
theorem C78_sign (eps : ℝ) (a : SabrArgs) (h : ValidSabr a) (he : 0 ≤ eps) :
    let p := ((a.forward + a.shift) * (a.strike + a.shift)) ^ ((1 - a.beta) / 2)
    let q := ((a.forward + a.shift) * (a.strike + a.shift)) ^ (1 - a.beta)
    let common := a.rho * a.beta * a.volvol * a.alpha / (4 * p) + (2 - 3 * a.rho ^ 2) / 24 * a.volvol ^ 2
    (0 < sabrImpliedVol eps .lognormal a ↔ 0 < 1 + ((1 - a.beta) ^ 2 * a.alpha ^ 2 / (24 * q) + common) * a.expiry) ∧
    (0 < sabrImpliedVol eps .normal a ↔ 0 < 1 + (-a.beta * (2 - a.beta) * a.alpha ^ 2 / (24 * q) + common) * a.expiry) := by
  intro p q common
  obtain ⟨e1, e2⟩ := hagan_with_ratio eps a h
  have hr := (C78_ratio eps (haganZeta (a.forward + a.shift) (a.strike + a.shift) a.alpha a.beta a.volvol) a.rho he h.rho).2.2.1
  have hfk : 0 < (a.forward + a.shift) * (a.strike + a.shift) := mul_pos h.forward h.strike
  have hp : 0 < p := Real.rpow_pos_of_pos hfk _
  have hpb := Real.rpow_pos_of_pos hfk (a.beta / 2)
  have ha := h.alpha
  rw [e1, e2]
  unfold haganLognormal haganNormal
  generalize Real.log ((a.forward + a.shift) / (a.strike + a.shift)) = l
  have hd : 0 < 1 + (1 - a.beta) ^ 2 / 24 * l ^ 2 + (1 - a.beta) ^ 4 / 1920 * l ^ 4 := by positivity
  have hd0 : 0 < 1 + l ^ 2 / 24 + l ^ 4 / 1920 := by positivity
  constructor
  · rw [mul_pos_iff_of_pos_left (by positivity), ← add_assoc]
  · rw [mul_pos_iff_of_pos_left (by positivity), ← add_assoc]

/-- C78: the volatility can be negative for documented arguments, and the price is then the payoff of the forward. Here the volatility of the forward
is constant, so that the lognormal volatility is exact; the normal volatility is `-1`, and the call at the money is worth nothing. -/
theorem C78_negative_volatility (eps : ℝ) (he : 0 ≤ eps) :
    let a : SabrArgs := { strike := 1, expiry := 48, forward := 1, alpha := 1, beta := 1, volvol := 0, rho := 0 }
    ValidSabr a ∧ sabrImpliedVol eps .lognormal a = 1 ∧ sabrImpliedVol eps .normal a = -1 ∧ sabrOptionPrice eps .normal true a = .ok 0 ∧
      ∃ c, sabrOptionPrice eps .lognormal true a = .ok c ∧ 0 < c := by
  intro a
  have h : ValidSabr a := ⟨by norm_num [a], by norm_num [a], by norm_num [a], by norm_num [a]⟩
  have h1 := (C78_exact eps a h he rfl).1 rfl
  have h2 : sabrImpliedVol eps .normal a = -1 := by
    rw [(C78_at_the_money eps a h he rfl).2]
    norm_num [a]
  have hs : 0 < Real.sqrt 48 := Real.sqrt_pos.2 (by norm_num)
  refine ⟨h, h1, h2, ?_, ?_⟩
  · unfold sabrOptionPrice optionPrice
    rw [h2]
    simp only [bsDiscounting, bsForward, bsCheck, a]
    have : ¬(-1 * Real.sqrt 48 > 0) := by linarith
    rw [if_neg (by simp), if_neg (by simp)]
    simp only [bind, Except.bind, pure, Except.pure, Bool.true_eq_false, if_false, if_true, this]
    norm_num
  · unfold sabrOptionPrice optionPrice
    rw [h1]
    simp only [bsDiscounting, bsForward, bsCheck, a]
    have : (1 : ℝ) * Real.sqrt 48 > 0 := by linarith
    rw [if_neg (by simp), if_neg (by simp)]
    simp only [bind, Except.bind, pure, Except.pure, if_true, this, ncdf_eq]
    refine ⟨_, rfl, ?_⟩
    have := normalCdf_strictMono (show Real.sqrt 48 / 2 - Real.sqrt 48 < Real.sqrt 48 / 2 by linarith)
    norm_num
    simpa using this

/-- The documented test case of a forward of 100: an arbitrary smile satisfies the hypotheses of the theorems. -/
example : ValidSabr { strike := 120, expiry := 2, forward := 100, alpha := 0.2, beta := 0.5, volvol := 0.4, rho := -0.3 } :=
  ⟨by norm_num, by norm_num, by norm_num, by rw [abs_lt]; constructor <;> norm_num⟩

example : sabrImpliedVol 0 .lognormal { strike := 4, expiry := 1, forward := 4, alpha := 2, beta := 1 / 2, volvol := 1, rho := 1 / 2 } =
    1 + (1 / 96 + 1 / 16 + 5 / 96) := by
  have h4 : (4 : ℝ) ^ (-(1 / 2) : ℝ) = 1 / 2 := by
    rw [Real.rpow_neg (by norm_num), ← Real.sqrt_eq_rpow, show (4 : ℝ) = 2 ^ 2 by norm_num, Real.sqrt_sq (by norm_num)]
    norm_num
  have h44 : (4 : ℝ) ^ (-1 : ℝ) = 1 / 4 := by rw [Real.rpow_neg_one]; norm_num
  rw [(C78_at_the_money 0 _ ⟨by norm_num, by norm_num, by norm_num, by rw [abs_lt]; constructor <;> norm_num⟩ le_rfl rfl).1]
  norm_num [h4, h44]

end Props
