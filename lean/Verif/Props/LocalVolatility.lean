import Verif.Model.LocalVolatility
import Verif.Lemmas.Dupire
import Verif.Lemmas.SearchSorted

/-! C95: the local volatility model. -/

namespace Props
open Model Spec Lemmas Topology

/-- The forward price of the code for a discount factor `df`. -/
noncomputable def lvForward (df : ℝ → ℝ) (spot0 q t : ℝ) : ℝ := spot0 * Real.exp (-q * t) / df t

theorem lvOptionPrice_eq (theta : ℝ → ℝ → ℝ) (df : ℝ → ℝ) (spot0 q t k : ℝ) (ht : 0 < t) (hdf : 0 < df t) (hv : 0 < theta t k) :
    lvOptionPrice theta df spot0 q t k = df t * dupireCall (lvForward df spot0 q t) k (theta t k * Real.sqrt t) := by
  have hw : theta t k * Real.sqrt t > 0 := by positivity
  have hf : spot0 * Real.exp ((-Real.log (df t) / t - q) * t) = lvForward df spot0 q t := by
    unfold lvForward
    rw [show (-Real.log (df t) / t - q) * t = -q * t - Real.log (df t) by field_simp; ring, Real.exp_sub, Real.exp_log hdf]
    ring
  simp only [lvOptionPrice, optionPrice, bsCheck, bsDiscounting, bsForward, bind, Except.bind, pure, Except.pure, Option.getD, Option.isNone,
    Option.isSome, hf]
  simp [hw, dupireCall, blackD1, ncdf_eq]

theorem lvRate_eq (df : ℝ → ℝ) (t d : ℝ) (h : HasDerivAt df d t) (hdf : 0 < df t) : lvRiskFreeRate df t = -d / df t := by
  have := (h.log hdf.ne').neg
  unfold lvRiskFreeRate
  rw [show (fun x => -Real.log (df x)) = -(fun x => Real.log (df x)) from rfl, this.deriv, neg_div]

/-- The derivatives of the model price. -/
theorem lvPrice_smooth (theta : ℝ → ℝ → ℝ) (df : ℝ → ℝ) (spot0 q t k vt vk vkk d : ℝ) (hs : 0 < spot0) (ht : 0 < t) (hk : 0 < k)
    (hv : 0 < theta t k) (hdf : 0 < df t) (hd : HasDerivAt df d t) (hsm : SmoothAt theta t k vt vk vkk) :
    let r := lvRiskFreeRate df t
    let w := theta t k * Real.sqrt t
    let d1 := blackD1 (lvForward df spot0 q t) k w
    let ct := -r * lvOptionPrice theta df spot0 q t k + df t * ((r - q) * lvForward df spot0 q t * normalCdf d1 +
      k * phi (d1 - w) * (vt * Real.sqrt t + theta t k / (2 * Real.sqrt t)))
    let ck := df t * (k * phi (d1 - w) * (vk * Real.sqrt t) - normalCdf (d1 - w))
    let ckk := df t * (phi (d1 - w) / (k * w) * ((1 + k * d1 * (vk * Real.sqrt t)) ^ 2 +
      k ^ 2 * w * (vkk * Real.sqrt t - d1 * (vk * Real.sqrt t) ^ 2)))
    SmoothAt (lvOptionPrice theta df spot0 q) t k ct ck ckk := by
  intro r w d1 ct ck ckk
  obtain ⟨u1, h1, h2, h3, h4⟩ := hsm
  subst h2
  have hF : 0 < lvForward df spot0 q t := by unfold lvForward; positivity
  have hst : 0 < Real.sqrt t := Real.sqrt_pos.2 ht
  refine ⟨fun y => df t * (y * phi (blackD1 (lvForward df spot0 q t) y (theta t y * Real.sqrt t) - theta t y * Real.sqrt t) *
    (u1 y * Real.sqrt t) - normalCdf (blackD1 (lvForward df spot0 q t) y (theta t y * Real.sqrt t) - theta t y * Real.sqrt t)),
    ?_, rfl, ?_, ?_⟩
  · have c : ∀ᶠ y in 𝓝 k, 0 < theta t y := h1.self_of_nhds.continuousAt.eventually (lt_mem_nhds hv)
    filter_upwards [h1, lt_mem_nhds hk, c.eventually_nhds] with y hy pk pv
    have := (dupireCall_hasDerivAt (hasDerivAt_const y (lvForward df spot0 q t)) (hasDerivAt_id y) (hy.mul_const (Real.sqrt t)) hF pk
      (by have := pv.self_of_nhds; positivity)).const_mul (df t)
    refine (this.congr_of_eventuallyEq ?_).congr_deriv ?_
    · filter_upwards [pv] with z hz
      rw [lvOptionPrice_eq theta df spot0 q t z ht hdf hz]
      rfl
    · simp only [id]
      ring
  · exact (dupireCall_strike (w := fun y => theta t y * Real.sqrt t) (w1 := fun y => u1 y * Real.sqrt t)
      (h1.self_of_nhds.mul_const _) (h3.mul_const _) hF hk (by positivity)).const_mul (df t)
  · have c1 : ∀ᶠ x in 𝓝 t, 0 < theta x k := h4.continuousAt.eventually (lt_mem_nhds hv)
    have c2 : ∀ᶠ x in 𝓝 t, 0 < df x := hd.continuousAt.eventually (lt_mem_nhds hdf)
    have hr : d = -r * df t := by
      have := lvRate_eq df t d hd hdf
      show d = -lvRiskFreeRate df t * df t
      rw [this]; field_simp
    have hFd : HasDerivAt (fun x => lvForward df spot0 q x) ((r - q) * lvForward df spot0 q t) t := by
      have e := (((hasDerivAt_id t).const_mul (-q)).exp.const_mul spot0).div hd hdf.ne'
      refine e.congr_deriv ?_
      unfold lvForward
      simp only [id]
      rw [hr]
      field_simp
      ring
    have hwd := h4.mul (Real.hasDerivAt_sqrt ht.ne')
    have := hd.mul (dupireCall_hasDerivAt hFd (hasDerivAt_const t k) hwd hF hk (by show 0 < theta t k * Real.sqrt t; positivity))
    refine (this.congr_of_eventuallyEq ?_).congr_deriv ?_
    · filter_upwards [c1, c2, lt_mem_nhds ht] with x a b e
      rw [lvOptionPrice_eq theta df spot0 q x k e b a]
      rfl
    · show d * dupireCall (lvForward df spot0 q t) k (theta t k * Real.sqrt t) + _ = ct
      simp only [ct, r, lvOptionPrice_eq theta df spot0 q t k ht hdf hv]
      rw [hr]
      simp only [Pi.mul_apply, d1, w, r]
      ring

theorem smoothAt_deriv {u : ℝ → ℝ → ℝ} {t k ut uk ukk : ℝ} (h : SmoothAt u t k ut uk ukk) :
    deriv (fun x => u x k) t = ut ∧ deriv (fun y => u t y) k = uk ∧ deriv (fun x => deriv (fun y => u t y) x) k = ukk := by
  obtain ⟨u1, h1, h2, h3, h4⟩ := h
  refine ⟨h4.deriv, by rw [h1.self_of_nhds.deriv, h2], ?_⟩
  refine (h3.congr_of_eventuallyEq ?_).deriv
  filter_upwards [h1] with y hy using hy.deriv

/-- The local volatility computed from prices makes the call prices satisfy Dupire's equation, wherever they are convex in the strike and
the calendar condition holds. -/
theorem C95_dupire (theta : ℝ → ℝ → ℝ) (df : ℝ → ℝ) (spot0 q t k ct ck ckk : ℝ) (hk : 0 < k)
    (hsm : SmoothAt (lvOptionPrice theta df spot0 q) t k ct ck ckk) (hconvex : 0 < ckk)
    (hcalendar : 0 ≤ ct + (lvRiskFreeRate df t - q) * k * ck + q * lvOptionPrice theta df spot0 q t k) :
    DupireAt (lvOptionPrice theta df spot0 q) (lvRiskFreeRate df t) q (dupirePrices theta df spot0 q t k ^ 2) t k := by
  refine ⟨ct, ck, ckk, hsm, ?_⟩
  obtain ⟨e1, e2, e3⟩ := smoothAt_deriv hsm
  have hnn : 0 ≤ 2 * ((ct + (lvRiskFreeRate df t - q) * k * ck + q * lvOptionPrice theta df spot0 q t k) / (ckk * k ^ 2)) := by positivity
  unfold dupirePrices
  simp only [e1, e2, e3]
  rw [Real.sq_sqrt (le_max_right _ _), max_eq_left hnn]
  field_simp
  ring

/-- In terms of the implied volatility surface, the local volatility computed from prices is the square root of the positive part of
Dupire's local variance for the forward price of the discount curve. -/
theorem C95_prices (theta : ℝ → ℝ → ℝ) (df : ℝ → ℝ) (spot0 q t k vt vk vkk d : ℝ) (hs : 0 < spot0) (ht : 0 < t) (hk : 0 < k)
    (hv : 0 < theta t k) (hdf : 0 < df t) (hd : HasDerivAt df d t) (hsm : SmoothAt theta t k vt vk vkk) :
    dupirePrices theta df spot0 q t k =
      Real.sqrt (max (impliedLocalVariance (-d / df t) q (spot0 * Real.exp (-q * t) / df t) (theta t k) vt vk vkk t k) 0) := by
  obtain ⟨e1, e2, e3⟩ := smoothAt_deriv (lvPrice_smooth theta df spot0 q t k vt vk vkk d hs ht hk hv hdf hd hsm)
  unfold dupirePrices
  simp only [e1, e2, e3]
  rw [lvOptionPrice_eq theta df spot0 q t k ht hdf hv, ← lvRate_eq df t d hd hdf]
  congr 2
  unfold impliedLocalVariance
  have e4 : Real.log (spot0 * Real.exp (-q * t) / df t / k) / (theta t k * Real.sqrt t) + theta t k * Real.sqrt t / 2 =
      blackD1 (lvForward df spot0 q t) k (theta t k * Real.sqrt t) := rfl
  simp only [e4]
  unfold dupireCall
  generalize blackD1 (lvForward df spot0 q t) k (theta t k * Real.sqrt t) = d1
  have hp := phi_pos (d1 - theta t k * Real.sqrt t)
  generalize phi (d1 - theta t k * Real.sqrt t) = p at *
  generalize normalCdf (d1 - theta t k * Real.sqrt t) = n2
  generalize normalCdf d1 = n1
  generalize lvForward df spot0 q t = f
  generalize lvRiskFreeRate df t = r
  generalize theta t k = v at *
  generalize df t = a at *
  have hst : 0 < Real.sqrt t := Real.sqrt_pos.2 ht
  have hsq := Real.mul_self_sqrt ht.le
  generalize Real.sqrt t = st at *
  subst hsq
  have hden : a * (p / (k * (v * st)) * ((1 + k * d1 * (vk * st)) ^ 2 + k ^ 2 * (v * st) * (vkk * st - d1 * (vk * st) ^ 2))) * k ^ 2 =
      a * p * k / (v * st) * ((1 + k * d1 * st * vk) ^ 2 + k ^ 2 * (st * st) * v * (vkk - d1 * st * vk ^ 2)) := by
    field_simp
  rw [hden]
  have hnum : -r * (a * (f * n1 - k * n2)) + a * ((r - q) * f * n1 + k * p * (vt * st + v / (2 * st))) +
      (r - q) * k * (a * (k * p * (vk * st) - n2)) + q * (a * (f * n1 - k * n2)) =
      a * p * k / (v * st) * ((v ^ 2 + 2 * (st * st) * v * vt + 2 * (r - q) * k * (st * st) * v * vk) / 2) := by
    field_simp
    ring
  rw [hnum, mul_div_mul_left _ _ (by positivity)]
  ring

/-- `d1` of the code that works with implied volatilities is `d1` of Black's formula exactly if the discount factor is that of a flat
curve with the instantaneous rate. -/
theorem C95_d1 (df : ℝ → ℝ) (spot0 q t k v : ℝ) (hs : 0 < spot0) (ht : 0 < t) (hk : 0 < k) (hv : 0 < v) (hdf : 0 < df t) :
    dupireD1 (lvRiskFreeRate df t) q v spot0 t k =
        Real.log (spot0 * Real.exp (-q * t) / df t / k) / (v * Real.sqrt t) + v * Real.sqrt t / 2 ↔
      df t = Real.exp (-lvRiskFreeRate df t * t) := by
  have hst : 0 < Real.sqrt t := Real.sqrt_pos.2 ht
  have e : Real.log (spot0 * Real.exp (-q * t) / df t / k) = Real.log (spot0 / k) - q * t - Real.log (df t) := by
    rw [show spot0 * Real.exp (-q * t) / df t / k = spot0 / k * Real.exp (-q * t) / df t by ring,
      Real.log_div (by positivity) hdf.ne', Real.log_mul (by positivity) (by positivity), Real.log_exp]
    ring
  have h2 : df t = Real.exp (-lvRiskFreeRate df t * t) ↔ Real.log (df t) = -lvRiskFreeRate df t * t := by
    constructor
    · intro h; rw [h, Real.log_exp]
    · intro h; rw [← h, Real.exp_log hdf]
  rw [e, h2]
  unfold dupireD1
  generalize lvRiskFreeRate df t = r
  generalize Real.log (df t) = l
  generalize Real.log (spot0 / k) = x
  have hsq := Real.mul_self_sqrt ht.le
  generalize Real.sqrt t = st at *
  subst hsq
  constructor
  · intro h
    field_simp at h
    linear_combination h / 2
  · intro h
    rw [h]
    field_simp
    ring

/-- Partial: the formula in implied volatilities is Dupire's only for the time 1 or where the surface has no slope in the strike. Missing:
other times, see `C95_time_deviates`, and curves that are not flat, see `C95_curve_deviates`. -/
theorem C95_iv_partial (theta : ℝ → ℝ → ℝ) (df : ℝ → ℝ) (spot0 q t k vt vk vkk d : ℝ) (hs : 0 < spot0) (ht : 0 < t) (hk : 0 < k)
    (hv : 0 < theta t k) (hdf : 0 < df t) (hd : HasDerivAt df d t) (hsm : SmoothAt theta t k vt vk vkk)
    (hcase : vk = 0 ∨ t = 1 ∧ df t = Real.exp (-lvRiskFreeRate df t * t)) :
    dupireIv theta df spot0 q t k = dupirePrices theta df spot0 q t k := by
  rw [C95_prices theta df spot0 q t k vt vk vkk d hs ht hk hv hdf hd hsm, ← lvRate_eq df t d hd hdf]
  obtain ⟨e1, e2, e3⟩ := smoothAt_deriv hsm
  unfold dupireIv
  simp only [e1, e2, e3]
  unfold dupireRatio impliedLocalVariance
  rcases hcase with h | ⟨h, h'⟩
  · subst h
    simp
  · rw [← C95_d1 df spot0 q t k (theta t k) hs ht hk hv hdf] at h'
    rw [← h']
    subst h
    simp

/-- A flat surface is its own local volatility, for every discount curve and by both formulas. -/
theorem C95_flat (v : ℝ) (df : ℝ → ℝ) (spot0 q t k d : ℝ) (hs : 0 < spot0) (ht : 0 < t) (hk : 0 < k)
    (hv : 0 < v) (hdf : 0 < df t) (hd : HasDerivAt df d t) :
    dupireIv (fun _ _ => v) df spot0 q t k = v ∧ dupirePrices (fun _ _ => v) df spot0 q t k = v := by
  have hsm : SmoothAt (fun _ _ => v) t k 0 0 0 :=
    ⟨fun _ => 0, Filter.Eventually.of_forall fun y => hasDerivAt_const y v, rfl, hasDerivAt_const k 0, hasDerivAt_const t v⟩
  have h := C95_iv_partial (fun _ _ => v) df spot0 q t k 0 0 0 d hs ht hk hv hdf hd hsm (Or.inl rfl)
  have h2 := C95_prices (fun _ _ => v) df spot0 q t k 0 0 0 d hs ht hk hv hdf hd hsm
  have h3 : dupirePrices (fun _ _ => v) df spot0 q t k = v := by
    rw [h2]
    unfold impliedLocalVariance
    simp [sq_nonneg, Real.sqrt_sq hv.le]
  exact ⟨h.trans h3, h3⟩

/-- A surface that does not depend on the strike: both formulas give the derivative of the total variance. -/
theorem C95_term (v vt : ℝ → ℝ) (df : ℝ → ℝ) (spot0 q t k d : ℝ) (hs : 0 < spot0) (ht : 0 < t) (hk : 0 < k)
    (hv : 0 < v t) (hvt : HasDerivAt v (vt t) t) (hdf : 0 < df t) (hd : HasDerivAt df d t) (hinc : 0 ≤ v t ^ 2 + 2 * t * v t * vt t) :
    dupireIv (fun t _ => v t) df spot0 q t k ^ 2 = deriv (fun x => v x ^ 2 * x) t ∧
      dupirePrices (fun t _ => v t) df spot0 q t k = dupireIv (fun t _ => v t) df spot0 q t k := by
  have hsm : SmoothAt (fun t _ => v t) t k (vt t) 0 0 :=
    ⟨fun _ => 0, Filter.Eventually.of_forall fun y => hasDerivAt_const y (v t), rfl, hasDerivAt_const k 0, hvt⟩
  have h := C95_iv_partial (fun t _ => v t) df spot0 q t k (vt t) 0 0 d hs ht hk hv hdf hd hsm (Or.inl rfl)
  have h2 := C95_prices (fun t _ => v t) df spot0 q t k (vt t) 0 0 d hs ht hk hv hdf hd hsm
  refine ⟨?_, h.symm⟩
  have hder : HasDerivAt (fun x => v x ^ 2 * x) (v t ^ 2 + 2 * t * v t * vt t) t := by
    refine ((hvt.pow 2).mul (hasDerivAt_id t)).congr_deriv ?_
    simp only [Pi.pow_apply, id]
    ring
  rw [h, h2, hder.deriv, Real.sq_sqrt (le_max_right _ _)]
  unfold impliedLocalVariance
  simp [hinc]

/-- A surface linear in the strike. -/
theorem smoothAt_linear (a b t k : ℝ) : SmoothAt (fun _ y => a + b * (y - 1)) t k 0 b 0 := by
  refine ⟨fun _ => b, Filter.Eventually.of_forall fun y => ?_, rfl, hasDerivAt_const k b, hasDerivAt_const t _⟩
  have := (((hasDerivAt_id y).sub_const 1).const_mul b).const_add a
  simpa using this

/-- Deviation: no rates, spot and strike 1, time 4, implied volatility `1/2 + (k - 1)/10`. The local variance is 25/119, the formula in
implied volatilities gives 25/140: it multiplies `d1` by the time, not by its square root. -/
theorem C95_time_deviates :
    dupirePrices (fun _ y => 1 / 2 + 1 / 10 * (y - 1)) (fun _ => 1) 1 0 4 1 = Real.sqrt (25 / 119) ∧
      dupireIv (fun _ y => 1 / 2 + 1 / 10 * (y - 1)) (fun _ => 1) 1 0 4 1 = Real.sqrt (25 / 140) := by
  have hsm := smoothAt_linear (1 / 2) (1 / 10) 4 1
  have hst : Real.sqrt 4 = 2 := by rw [show (4 : ℝ) = 2 ^ 2 by norm_num, Real.sqrt_sq (by norm_num)]
  constructor
  · rw [C95_prices _ _ 1 0 4 1 0 (1 / 10) 0 0 (by norm_num) (by norm_num) (by norm_num) (by norm_num) (by norm_num)
      (hasDerivAt_const _ _) hsm]
    unfold impliedLocalVariance
    simp only [hst]
    norm_num
  · obtain ⟨e1, e2, e3⟩ := smoothAt_deriv hsm
    unfold dupireIv
    simp only [e1, e2, e3]
    rw [lvRate_eq _ 4 0 (hasDerivAt_const _ _) (by norm_num)]
    unfold dupireRatio dupireD1
    simp only [hst]
    norm_num

/-- Deviation: the discount factor `exp (-t^2)`, spot and strike 1, time 1, implied volatility `1 - (k - 1)/10`. The local variance is
240/283, the formula in implied volatilities gives 48/43: it uses the instantaneous rate 2 in place of the average rate 1. -/
theorem C95_curve_deviates :
    dupirePrices (fun _ y => 1 + -1 / 10 * (y - 1)) (fun t => Real.exp (-t ^ 2)) 1 0 1 1 = Real.sqrt (240 / 283) ∧
      dupireIv (fun _ y => 1 + -1 / 10 * (y - 1)) (fun t => Real.exp (-t ^ 2)) 1 0 1 1 = Real.sqrt (48 / 43) := by
  have hsm := smoothAt_linear 1 (-1 / 10) 1 1
  have hd : HasDerivAt (fun t : ℝ => Real.exp (-t ^ 2)) (-2 * Real.exp (-1 ^ 2)) 1 := by
    refine ((hasDerivAt_pow 2 (1 : ℝ)).neg.exp).congr_deriv ?_
    simp
    ring
  have hq : -(-2 * Real.exp (-1 ^ 2)) / Real.exp (-1 ^ 2) = (2 : ℝ) := by
    have := Real.exp_pos (-1 ^ 2); field_simp
  constructor
  · rw [C95_prices _ _ 1 0 1 1 0 (-1 / 10) 0 _ (by norm_num) (by norm_num) (by norm_num) (by norm_num) (by positivity) hd hsm, hq]
    unfold impliedLocalVariance
    rw [show (1 : ℝ) * Real.exp (-0 * 1) / Real.exp (-1 ^ 2) / 1 = Real.exp 1 by
      rw [show (-1 ^ 2 : ℝ) = -1 by norm_num, Real.exp_neg]; simp, Real.log_exp]
    simp only [Real.sqrt_one]
    norm_num
  · obtain ⟨e1, e2, e3⟩ := smoothAt_deriv hsm
    unfold dupireIv
    simp only [e1, e2, e3]
    rw [lvRate_eq _ 1 _ hd (by positivity), hq]
    unfold dupireRatio dupireD1
    simp only [Real.sqrt_one]
    norm_num

/-- The moneyness under which `from_market_data` files a quote is the logarithm of strike over forward exactly if the discount factor is
that of a flat curve with the instantaneous rate. -/
theorem C95_moneyness (df : ℝ → ℝ) (spot q t k : ℝ) (hs : 0 < spot) (hk : 0 < k) (hdf : 0 < df t) :
    lvLogForwardMoneyness df spot q t k = Real.log (k / (spot * Real.exp (-q * t) / df t)) ↔
      df t = Real.exp (-lvRiskFreeRate df t * t) := by
  have e : Real.log (k / (spot * Real.exp (-q * t) / df t)) = Real.log (k / spot) + q * t + Real.log (df t) := by
    rw [show k / (spot * Real.exp (-q * t) / df t) = k / spot / Real.exp (-q * t) * df t by field_simp,
      Real.log_mul (by positivity) hdf.ne', Real.log_div (by positivity) (by positivity), Real.log_exp]
    ring
  have h2 : df t = Real.exp (-lvRiskFreeRate df t * t) ↔ Real.log (df t) = -lvRiskFreeRate df t * t := by
    constructor
    · intro h; rw [h, Real.log_exp]
    · intro h; rw [← h, Real.exp_log hdf]
  rw [e, h2]
  unfold lvLogForwardMoneyness
  constructor <;> intro h <;> linear_combination -h

/-- Deviation: the precomputed version uses at a grid time after the first the volatilities of the grid time before it, and the same row up
to and including the next grid time. -/
theorem C95_precomputed_row (grid : List ℝ) (hs : grid.Pairwise (· < ·)) (i : Nat) (t : ℝ) (hi : i < grid.length)
    (h1 : grid.getD i 0 < t) (h2 : i + 1 < grid.length → t ≤ grid.getD (i + 1) 0) : precomputedRow grid t = i := by
  unfold precomputedRow
  have hs2 : (grid.drop 1).Pairwise (· ≤ ·) := (hs.sublist (List.drop_sublist 1 grid)).imp le_of_lt
  apply searchLeft_eq _ hs2 t i
  · simp only [List.length_drop]; omega
  · intro a h ha
    rw [List.getElem?_drop, show 1 + (i - 1) = i by omega] at ha
    rw [List.getD_eq_getElem?_getD, ha] at h1
    exact h1
  · intro a ha
    rw [List.getElem?_drop, show 1 + i = i + 1 by omega] at ha
    have hlt := (List.getElem?_eq_some_iff.1 ha).1
    have := h2 hlt
    rw [List.getD_eq_getElem?_getD, ha] at this
    exact this

theorem C95_precomputed_stale (grid : List ℝ) (hs : grid.Pairwise (· < ·)) (i : Nat) (t : ℝ) (h : grid[i + 1]? = some t) :
    precomputedRow grid t = i := by
  have hlt := (List.getElem?_eq_some_iff.1 h).1
  have hv := (List.getElem?_eq_some_iff.1 h).2
  refine C95_precomputed_row grid hs i t (by omega) ?_ ?_
  · rw [List.getD_eq_getElem?_getD, List.getElem?_eq_getElem (by omega)]
    rw [← hv]
    exact List.pairwise_iff_getElem.1 hs i (i + 1) (by omega) hlt (by omega)
  · intro _
    rw [List.getD_eq_getElem?_getD, h]
    rfl

/-- Deviation, concretely: the implied volatility `1 + t`, grid times 0 and 1. At the time 1 the local variance is 8, the precomputed
version gives 3. -/
theorem C95_precomputed_deviates (spot0 k : ℝ) (hs : 0 < spot0) (hk : 0 < k) :
    dupireIv (fun t _ => 1 + t) (fun _ => 1) spot0 0 1 k = Real.sqrt 8 ∧
      dupireIvPrecomputed [0, 1] (fun i _ => 1 + [0, 1].getD i 0) (fun _ _ => 1) (fun _ => 1) spot0 0 1 k = Real.sqrt 3 := by
  have hr : lvRiskFreeRate (fun _ => 1) 1 = 0 := by rw [lvRate_eq _ 1 0 (hasDerivAt_const _ _) (by norm_num)]; norm_num
  constructor
  · have hd : deriv (fun t : ℝ => 1 + t) 1 = 1 := by
      have := (hasDerivAt_id (1 : ℝ)).const_add 1
      exact this.deriv
    unfold dupireIv
    simp only [hd, hr, deriv_const]
    unfold dupireRatio
    norm_num
  · have hrow : precomputedRow [(0 : ℝ), 1] 1 = 0 := C95_precomputed_stale [0, 1] (by norm_num) 0 1 rfl
    unfold dupireIvPrecomputed
    simp only [hrow, hr, deriv_const]
    unfold dupireRatio
    norm_num

/-- If the tables hold the implied volatilities of the grid times, the precomputed version at a time `t` evaluates the same quotient, at
the time `t`, with the volatilities of row `i`. -/
theorem C95_precomputed (theta : ℝ → ℝ → ℝ) (grid : List ℝ) (rows rowsT : Nat → ℝ → ℝ) (df : ℝ → ℝ) (spot0 q t k : ℝ) (i : Nat)
    (hrow : precomputedRow grid t = i) (h1 : rows i = theta t) (h2 : rowsT i k = deriv (fun x => theta x k) t) :
    dupireIvPrecomputed grid rows rowsT df spot0 q t k = dupireIv theta df spot0 q t k := by
  unfold dupireIvPrecomputed dupireIv
  simp only [hrow, h1, h2]

/-- The asset price grows at the rate minus the dividend yield: the drift of the logarithm plus half the squared length of the volatility
row. -/
theorem C95_martingale (localVol : ℝ → ℝ → ℝ) (r q : ℝ → ℝ) (row : List ℝ) (t x : ℝ) (hrow : (row.map (fun c => c ^ 2)).sum = 1) :
    lvDrift localVol r q t x + ((lvVol localVol row t x).map (fun c => c ^ 2)).sum / 2 = r t - q t := by
  unfold lvDrift lvVol
  have : ∀ l : List ℝ, (((l.map (fun c => localVol t (Real.exp x) * c))).map (fun c => c ^ 2)).sum =
      localVol t (Real.exp x) ^ 2 * (l.map (fun c => c ^ 2)).sum := by
    intro l
    induction l with
    | nil => simp
    | cons a l ih => simp only [List.map_cons, List.sum_cons, ih]; ring
  simp only [this, hrow]
  ring

/-- The instantaneous correlation of two assets is the product of their rows of the Cholesky factor. -/
theorem C95_correlation (lv1 lv2 : ℝ → ℝ → ℝ) (row1 row2 : List ℝ) (t x y : ℝ) :
    (List.zipWith (fun a b => a * b) (lvVol lv1 row1 t x) (lvVol lv2 row2 t y)).sum =
      lv1 t (Real.exp x) * lv2 t (Real.exp y) * (List.zipWith (fun a b => a * b) row1 row2).sum := by
  unfold lvVol
  induction row1 generalizing row2 with
  | nil => simp
  | cons a l ih =>
    cases row2 with
    | nil => simp
    | cons b m =>
      have := ih m
      simp only [List.map_cons, List.zipWith_cons_cons, List.sum_cons] at this ⊢
      rw [this]; ring

/-- The precomputed model always samples on its own grid and rejects every other choice. -/
theorem C95_sample_grid {A B C : Type} (grid : Option C) (a : Option A) (b : Option B) (c : Option C) (g : Option C) :
    (lvSampleGrid true grid a b c = .ok g ↔ (a = none ∧ b = none ∧ c = none) ∧ g = grid) ∧ lvSampleGrid false grid a b c = .ok c := by
  unfold lvSampleGrid
  cases a <;> cases b <;> cases c <;> simp [eq_comm]

/-- The rate of a flat curve. -/
theorem C95_rate (r t : ℝ) : lvRiskFreeRate (fun t => Real.exp (-r * t)) t = r := by
  unfold lvRiskFreeRate
  simp only [Real.log_exp]
  have : HasDerivAt (fun x : ℝ => -(-r * x)) r t := by
    refine (((hasDerivAt_id t).const_mul (-r)).neg).congr_deriv ?_
    simp
  exact this.deriv

/-- A flat volatility of 20% on a curve with the rate 5%. -/
example : dupireIv (fun _ _ => 1 / 5) (fun t => Real.exp (-(1 / 20) * t)) 100 0 2 110 = 1 / 5 :=
  (C95_flat (1 / 5) _ 100 0 2 110 _ (by norm_num) (by norm_num) (by norm_num) (by norm_num) (by positivity)
    (((hasDerivAt_id (2 : ℝ)).const_mul (-(1 / 20))).exp)).1

example : precomputedRow [(0 : ℚ), 1 / 2, 1] (1 / 2) = 0 ∧ precomputedRow [(0 : ℚ), 1 / 2, 1] (3 / 4) = 1 := by decide +kernel

example : (lvSampleGrid true (some [0, 1]) (some (1 : ℚ)) (none : Option Nat) (none : Option (List Nat))).isOk = false := rfl

end Props
