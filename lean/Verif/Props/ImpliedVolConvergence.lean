import Verif.Lemmas.DampedNewton
import Verif.Props.ImpliedVol

/-! # C146 When Newton's method finds the implied volatility -/

namespace Spec
open Model Filter Topology

/-- The search for the implied volatility `v` from the start `v0` succeeds: all iterates are positive numbers that tend to
`v`, and with every tolerance and enough iterations the function reports a positive result as converged. -/
structure SearchSucceeds (a : IvArgs) (v0 v : ℝ) : Prop where
  iterates : ∃ x : ℕ → ℝ, (∀ n, newtonIterate (ivObjectiveAndVega a) (some v0) n = some (x n) ∧ 0 < x n) ∧
    Tendsto x atTop (𝓝 v)
  reported : ∀ rel tol : ℝ, 0 ≤ rel → 0 < tol → ∃ N0 : ℕ, ∀ N, N0 ≤ N → ∃ cells c y,
    impliedVolNewton a (some v0) rel tol N = .ok cells ∧ cells[0]? = some c ∧ c.converged = true ∧ c.failed = false ∧
      c.parameter = some y ∧ 0 < y

/-- The square of the standard deviation at which the vega of a lognormal option is largest. -/
noncomputable def inflectionVariance (a : IvArgs) : ℝ := 2 * |Real.log (ivForwardPrice a / a.strike)|

end Spec

namespace Lemmas
open Model Spec Filter Topology Set

/-- The objective and its derivative as real functions. -/
noncomputable def ivF (a : IvArgs) (v : ℝ) : ℝ :=
  (callOf a (v * Real.sqrt a.expiry) + parityOf a - a.price / ivDiscount a) / ivUnit a
noncomputable def ivG (a : IvArgs) (v : ℝ) : ℝ := vegaOf a (v * Real.sqrt a.expiry) * Real.sqrt a.expiry / ivUnit a

variable {a : IvArgs}

theorem ivG_pos (h : ValidIvArgs a) (v : ℝ) : 0 < ivG a v :=
  div_pos (mul_pos (vegaOf_pos h _) (sqrtT_pos h)) ivUnit_pos

theorem ivF_hasDerivAt (h : ValidIvArgs a) {v : ℝ} (hv : 0 < v) : HasDerivAt (ivF a) (ivG a v) v := by
  have hd : HasDerivAt (fun v => v * Real.sqrt a.expiry) (Real.sqrt a.expiry) v := by
    simpa using (hasDerivAt_id v).mul_const (Real.sqrt a.expiry)
  exact ((((callOf_hasDerivAt h (mul_ne_zero hv.ne' (sqrtT_pos h).ne')).comp v hd).add_const (parityOf a)).sub_const
    (a.price / ivDiscount a)).div_const (ivUnit a)

theorem ivF_root (h : ValidIvArgs a) {v : ℝ} (hv : 0 < v) (hp : optionPrice (withVolatility a v) = .ok a.price) :
    ivF a v = 0 := by
  rw [optionPrice_with h hv] at hp
  have hp : ivDiscount a * (callOf a (v * Real.sqrt a.expiry) + parityOf a) = a.price := by injection hp
  have hD := (ivDiscount_pos h).ne'
  unfold ivF
  rw [← hp, mul_div_cancel_left₀ _ hD, sub_self, zero_div]

theorem ivStep_eq (h : ValidIvArgs a) {v : ℝ} (hv : 0 < v) :
    ∃ o g, ivObjectiveAndVega a v = (some o, some g) ∧ g ≠ 0 ∧
      v - o / g = dampedStep (ivF a) (ivG a) (ivDiscount a) v := by
  have hD := ivDiscount_pos h
  refine ⟨_, _, objective_eq h hv.ne', ?_, ?_⟩
  · exact (div_pos (div_pos (mul_pos (vegaOf_pos h _) (sqrtT_pos h)) hD) ivUnit_pos).ne'
  · have hV := (vegaOf_pos h (v * Real.sqrt a.expiry)).ne'
    have hT := (sqrtT_pos h).ne'
    have hu := (ivUnit_pos (a := a)).ne'
    have hD' := hD.ne'
    unfold dampedStep ivF ivG
    field_simp

theorem searchSucceeds_of (h : ValidIvArgs a) {v0 v : ℝ}
    (hpos : ∀ n, 0 < (dampedStep (ivF a) (ivG a) (ivDiscount a))^[n] v0)
    (hlim : Tendsto (fun n => (dampedStep (ivF a) (ivG a) (ivDiscount a))^[n] v0) atTop (𝓝 v)) :
    SearchSucceeds a v0 v := by
  set x : ℕ → ℝ := fun n => (dampedStep (ivF a) (ivG a) (ivDiscount a))^[n] v0 with hx
  have hs : ∀ n, x (n + 1) = dampedStep (ivF a) (ivG a) (ivDiscount a) (x n) :=
    fun n => Function.iterate_succ_apply' _ _ _
  have hit : ∀ n, newtonIterate (ivObjectiveAndVega a) (some v0) n = some (x n) := by
    intro n
    induction n with
    | zero => rfl
    | succ n ih =>
      obtain ⟨o, g, ho, hg, he⟩ := ivStep_eq h (hpos n)
      rw [newtonIterate, ih, Option.bind_some, newtonNext, ho]
      simp only [if_neg hg]
      rw [hs, ← he]
  refine ⟨⟨x, fun n => ⟨hit n, hpos n⟩, hlim⟩, ?_⟩
  intro rel tol hrel htol
  have hdiff : Tendsto (fun n => |x n - x (n + 1)|) atTop (𝓝 0) := by
    have := (hlim.sub (hlim.comp (tendsto_add_atTop_nat 1))).abs
    simpa using this
  obtain ⟨n, hn⟩ := (hdiff.eventually (gt_mem_nhds htol)).exists
  have hsmall : SmallStep rel tol (ivObjectiveAndVega a) (x n) := by
    obtain ⟨o, g, ho, hg, he⟩ := ivStep_eq h (hpos n)
    refine ⟨o, g, ho, hg, ?_⟩
    have : x n - x (n + 1) = o / g := by rw [hs, ← he]; ring
    rw [this] at hn
    have := mul_nonneg hrel (abs_nonneg o)
    linarith
  refine ⟨n + 1, fun N hN => ?_⟩
  obtain ⟨c, hc1, hc2, hc3⟩ := Props.C29_converged rel tol N ([a].map ivObjectiveAndVega) [some v0] rfl 0
    (ivObjectiveAndVega a) (some v0) rfl rfl
  have hconv : c.converged = true := hc2.mpr ⟨n, x n, by omega, hit n, hsmall⟩
  obtain ⟨hfail, j, y, _, hy, hj, _⟩ := hc3 hconv
  refine ⟨_, c, y, ?_, hc1, hconv, hfail, hy, ?_⟩
  · have hck : ivCheck a = .ok () := by
      unfold ivCheck
      rw [if_neg]
      have := h.one
      revert this
      rcases a.spot with _ | _ <;> rcases a.forward with _ | _ <;> simp
    unfold impliedVolNewton
    rw [hck]
    rfl
  · rw [hit j] at hj
    rw [← Option.some.inj hj]
    exact hpos j

theorem phi_le_of_sq {x y : ℝ} (hxy : y ^ 2 ≤ x ^ 2) : phi x ≤ phi y := by
  rw [phi_eq, phi_eq]
  refine mul_le_mul_of_nonneg_left (Real.exp_le_exp.mpr (by linarith)) (inv_nonneg.mpr (Real.sqrt_nonneg _))

theorem ivG_le_of (h : ValidIvArgs a) {u v : ℝ}
    (hs : vegaOf a (u * Real.sqrt a.expiry) ≤ vegaOf a (v * Real.sqrt a.expiry)) : ivG a u ≤ ivG a v :=
  div_le_div_of_nonneg_right (mul_le_mul_of_nonneg_right hs (sqrtT_pos h).le) ivUnit_pos.le

theorem ivG_normal_mono (h : ValidIvArgs a) (hn : a.isNormal = true) : MonotoneOn (ivG a) (Ioi 0) := by
  intro u hu v hv huv
  have hu : 0 < u := hu
  have hT := sqrtT_pos h
  refine ivG_le_of h ?_
  unfold vegaOf
  simp only [hn, if_true]
  apply phi_le_of_sq
  rw [div_pow, div_pow]
  exact div_le_div_of_nonneg_left (sq_nonneg _) (by positivity)
    (pow_le_pow_left₀ (by positivity) (mul_le_mul_of_nonneg_right huv hT.le) 2)

/-- Comparison of the lognormal vega at two standard deviations. -/
theorem logVega_le (h : ValidIvArgs a) (hn : a.isNormal = false) {s t : ℝ} (hs : 0 < s) (ht : 0 < t)
    (hc : 0 ≤ (t ^ 2 - s ^ 2) * (4 * (Real.log (ivForwardPrice a / a.strike)) ^ 2 - s ^ 2 * t ^ 2)) :
    vegaOf a s ≤ vegaOf a t := by
  obtain ⟨hF, hK⟩ := h.positive hn
  unfold vegaOf
  simp only [hn, Bool.false_eq_true, if_false]
  rw [← Real.log_div hF.ne' hK.ne']
  refine mul_le_mul_of_nonneg_left (phi_le_of_sq ?_) hF.le
  generalize Real.log (ivForwardPrice a / a.strike) = m at hc ⊢
  have : (m / s + s / 2) ^ 2 - (m / t + t / 2) ^ 2 =
      (t ^ 2 - s ^ 2) * (4 * m ^ 2 - s ^ 2 * t ^ 2) / (4 * s ^ 2 * t ^ 2) := by
    field_simp
    ring
  have h2 : 0 ≤ (t ^ 2 - s ^ 2) * (4 * m ^ 2 - s ^ 2 * t ^ 2) / (4 * s ^ 2 * t ^ 2) := div_nonneg hc (by positivity)
  linarith

theorem sq_sqrtT (h : ValidIvArgs a) (v : ℝ) : (v * Real.sqrt a.expiry) ^ 2 = v ^ 2 * a.expiry := by
  rw [mul_pow, Real.sq_sqrt h.expiry.le]

theorem inflection_sq : inflectionVariance a ^ 2 = 4 * (Real.log (ivForwardPrice a / a.strike)) ^ 2 := by
  unfold inflectionVariance; rw [mul_pow, sq_abs]; ring

theorem inflection_nonneg : 0 ≤ inflectionVariance a := by unfold inflectionVariance; positivity

/-- Below the inflection the vega increases. -/
theorem ivG_mono_below (h : ValidIvArgs a) (hn : a.isNormal = false) {u v : ℝ} (hu : 0 < u) (huv : u ≤ v)
    (hv : v ^ 2 * a.expiry ≤ inflectionVariance a) : ivG a u ≤ ivG a v := by
  have hT := sqrtT_pos h
  have hE := h.expiry
  have hv0 : 0 < v := hu.trans_le huv
  refine ivG_le_of h (logVega_le h hn (by positivity) (by positivity) ?_)
  rw [sq_sqrtT h, sq_sqrtT h, ← inflection_sq]
  have h1 : u ^ 2 * a.expiry ≤ v ^ 2 * a.expiry :=
    mul_le_mul_of_nonneg_right (pow_le_pow_left₀ hu.le huv 2) hE.le
  have h0 : 0 ≤ u ^ 2 * a.expiry := by positivity
  refine mul_nonneg (by linarith) ?_
  nlinarith

/-- Above the inflection the vega decreases. -/
theorem ivG_anti_above (h : ValidIvArgs a) (hn : a.isNormal = false) {u v : ℝ} (hu : 0 < u) (huv : u ≤ v)
    (hi : inflectionVariance a ≤ u ^ 2 * a.expiry) : ivG a v ≤ ivG a u := by
  have hT := sqrtT_pos h
  have hE := h.expiry
  have hv0 : 0 < v := hu.trans_le huv
  refine ivG_le_of h (logVega_le h hn (by positivity) (by positivity) ?_)
  rw [sq_sqrtT h, sq_sqrtT h, ← inflection_sq]
  have h1 : u ^ 2 * a.expiry ≤ v ^ 2 * a.expiry :=
    mul_le_mul_of_nonneg_right (pow_le_pow_left₀ hu.le huv 2) hE.le
  have h0 := inflection_nonneg (a := a)
  refine mul_nonneg_of_nonpos_of_nonpos (by linarith) ?_
  nlinarith

end Lemmas

namespace Props
open Model Spec Lemmas Filter Topology Set

/-- C146: in the normal model the search succeeds from every positive start, for every price that has an implied
volatility. -/
theorem C146_normal (a : IvArgs) (h : ValidIvArgs a) (hn : a.isNormal = true) (hD : ivDiscount a ≤ 1)
    (v : ℝ) (hv : 0 < v) (hp : optionPrice (withVolatility a v) = .ok a.price) (v0 : ℝ) (hv0 : 0 < v0) :
    SearchSucceeds a v0 v := by
  obtain ⟨h1, h2⟩ := dampedStep_global hv hv0 (ivDiscount_pos h) hD (fun x hx => ivF_hasDerivAt h hx)
    (fun x _ => ivG_pos h x) (ivG_normal_mono h hn) (ivF_root h hv hp)
  exact searchSucceeds_of h h1 h2

/-- C146: the default start of the normal model is positive, so without a start given the search is the one from
`price * sqrt (2 pi)` and succeeds. -/
theorem C146_default (a : IvArgs) (h : ValidIvArgs a) (hn : a.isNormal = true) (hD : ivDiscount a ≤ 1)
    (hb : WithinBounds a) :
    (∃! v, 0 < v ∧ optionPrice (withVolatility a v) = .ok a.price) ∧
    (∀ v, 0 < v → optionPrice (withVolatility a v) = .ok a.price →
      SearchSucceeds a (a.price * Real.sqrt (2 * Real.pi)) v) ∧
    (∀ rel tol N, impliedVolNewton a none rel tol N =
      impliedVolNewton a (some (a.price * Real.sqrt (2 * Real.pi))) rel tol N) := by
  have hpay : 0 ≤ vanillaPayoff (a.isCall.getD true) a.strike (ivForwardPrice a) := by
    unfold vanillaPayoff
    split <;> exact le_max_right _ _
  have hprice : 0 < a.price := (mul_nonneg (ivDiscount_pos h).le hpay).trans_lt hb.1
  refine ⟨(C42_exists_unique a h).1 hb, fun v hv hp => C146_normal a h hn hD v hv hp _ ?_, ?_⟩
  · have := Real.pi_pos
    positivity
  · intro rel tol N
    have he : a.price / (1 / Real.sqrt (2 * Real.pi)) = a.price * Real.sqrt (2 * Real.pi) := by
      rw [one_div, div_inv_eq_mul]
    unfold impliedVolNewton
    simp only [hn, if_true, he]

/-- C146: in the lognormal model the search succeeds from every start between the inflection and the implied volatility,
on either side. -/
theorem C146_lognormal (a : IvArgs) (h : ValidIvArgs a) (hn : a.isNormal = false) (hD : ivDiscount a ≤ 1)
    (v : ℝ) (hv : 0 < v) (hp : optionPrice (withVolatility a v) = .ok a.price) (v0 : ℝ) (hv0 : 0 < v0)
    (hb : (v ≤ v0 ∧ v0 ^ 2 * a.expiry ≤ inflectionVariance a) ∨ (inflectionVariance a ≤ v0 ^ 2 * a.expiry ∧ v0 ≤ v)) :
    SearchSucceeds a v0 v := by
  have hE := h.expiry
  rcases hb with ⟨hle, hi⟩ | ⟨hi, hle⟩
  · obtain ⟨h1, h2⟩ := dampedStep_descend hle (ivDiscount_pos h) hD
      (fun x hx => ivF_hasDerivAt h (hv.trans_le hx.1)) (fun x _ => ivG_pos h x)
      (fun x hx y hy hxy => ivG_mono_below h hn (hv.trans_le hx.1) hxy
        ((mul_le_mul_of_nonneg_right (pow_le_pow_left₀ (hv.trans_le hy.1).le hy.2 2) hE.le).trans hi))
      (ivF_root h hv hp)
    exact searchSucceeds_of h (fun n => hv.trans_le (h1 n).1) h2
  · obtain ⟨h1, h2⟩ := dampedStep_ascend hle (ivDiscount_pos h) hD
      (fun x hx => ivF_hasDerivAt h (hv0.trans_le hx.1)) (fun x _ => ivG_pos h x)
      (fun x hx y hy hxy => ivG_anti_above h hn (hv0.trans_le hx.1) hxy
        (hi.trans (mul_le_mul_of_nonneg_right (pow_le_pow_left₀ hv0.le hx.1 2) hE.le)))
      (ivF_root h hv hp)
    exact searchSucceeds_of h (fun n => hv0.trans_le (h1 n).1) h2

/-- C146: if forward and strike differ, the inflection itself is a start from which the search succeeds for every price
that has an implied volatility. -/
theorem C146_inflection (a : IvArgs) (h : ValidIvArgs a) (hn : a.isNormal = false) (hD : ivDiscount a ≤ 1)
    (hFK : ivForwardPrice a ≠ a.strike) (v : ℝ) (hv : 0 < v) (hp : optionPrice (withVolatility a v) = .ok a.price) :
    SearchSucceeds a (Real.sqrt (inflectionVariance a / a.expiry)) v := by
  obtain ⟨hF, hK⟩ := h.positive hn
  have hE := h.expiry
  have hpos : 0 < inflectionVariance a := by
    have hlog : Real.log (ivForwardPrice a / a.strike) ≠ 0 := by
      rw [Real.log_div hF.ne' hK.ne', sub_ne_zero]
      exact fun he => hFK (Real.log_injOn_pos hF hK he)
    have := abs_pos.mpr hlog
    unfold inflectionVariance
    linarith
  have hsq : Real.sqrt (inflectionVariance a / a.expiry) ^ 2 * a.expiry = inflectionVariance a := by
    rw [Real.sq_sqrt (by positivity), div_mul_cancel₀ _ hE.ne']
  refine C146_lognormal a h hn hD v hv hp _ (Real.sqrt_pos.mpr (by positivity)) ?_
  rcases le_total v (Real.sqrt (inflectionVariance a / a.expiry)) with hle | hle
  · exact Or.inl ⟨hle, hsq.le⟩
  · exact Or.inr ⟨hsq.ge, hle⟩

/-- C146: at the money the search succeeds from every positive start that is not above the implied volatility. -/
theorem C146_at_the_money (a : IvArgs) (h : ValidIvArgs a) (hn : a.isNormal = false) (hD : ivDiscount a ≤ 1)
    (hFK : ivForwardPrice a = a.strike) (v : ℝ) (hv : 0 < v) (hp : optionPrice (withVolatility a v) = .ok a.price)
    (v0 : ℝ) (hv0 : 0 < v0) (hle : v0 ≤ v) : SearchSucceeds a v0 v := by
  obtain ⟨hF, hK⟩ := h.positive hn
  refine C146_lognormal a h hn hD v hv hp v0 hv0 (Or.inr ⟨?_, hle⟩)
  unfold inflectionVariance
  rw [hFK, div_self hK.ne', Real.log_one, abs_zero, mul_zero]
  have := h.expiry
  positivity

/-- A Bachelier call with forward 1, strike 1, two years and price 3, started far away at 1000. -/
example : ∃ v, 0 < v ∧
    SearchSucceeds { price := 3, strike := 1, expiry := 2, forward := some 1, isNormal := true } 1000 v := by
  have h : ValidIvArgs { price := 3, strike := 1, expiry := 2, forward := some 1, isNormal := true } :=
    ⟨by simp, by norm_num, by simp, by simp⟩
  obtain ⟨v, ⟨hv, hp⟩, _⟩ := (C42_exists_unique _ h).1
    ⟨by norm_num [ivDiscount, discount, withVolatility, vanillaPayoff, ivForwardPrice, forward], by simp⟩
  exact ⟨v, hv, C146_normal _ h rfl (by norm_num [ivDiscount, discount, withVolatility]) v hv hp 1000 (by norm_num)⟩

end Props
