import Verif.Lemmas.CmsSwap
import Verif.Model.CmsSwap
import Verif.Props.VanillaPrices
import Verif.Props.Milstein
import Verif.Props.Pad
import Verif.Lemmas.Schedules
import Verif.Lemmas.AndersenLake
import Mathlib.Algebra.BigOperators.Field
import Mathlib.Algebra.BigOperators.Fin
import Mathlib.Algebra.Field.GeomSum
import Mathlib.Algebra.BigOperators.Intervals

/-!
# C101: constant maturity swaps
-/

namespace Props
open Model Model.Instruments Spec Lemmas MeasureTheory Set
open scoped BigOperators

theorem affine_normalExpectation (m s a b c : ℝ) : normalExpectation m s (fun x => a + b * x + c * x ^ 2) = a + b * m + c * (m ^ 2 + s ^ 2) := by
  have h := normalExpectation_std m s (fun x => a + b * x + c * x ^ 2) (by fun_prop)
  have h0 := normalExpectation_std 0 1 (fun z => (a + b * m + c * m ^ 2) + (b * s + 2 * c * m * s) * z + (c * s ^ 2) * z ^ 2) (by fun_prop)
  rw [normalExpectation_quadratic] at h0
  rw [h]
  have : (fun z => phi z * (a + b * (m + s * z) + c * (m + s * z) ^ 2)) =
      fun z => phi z * ((a + b * m + c * m ^ 2) + (b * s + 2 * c * m * s) * (0 + 1 * z) + (c * s ^ 2) * (0 + 1 * z) ^ 2) := by
    funext z
    ring
  rw [this, ← h0]
  ring

theorem affine_lognormalExpectation (m s a b c : ℝ) (hm : 0 < m) :
    lognormalExpectation m s (fun x => a + b * x + c * x ^ 2) = a + b * m + c * (m ^ 2 * Real.exp (s ^ 2)) := by
  unfold lognormalExpectation
  rw [normalExpectation_std _ _ (fun x => a + b * Real.exp x + c * Real.exp x ^ 2) (by fun_prop)]
  have hX : ∀ z, Real.exp (Real.log m - s ^ 2 / 2 + s * z) = m * Real.exp (s * z - s ^ 2 / 2) := by
    intro z
    rw [show Real.log m - s ^ 2 / 2 + s * z = Real.log m + (s * z - s ^ 2 / 2) by ring, Real.exp_add, Real.exp_log hm]
  have hX2 : ∀ z, (m * Real.exp (s * z - s ^ 2 / 2)) ^ 2 = m ^ 2 * Real.exp (s ^ 2) * Real.exp (2 * s * z - (2 * s) ^ 2 / 2) := by
    intro z
    rw [mul_pow, ← Real.exp_nat_mul, mul_assoc, ← Real.exp_add]
    congr 2
    push_cast
    ring
  have : (fun z => phi z * (a + b * Real.exp (Real.log m - s ^ 2 / 2 + s * z) + c * Real.exp (Real.log m - s ^ 2 / 2 + s * z) ^ 2)) =
      fun z => (a * phi z + b * (phi z * (m * Real.exp (s * z - s ^ 2 / 2)))) +
        c * (phi z * (m ^ 2 * Real.exp (s ^ 2) * Real.exp (2 * s * z - (2 * s) ^ 2 / 2))) := by
    funext z
    rw [hX, hX2]
    ring
  have i1 : Integrable (fun z => a * phi z) := phi_integrable.const_mul a
  have i2 : Integrable (fun z => b * (phi z * (m * Real.exp (s * z - s ^ 2 / 2)))) := (lognormal_integrable m s).const_mul b
  have i12 : Integrable (fun z => a * phi z + b * (phi z * (m * Real.exp (s * z - s ^ 2 / 2)))) := i1.add i2
  have i3 : Integrable (fun z => c * (phi z * (m ^ 2 * Real.exp (s ^ 2) * Real.exp (2 * s * z - (2 * s) ^ 2 / 2)))) := (lognormal_integrable _ (2 * s)).const_mul c
  rw [this, integral_add i12 i3, integral_add i1 i2, integral_const_mul, integral_const_mul, integral_const_mul,
    phi_integral, lognormal_mean, lognormal_mean]
  ring

/-- C101. The weight of the rate is one over the annuity of the swap at a flat rate, discounted to the payment, also at the rate zero. -/
theorem C101_weight (tau delta s : ℝ) (n : Nat) (ht : 0 < tau) (hs : 0 ≤ s) :
    cmsFs tau n delta s = 1 / (flatAnnuity tau s n * (1 + tau * s) ^ (delta / tau)) := by
  unfold cmsFs
  have hpos : 0 < 1 + tau * s := by positivity
  have hg : (if s = 0 then tau * (n : ℝ) else 1 / s * (1 - 1 / (1 + tau * s) ^ (n : ℝ))) = flatAnnuity tau s n := by
    unfold flatAnnuity
    split_ifs with h
    · simp [h, mul_comm]
    · rw [Real.rpow_natCast]
      clear hs
      induction n with
      | zero => simp
      | succ n ih =>
        rw [Finset.sum_range_succ, ← ih]
        obtain ⟨y, hy⟩ : ∃ y, y = 1 + tau * s := ⟨_, rfl⟩
        rw [← hy] at hpos ⊢
        have htau : tau = (y - 1) / s := by
          field_simp
          linarith
        rw [htau]
        field_simp
        ring
  simp only [hg]

/-- C101. With the terms of the swap in months or years: if the tenor has `n` periods of the fixed leg, the weight is the one of a swap with `n` coupons that is paid after one
period of the coupons. -/
theorem C101_weight_terms (frequency fixedFrequency tenor : Period) (s : ℝ) (n : Nat) (hf : 0 < termToYears fixedFrequency) (hn : termToYears tenor = n * termToYears fixedFrequency)
    (hs : 0 ≤ s) : cmsWeight frequency fixedFrequency tenor s = 1 / (flatAnnuity (termToYears fixedFrequency) s n *
      (1 + termToYears fixedFrequency * s) ^ (termToYears frequency / termToYears fixedFrequency)) := by
  unfold cmsWeight
  rw [hn, mul_div_cancel_right₀ _ hf.ne']
  exact C101_weight _ _ s n hf hs

/-- Ten years with coupons every six months. -/
example : termToYears ⟨10, .YEAR⟩ = (20 : Nat) * termToYears ⟨6, .MONTH⟩ ∧ 0 < termToYears ⟨6, .MONTH⟩ := by
  norm_num [termToYears, show ¬(PeriodType.YEAR = PeriodType.MONTH) by decide]

/-- A swap of two years with annual coupons, at a rate of 5 % paid after one year. -/
example : cmsFs 1 2 1 (1 / 20) = 1 / ((1 / (21 / 20) + 1 / (21 / 20) ^ 2) * (21 / 20)) := by
  have h := C101_weight 1 1 (1 / 20) 2 (by norm_num) (by norm_num)
  norm_num [flatAnnuity, Finset.sum_range_succ] at h ⊢
  exact h

/-- C101. The convexity adjustment of the two simple models is the exact rate in the payment measure if the weight of the rate is affine with value
`discount / level` at the par rate: for a lognormal and for a normal rate. -/
theorem C101_convexity {n : Nat} (a b vol : ℝ) (expiries levels discounts rates : Fin n → ℝ) (k : Fin n) (hr : 0 < rates k) (he : 0 ≤ expiries k)
    (hL : levels k ≠ 0) (hD : discounts k ≠ 0) (hw : a + b * rates k = discounts k / levels k) :
    cmsAdjust .lognormalRate (fun s => a + b * s) vol expiries levels discounts rates k =
      .ok (some (cmsRate (lognormalExpectation (rates k) (vol * Real.sqrt (expiries k))) (fun s => a + b * s))) ∧
    cmsAdjust .normalRate (fun s => a + b * s) vol expiries levels discounts rates k =
      .ok (some (cmsRate (normalExpectation (rates k) (vol * Real.sqrt (expiries k))) (fun s => a + b * s))) := by
  have hd : deriv (fun s : ℝ => a + b * s) (rates k) = b := by
    have : HasDerivAt (fun s : ℝ => a + b * s) b (rates k) := by simpa using ((hasDerivAt_id (rates k)).const_mul b).const_add a
    exact this.deriv
  have hs : (vol * Real.sqrt (expiries k)) ^ 2 = vol ^ 2 * expiries k := by rw [mul_pow, Real.sq_sqrt he]
  have hq : (fun s : ℝ => s * (a + b * s)) = fun s => 0 + a * s + b * s ^ 2 := by
    funext s
    ring
  have hl : (fun s : ℝ => a + b * s) = fun s => a + b * s + 0 * s ^ 2 := by
    funext s
    ring
  have hne : a + b * rates k ≠ 0 := by
    rw [hw]
    exact div_ne_zero hD hL
  have hw' : (a + b * rates k) * levels k = discounts k := by rw [hw, div_mul_cancel₀ _ hL]
  constructor
  · simp only [cmsAdjust, if_neg hr.ne', Option.map_some, hd]
    refine congrArg Except.ok (congrArg some ?_)
    unfold cmsRate
    rw [hq]
    conv_rhs => rw [hl]
    rw [affine_lognormalExpectation _ _ _ _ _ hr, affine_lognormalExpectation _ _ _ _ _ hr, hs, ← hw']
    obtain ⟨W, hW⟩ : ∃ W, W = a + b * rates k := ⟨_, rfl⟩
    have ha : a = W - b * rates k := by linarith
    rw [← hW] at hne
    rw [ha, zero_mul, add_zero, sub_add_cancel]
    field_simp
    ring
  · simp only [cmsAdjust, if_neg hr.ne', Option.map_some, hd]
    refine congrArg Except.ok (congrArg some ?_)
    unfold cmsRate
    rw [hq]
    conv_rhs => rw [hl]
    rw [affine_normalExpectation, affine_normalExpectation, hs, ← hw']
    obtain ⟨W, hW⟩ : ∃ W, W = a + b * rates k := ⟨_, rfl⟩
    have ha : a = W - b * rates k := by linarith
    rw [← hW] at hne
    rw [ha, zero_mul, add_zero, sub_add_cancel]
    field_simp
    ring

/-- A weight `1 + 2 s` at a rate of 50 %, one year, volatility 20 %: the mean of `s * (1 + 2 s)` over that of `1 + 2 s` is `(1 / 2 + 2 * (1 / 4 + 1 / 25)) / 2`. -/
example : cmsAdjust (n := 1) .normalRate (fun s => 1 + 2 * s) (1 / 5) (fun _ => 1) (fun _ => 1 / 4) (fun _ => 1 / 2) (fun _ => 1 / 2) 0 = .ok (some (27 / 50)) := by
  rw [(C101_convexity (n := 1) 1 2 (1 / 5) (fun _ => 1) (fun _ => 1 / 4) (fun _ => 1 / 2) (fun _ => 1 / 2) 0 (by norm_num) (by norm_num) (by norm_num)
    (by norm_num) (by norm_num)).2]
  refine congrArg Except.ok (congrArg some ?_)
  unfold cmsRate
  rw [show (fun s : ℝ => s * (1 + 2 * s)) = fun s => 0 + 1 * s + 2 * s ^ 2 by funext s; ring,
    show (fun s : ℝ => 1 + 2 * s) = fun s => 1 + 2 * s + 0 * s ^ 2 by funext s; ring, affine_normalExpectation, affine_normalExpectation, Real.sqrt_one]
  norm_num

/-- C101. The option prices are the expectations of the payoffs in the two models, and the payoff itself at expiry. -/
theorem C101_option_price (vol strike forward expiry : ℝ) (isCall : Bool) (hv : 0 < vol) :
    (0 < expiry → cmsOptionPrice vol strike forward expiry isCall true =
      .ok (normalExpectation forward (Real.sqrt expiry * vol) (vanillaPayoff isCall strike))) ∧
    (0 < expiry → 0 < forward → 0 < strike → cmsOptionPrice vol strike forward expiry isCall false =
      .ok (lognormalExpectation forward (vol * Real.sqrt expiry) (vanillaPayoff isCall strike))) ∧
    (expiry ≤ 0 → ∀ isNormal, cmsOptionPrice vol strike forward expiry isCall isNormal = .ok (vanillaPayoff isCall strike forward)) := by
  have hok : ∀ e, ∃ x, optionPrice { volatility := vol, strike := strike, expiry := e, forward := some forward, isCall := some isCall } = .ok x := by
    intro e
    unfold optionPrice bsCheck
    exact ⟨_, rfl⟩
  refine ⟨fun he => ?_, fun he hf hk => ?_, fun he b => ?_⟩
  · obtain ⟨x, hx⟩ := hok expiry
    have hs : 0 < Real.sqrt expiry * vol := mul_pos (Real.sqrt_pos.2 he) hv
    have hphi : ∀ d : ℝ, Real.exp (-(1 / 2) * d ^ 2) / Real.sqrt (2 * Real.pi) = phi d := by
      intro d
      have := phi_code d 1
      rw [one_mul, one_mul] at this
      rw [← this]
      norm_num
    simp only [cmsOptionPrice, hx, bind, Except.bind, pure, Except.pure, gt_iff_lt, he, if_true, hphi, ncdf_eq]
    refine congrArg Except.ok ?_
    cases isCall
    · rw [normalExpectation_kink (vanilla_kink_put strike) hs, normalCdf_neg]
      simp
      ring
    · rw [normalExpectation_kink (vanilla_kink_call strike) hs]
      simp
      ring
  · have h := C31_expectation { volatility := vol, strike := strike, expiry := expiry, forward := some forward, isCall := some isCall }
      ⟨by simp, by simp, hv.le, he.le, by simp⟩ (fun _ => ⟨hf, hk⟩)
    simp only [cmsOptionPrice, h, bind, Except.bind, pure, Except.pure, gt_iff_lt, he, if_true]
    simp [Spec.discount, Spec.expectation, Spec.forward, Spec.stdDev]
  · obtain ⟨x, hx⟩ := hok expiry
    simp only [cmsOptionPrice, hx, bind, Except.bind, pure, Except.pure, gt_iff_lt, not_lt.2 he, if_false]
    cases isCall <;> simp [vanillaPayoff]

/-- At the money a call and a put have the same price. -/
theorem cms_at_the_money (vol forward expiry : ℝ) (isNormal : Bool) :
    ∃ x, cmsOptionPrice vol forward forward expiry true isNormal = .ok x ∧ cmsOptionPrice vol forward forward expiry false isNormal = .ok x := by
  have hp : ∀ b : Bool, optionPrice { volatility := vol, strike := forward, expiry := expiry, forward := some forward, isCall := some b } =
      optionPrice { volatility := vol, strike := forward, expiry := expiry, forward := some forward, isCall := some true } := by
    intro b
    unfold optionPrice bsCheck
    cases b <;> simp [bsForward, bsDiscounting]
  have hok : ∃ x, optionPrice { volatility := vol, strike := forward, expiry := expiry, forward := some forward, isCall := some true } = .ok x := by
    unfold optionPrice bsCheck
    exact ⟨_, rfl⟩
  obtain ⟨x, hx⟩ := hok
  have hx' := (hp false).trans hx
  simp only [cmsOptionPrice, hx, hx', bind, Except.bind, pure, Except.pure]
  cases isNormal <;> simp

/-- C101. The replication is the rate with the two integrals of options; the term with the first derivative cancels, since a call and a put at the money are
worth the same. -/
theorem C101_replication {n : Nat} (fs : ℝ → ℝ) (isNormal : Bool) (vol : ℝ) (expiries rates : Fin n → ℝ) (k : Fin n) (hr : 0 < rates k)
    (c p : ℝ → ℝ) (hc : ∀ x, cmsOptionPrice vol x (rates k) (expiries k) true isNormal = .ok (c x))
    (hp : ∀ x, cmsOptionPrice vol x (rates k) (expiries k) false isNormal = .ok (p x)) :
    ∃ ic ip, simpson (fun x => deriv (deriv (fun s => fAtm fs s (rates k))) x * c x) (rates k) (2000 * rates k) 10001 = .ok ic ∧
      simpson (fun x => deriv (deriv (fun s => fAtm fs s (rates k))) x * p x) (1 / 1000000) (rates k) 10001 = .ok ip ∧
      cmsReplication fs isNormal vol expiries rates k = .ok (some (rates k + ic + ip)) := by
  have hs : ∀ f : ℝ → ℝ, ∀ a b, ∃ v, simpson f a b 10001 = .ok v := by
    intro f a b
    unfold simpson
    rw [if_neg (by norm_num), if_neg (by norm_num)]
    exact ⟨_, rfl⟩
  obtain ⟨ic, hic⟩ := hs (fun x => deriv (deriv (fun s => fAtm fs s (rates k))) x * c x) (rates k) (2000 * rates k)
  obtain ⟨ip, hip⟩ := hs (fun x => deriv (deriv (fun s => fAtm fs s (rates k))) x * p x) (1 / 1000000) (rates k)
  refine ⟨ic, ip, hic, hip, ?_⟩
  obtain ⟨y, hy1, hy2⟩ := cms_at_the_money vol (rates k) (expiries k) isNormal
  have e1 : (cmsIntegrand fs (fun x => cmsOptionValue vol x (rates k) (expiries k) true isNormal) (rates k)) =
      fun x => deriv (deriv (fun s => fAtm fs s (rates k))) x * c x := by
    funext x
    simp only [cmsIntegrand, cmsOptionValue, hc]
  have e2 : (cmsIntegrand fs (fun x => cmsOptionValue vol x (rates k) (expiries k) false isNormal) (rates k)) =
      fun x => deriv (deriv (fun s => fAtm fs s (rates k))) x * p x := by
    funext x
    simp only [cmsIntegrand, cmsOptionValue, hp]
  unfold cmsReplication
  simp only [e1, e2, zero_add, hic, hip, hy1, hy2, bind, Except.bind, pure, Except.pure, if_neg hr.ne']
  refine congrArg Except.ok (congrArg some ?_)
  ring

/-- C101. Why these integrals: with the exact integrals and the law `mu` of the rate, the options with the second derivative of `_f_atm` as weights give the
rate in the payment measure, if the law lives between the bounds of the integrals. -/
theorem C101_replication_exact (mu : Measure ℝ) [IsProbabilityMeasure mu] (h h' h'' : ℝ → ℝ) (L R U : ℝ) (hLR : L ≤ R) (hRU : R ≤ U)
    (hint : Integrable (fun s : ℝ => s) mu) (hh : Integrable h mu) (hsh : Integrable (fun s => s * h s) mu) (hsupp : ∀ᵐ s ∂mu, s ∈ Icc L U)
    (hmean : ∫ s, s ∂mu = R) (hweight : ∫ s, h s ∂mu = h R) (hR : h R ≠ 0) (hd1 : ∀ u ∈ Icc L U, HasDerivAt h (h' u) u)
    (hd2 : ∀ u ∈ Icc L U, HasDerivAt h' (h'' u) u) (hcont : ContinuousOn h'' (Icc L U)) :
    R + (∫ u in R..U, ((2 * h' u + (u - R) * h'' u) / h R) * ∫ s, max (s - u) 0 ∂mu) +
      (∫ u in L..R, ((2 * h' u + (u - R) * h'' u) / h R) * ∫ s, max (u - s) 0 ∂mu) = cmsRate (fun f => ∫ s, f s ∂mu) h := by
  have hRm : R ∈ Icc L U := ⟨hLR, hRU⟩
  obtain ⟨g, hg⟩ : ∃ g : ℝ → ℝ, ∀ s, g s = fAtm h s R := ⟨_, fun _ => rfl⟩
  obtain ⟨g', hg'⟩ : ∃ g' : ℝ → ℝ, ∀ s, g' s = (h s / h R - 1) + (s - R) * (h' s / h R) := ⟨_, fun _ => rfl⟩
  obtain ⟨g'', hg''⟩ : ∃ g'' : ℝ → ℝ, ∀ u, g'' u = (2 * h' u + (u - R) * h'' u) / h R := ⟨_, fun _ => rfl⟩
  have hs : ∀ u : ℝ, HasDerivAt (fun s : ℝ => s - R) 1 u := fun u => (hasDerivAt_id u).sub_const R
  have d1 : ∀ u ∈ Icc L U, HasDerivAt g (g' u) u := by
    intro u hu
    rw [show g = fun s => (s - R) * (h s / h R - 1) from funext hg, hg']
    refine ((hs u).mul (((hd1 u hu).div_const (h R)).sub_const 1)).congr_deriv ?_
    ring
  have d2 : ∀ u ∈ Icc L U, HasDerivAt g' (g'' u) u := by
    intro u hu
    rw [show g' = fun s => (h s / h R - 1) + (s - R) * (h' s / h R) from funext hg', hg'']
    refine ((((hd1 u hu).div_const (h R)).sub_const 1).add ((hs u).mul ((hd2 u hu).div_const (h R)))).congr_deriv ?_
    field_simp
    ring
  have c1 : ContinuousOn h' (Icc L U) := fun u hu => (hd2 u hu).continuousAt.continuousWithinAt
  have c2 : ContinuousOn g'' (Icc L U) := by
    rw [show g'' = fun u => (2 * h' u + (u - R) * h'' u) / h R from funext hg'']
    fun_prop
  have z1 : g R = 0 := by rw [hg, fAtm]; ring
  have z2 : g' R = 0 := by rw [hg', div_self hR]; ring
  have hb1 : ∀ s u : ℝ, |max (s - u) 0| ≤ |s| + |u| := by
    intro s u
    rw [abs_of_nonneg (le_max_right _ _)]
    exact max_le (by linarith [le_abs_self s, neg_abs_le u]) (by positivity)
  have hb2 : ∀ s u : ℝ, |max (u - s) 0| ≤ |s| + |u| := by
    intro s u
    rw [abs_of_nonneg (le_max_right _ _)]
    exact max_le (by linarith [le_abs_self u, neg_abs_le s]) (by positivity)
  have e1 := replication_swap mu hint g'' (fun s u => max (s - u) 0) R U hRU (c2.mono (Icc_subset_Icc_left hLR)) (by fun_prop) hb1
  have e2 := replication_swap mu hint g'' (fun s u => max (u - s) 0) L R hLR (c2.mono (Icc_subset_Icc_right hRU)) (by fun_prop) hb2
  simp only [← hg'']
  rw [e1.2, e2.2, add_assoc]
  have rep := fun s => option_replication g g' g'' L R U s hLR hRU d1 d2 c2 z1 z2
  rw [← integral_add e1.1 e2.1]
  have e3 : ∫ s, ((∫ u in R..U, g'' u * max (s - u) 0) + ∫ u in L..R, g'' u * max (u - s) 0) ∂mu = ∫ s, (s * h s / h R - R * (h s / h R) - s + R) ∂mu := by
    refine integral_congr_ae ?_
    filter_upwards [hsupp] with s hs
    rw [rep s, tangentExtension, min_eq_right hs.2, max_eq_right hs.1, hg, fAtm]
    ring
  rw [e3]
  have i1 : Integrable (fun s => s * h s / h R) mu := hsh.div_const _
  have i2 : Integrable (fun s => R * (h s / h R)) mu := (hh.div_const _).const_mul _
  have e4 : ∫ s, (s * h s / h R - R * (h s / h R) - s + R) ∂mu = (∫ s, s * h s ∂mu) / h R - R := by
    have i3 : Integrable (fun s => s * h s / h R - R * (h s / h R)) mu := i1.sub i2
    have i4 : Integrable (fun s => s * h s / h R - R * (h s / h R) - s) mu := i3.sub hint
    rw [integral_add i4 (integrable_const _), integral_sub i3 hint, integral_sub i1 i2, integral_div, integral_const_mul, integral_div,
      hweight, hmean, div_self hR]
    simp
  rw [e4, cmsRate, hweight]
  ring

/-- C101. The weight in the code is the one of the exact replication. -/
theorem C101_replication_weight (h h' h'' : ℝ → ℝ) (R u : ℝ) (hd1 : ∀ᶠ w in nhds u, HasDerivAt h (h' w) w) (hd2 : HasDerivAt h' (h'' u) u) (hR : h R ≠ 0) :
    deriv (deriv (fun s => fAtm h s R)) u = (2 * h' u + (u - R) * h'' u) / h R := by
  have hs : ∀ u : ℝ, HasDerivAt (fun s : ℝ => s - R) 1 u := fun u => (hasDerivAt_id u).sub_const R
  have e : deriv (fun s => fAtm h s R) =ᶠ[nhds u] fun s => (h s / h R - 1) + (s - R) * (h' s / h R) := by
    filter_upwards [hd1] with w hw
    refine HasDerivAt.deriv (f := fun s => (s - R) * (h s / h R - 1)) (((hs w).mul ((hw.div_const (h R)).sub_const 1)).congr_deriv ?_)
    ring
  rw [e.deriv_eq]
  refine HasDerivAt.deriv ((((hd1.self_of_nhds.div_const (h R)).sub_const 1).add ((hs u).mul (hd2.div_const (h R)))).congr_deriv ?_)
  field_simp
  ring

theorem mapM_id_none {α : Type} : ∀ l : List (Option α), none ∈ l → l.mapM id = none
  | [], h => by simp at h
  | a :: l, h => by
    rw [List.mapM_cons]
    rcases List.mem_cons.1 h with rfl | h
    · rfl
    · rw [mapM_id_none l h]
      cases a <;> rfl

theorem cmsOptionPrice_total (vol strike forward expiry : ℝ) (isCall isNormal : Bool) : ∃ x, cmsOptionPrice vol strike forward expiry isCall isNormal = .ok x := by
  have hok : ∃ x, optionPrice { volatility := vol, strike := strike, expiry := expiry, forward := some forward, isCall := some isCall } = .ok x := by
    unfold optionPrice bsCheck
    exact ⟨_, rfl⟩
  obtain ⟨x, hx⟩ := hok
  simp only [cmsOptionPrice, hx, bind, Except.bind, pure, Except.pure]
  exact ⟨_, rfl⟩

theorem cmsAdjust_total {n : Nat} (model : CmsModel) (fs : ℝ → ℝ) (vol : ℝ) (expiries levels discounts rates : Fin n → ℝ) (k : Fin n) :
    ∃ x, cmsAdjust model fs vol expiries levels discounts rates k = .ok x ∧ (model ≠ .none → (x = none ↔ rates k = 0)) := by
  have hrep : ∀ b, ∃ x, cmsReplication fs b vol expiries rates k = .ok x ∧ (x = none ↔ rates k = 0) := by
    intro b
    have hs : ∀ f : ℝ → ℝ, ∀ a b, ∃ v, simpson f a b 10001 = .ok v := by
      intro f a b
      unfold simpson
      rw [if_neg (by norm_num), if_neg (by norm_num)]
      exact ⟨_, rfl⟩
    obtain ⟨c, hc⟩ := cmsOptionPrice_total vol (rates k) (rates k) (expiries k) true b
    obtain ⟨p, hp⟩ := cmsOptionPrice_total vol (rates k) (rates k) (expiries k) false b
    obtain ⟨ic, hic⟩ := hs (cmsIntegrand fs (fun x => cmsOptionValue vol x (rates k) (expiries k) true b) (rates k)) (rates k) (2000 * rates k)
    obtain ⟨ip, hip⟩ := hs (cmsIntegrand fs (fun x => cmsOptionValue vol x (rates k) (expiries k) false b) (rates k)) (0 + 1 / 1000000) (rates k)
    unfold cmsReplication
    simp only [hic, hip, hc, hp, bind, Except.bind, pure, Except.pure]
    refine ⟨_, rfl, ?_⟩
    split_ifs with h <;> simp [h]
  cases model
  · exact ⟨_, rfl, fun h => absurd rfl h⟩
  · refine ⟨_, rfl, fun _ => ?_⟩
    by_cases h : rates k = 0 <;> simp [h]
  · refine ⟨_, rfl, fun _ => ?_⟩
    by_cases h : rates k = 0 <;> simp [h]
  · obtain ⟨x, h1, h2⟩ := hrep false
    exact ⟨x, h1, fun _ => h2⟩
  · obtain ⟨x, h1, h2⟩ := hrep true
    exact ⟨x, h1, fun _ => h2⟩

section price
variable {n : Nat} (coupons : Fin n → CmsCoupon) (notional basis multiplier : ℝ) (model : CmsModel) (fs : ℝ → ℝ) (vol : ℝ)
  (valuation : DateT) (discount : DateT → ℝ) (parRates levels : Fin n → ℝ) (swapRate : Option ℝ)

/-- C101. The price is the sum of the values of the coupons at their adjusted rates. -/
theorem C101_price (r : Fin n → ℝ)
    (hr : ∀ k, cmsAdjust model fs vol (fun k => actual365Fixed ℝ valuation (coupons k).start) levels (fun k => discount (coupons k).stop)
      (fun k => cmsCouponRate (coupons k) valuation (parRates k) (swapRate.getD 0)) k = .ok (some (r k))) :
    cmsPrice coupons notional basis multiplier model fs vol valuation discount parRates levels swapRate =
      .ok (some (∑ k, notional * (coupons k).daycount * multiplier * (r k + basis) * discount (coupons k).stop)) := by
  unfold cmsPrice
  dsimp only
  rw [Lemmas.mapM_ok _ (fun k => some (r k)) _ (fun k _ => hr k)]
  have hm : ((List.finRange n).map fun k => some (r k)).mapM id = some ((List.finRange n).map r) := by
    rw [List.mapM_map]
    exact mapM_some _ r _ (fun _ _ => rfl)
  change Except.ok _ = Except.ok _
  refine congrArg Except.ok ?_
  change (do let a ← ((List.finRange n).map fun k => some (r k)).mapM id; _ : Option ℝ) = _
  rw [hm]
  change some _ = some _
  refine congrArg some ?_
  rw [List.zipWith_map_right, List.zipWith_self, ← Fin.sum_univ_def]
  refine Finset.sum_congr rfl fun k _ => ?_
  ring

/-- C101. Without a convexity model and without a basis the price counts the coupons which have not ended before the valuation, a coupon which has begun at the
fixing and the others at the par rates. -/
theorem C101_plain_price_partial (hd : ∀ k, 0 < (coupons k).daycount) :
    cmsPrice coupons notional 0 multiplier .none fs vol valuation discount parRates levels swapRate =
      .ok (some (∑ k, if (coupons k).stop.ordinal < valuation.ordinal then 0 else
        notional * (coupons k).daycount * multiplier * (if (coupons k).start.ordinal < valuation.ordinal then swapRate.getD 0 else parRates k) *
          discount (coupons k).stop)) := by
  rw [C101_price coupons notional 0 multiplier .none fs vol valuation discount parRates levels swapRate _ (fun k => rfl)]
  refine congrArg Except.ok (congrArg some (Finset.sum_congr rfl fun k _ => ?_))
  simp only [cmsCouponRate, couponForward, DateT.lt, gt_iff_lt, hd k, if_true, decide_eq_true_eq, add_zero]
  split_ifs <;> ring

/-- C101. A coupon which ended before the valuation is still counted with the basis. -/
theorem C101_past_basis_deviates (c : CmsCoupon) (h : c.stop.ordinal < valuation.ordinal) (par level : ℝ) :
    cmsPrice (fun _ : Fin 1 => c) notional basis multiplier .none fs vol valuation discount (fun _ => par) (fun _ => level) swapRate =
      .ok (some (notional * c.daycount * multiplier * basis * discount c.stop)) := by
  rw [C101_price (fun _ : Fin 1 => c) notional basis multiplier .none fs vol valuation discount (fun _ => par) (fun _ => level) swapRate _ (fun k => rfl)]
  simp [cmsCouponRate, couponForward, DateT.lt, h]

/-- C101. With a convexity model the price is NaN as soon as a coupon has ended before the valuation (its rate is replaced by zero). -/
theorem C101_past_coupon_nan (hm : model ≠ .none) (k : Fin n) (h : (coupons k).stop.ordinal < valuation.ordinal) :
    cmsPrice coupons notional basis multiplier model fs vol valuation discount parRates levels swapRate = .ok none := by
  obtain ⟨rates, hrates⟩ : ∃ rates : Fin n → ℝ, rates = fun k => cmsCouponRate (coupons k) valuation (parRates k) (swapRate.getD 0) := ⟨_, rfl⟩
  have hk : rates k = 0 := by
    rw [hrates]
    simp [cmsCouponRate, couponForward, DateT.lt, h]
  choose x hx hx' using fun k => cmsAdjust_total model fs vol (fun k => actual365Fixed ℝ valuation (coupons k).start) levels (fun k => discount (coupons k).stop) rates k
  unfold cmsPrice
  simp only [← hrates]
  rw [Lemmas.mapM_ok _ x _ (fun k _ => hx k)]
  change Except.ok _ = Except.ok _
  refine congrArg Except.ok ?_
  change (do let a ← ((List.finRange n).map x).mapM id; _ : Option ℝ) = _
  have hnone : ((List.finRange n).map x).mapM id = none := by
    exact mapM_id_none _ (List.mem_map.2 ⟨k, List.mem_finRange k, (hx' k hm).2 hk⟩)
  rw [hnone]
  rfl

/-- C101. A rate which is already fixed is changed by the convexity adjustment of the simple models, since the time from the valuation to the start of the coupon is
negative: it is kept only if the derivative of the weight or the annuity vanishes. -/
theorem C101_fixed_rate_deviates (expiries discounts rates : Fin n → ℝ) (k : Fin n) (hv : 0 < vol) (hr : 0 < rates k) (he : expiries k < 0) (hD : discounts k ≠ 0) :
    (cmsAdjust .lognormalRate fs vol expiries levels discounts rates k = .ok (some (rates k)) ↔ deriv fs (rates k) = 0 ∨ levels k = 0) ∧
    (cmsAdjust .normalRate fs vol expiries levels discounts rates k = .ok (some (rates k)) ↔ deriv fs (rates k) = 0 ∨ levels k = 0) := by
  have hneg : vol ^ 2 * expiries k < 0 := mul_neg_of_pos_of_neg (by positivity) he
  have h1 : Real.exp (vol ^ 2 * expiries k) - 1 ≠ 0 := by
    have h := Real.exp_lt_exp.2 hneg
    rw [Real.exp_zero] at h
    exact (sub_neg.2 h).ne
  constructor
  · simp [cmsAdjust, hr.ne', hD, h1]
  · simp [cmsAdjust, hr.ne', hD, hv.ne', he.ne]
end price

/-- A coupon of 5 % which began half a year before the valuation, on a swap of two annual periods: the weight has the derivative `1 / (2 + s)^2`, so the rate is changed. -/
example : cmsAdjust (n := 1) .normalRate (fun s => (1 + s) / (2 + s)) (1 / 100) (fun _ => -1 / 2) (fun _ => 2) (fun _ => 1) (fun _ => 1 / 20) 0 ≠ .ok (some (1 / 20)) := by
  have h := (C101_fixed_rate_deviates (fun s => (1 + s) / (2 + s)) (1 / 100) (fun _ : Fin 1 => 2) (fun _ => -1 / 2) (fun _ => 1) (fun _ => 1 / 20) 0
    (by norm_num) (by norm_num) (by norm_num) (by norm_num)).2
  rw [ne_eq, h]
  have hd : HasDerivAt (fun s : ℝ => (1 + s) / (2 + s)) ((1 * (2 + 1 / 20) - (1 + 1 / 20) * 1) / (2 + 1 / 20) ^ 2) (1 / 20) :=
    ((hasDerivAt_id (1 / 20 : ℝ)).const_add 1).div ((hasDerivAt_id (1 / 20 : ℝ)).const_add 2) (by norm_num)
  rw [hd.deriv]
  norm_num

/-- C101. A tenor or frequency in days or weeks counts as zero years. -/
theorem C101_term_years (q : Int) :
    termToYears ⟨q, .YEAR⟩ = q ∧ termToYears ⟨q, .MONTH⟩ = q / 12 ∧ termToYears ⟨q, .DAY⟩ = 0 ∧ termToYears ⟨q, .WEEK⟩ = 0 := by
  refine ⟨by simp [termToYears], ?_, by simp [termToYears], by simp [termToYears]⟩
  simp [termToYears]
  ring

end Props
