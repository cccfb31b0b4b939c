import Verif.Props.HestonOption
import Verif.Lemmas.Attari
import Mathlib.MeasureTheory.Measure.CharacteristicFunction.Basic
import Mathlib.Probability.Distributions.Gaussian.Real

/-! # C82: the formula of Attari, and the prices -/

namespace Props

open Model MeasureTheory Set

namespace Heston

/-- The integrand of the code is an average of the kernel. -/
theorem integrand_eq (law : Measure ℝ) [IsProbabilityMeasure law] (k u : ℝ) :
    attariIntegrand (charFun law) k u = ∫ x, (Real.cos (u * (x - k)) + Real.sin (u * (x - k)) / u) * (1 + u ^ 2)⁻¹ ∂law := by
  have hint : Integrable (fun x : ℝ => Complex.exp (u * x * Complex.I)) law := by
    refine (integrable_const (1 : ℝ)).mono (Continuous.aestronglyMeasurable (by fun_prop)) (ae_of_all _ fun x => ?_)
    have : ((u : ℂ) * x * Complex.I) = ((u * x : ℝ) : ℂ) * Complex.I := by push_cast; ring
    rw [this, Complex.norm_exp_ofReal_mul_I]
    simp
  have hre : (charFun law u).re = ∫ x, Real.cos (u * x) ∂law := by
    rw [charFun_apply_real, ← Complex.reCLM_apply, ← ContinuousLinearMap.integral_comp_comm _ hint]
    refine integral_congr_ae (ae_of_all _ fun x => ?_)
    have : ((u : ℂ) * x * Complex.I) = ((u * x : ℝ) : ℂ) * Complex.I := by push_cast; ring
    simp only [Complex.reCLM_apply]
    rw [this, Complex.exp_ofReal_mul_I_re]
  have him : (charFun law u).im = ∫ x, Real.sin (u * x) ∂law := by
    rw [charFun_apply_real, ← Complex.imCLM_apply, ← ContinuousLinearMap.integral_comp_comm _ hint]
    refine integral_congr_ae (ae_of_all _ fun x => ?_)
    have : ((u : ℂ) * x * Complex.I) = ((u * x : ℝ) : ℂ) * Complex.I := by push_cast; ring
    simp only [Complex.imCLM_apply]
    rw [this, Complex.exp_ofReal_mul_I_im]
  have hcos : Integrable (fun x : ℝ => Real.cos (u * x)) law :=
    (integrable_const (1 : ℝ)).mono (Continuous.aestronglyMeasurable (by fun_prop)) (ae_of_all _ fun x => by
      simpa using Real.abs_cos_le_one (u * x))
  have hsin : Integrable (fun x : ℝ => Real.sin (u * x)) law :=
    (integrable_const (1 : ℝ)).mono (Continuous.aestronglyMeasurable (by fun_prop)) (ae_of_all _ fun x => by
      simpa using Real.abs_sin_le_one (u * x))
  have e : (fun x : ℝ => (Real.cos (u * (x - k)) + Real.sin (u * (x - k)) / u) * (1 + u ^ 2)⁻¹) = fun x : ℝ =>
      (Real.cos (u * k) - Real.sin (u * k) / u) * (1 + u ^ 2)⁻¹ * Real.cos (u * x) +
        (Real.sin (u * k) + Real.cos (u * k) / u) * (1 + u ^ 2)⁻¹ * Real.sin (u * x) := by
    funext x
    rw [mul_sub, Real.cos_sub, Real.sin_sub]
    ring
  rw [e, integral_add (hcos.const_mul _) (hsin.const_mul _), integral_const_mul, integral_const_mul, ← hre, ← him]
  unfold attariIntegrand
  simp only []
  rw [div_eq_mul_inv, ← pow_two]
  ring

theorem integrand_le (φ : ℝ → ℂ) (k u : ℝ) (hu : 0 < u) (hφ : ‖φ u‖ ≤ 1) : |attariIntegrand φ k u| ≤ 1 / u ^ 2 := by
  unfold attariIntegrand
  simp only []
  have h1 : (φ u).re ^ 2 + (φ u).im ^ 2 ≤ 1 := by
    have : ‖φ u‖ ^ 2 ≤ 1 := pow_le_one₀ (norm_nonneg _) hφ
    rw [← Complex.normSq_eq_norm_sq, Complex.normSq_apply] at this
    nlinarith
  have hcs := Real.cos_sq_add_sin_sq (u * k)
  generalize (φ u).re = R at *
  generalize (φ u).im = I at *
  generalize Real.cos (u * k) = c at *
  generalize Real.sin (u * k) = s at *
  have hden : 0 < 1 + u * u := by positivity
  rw [abs_div, abs_of_pos hden, div_le_div_iff₀ hden (by positivity), one_mul]
  have h2 : ((R + I / u) * c + (I - R / u) * s) ^ 2 ≤ ((1 + u * u) / u ^ 2) ^ 2 := by
    calc ((R + I / u) * c + (I - R / u) * s) ^ 2
        = ((R + I / u) ^ 2 + (I - R / u) ^ 2) * (c ^ 2 + s ^ 2) - ((R + I / u) * s - (I - R / u) * c) ^ 2 := by ring
      _ ≤ ((R + I / u) ^ 2 + (I - R / u) ^ 2) * (c ^ 2 + s ^ 2) := by nlinarith [sq_nonneg ((R + I / u) * s - (I - R / u) * c)]
      _ = (R ^ 2 + I ^ 2) * ((1 + u * u) / u ^ 2) := by rw [hcs]; field_simp; ring
      _ ≤ 1 * ((1 + u * u) / u ^ 2) := mul_le_mul_of_nonneg_right h1 (by positivity)
      _ ≤ ((1 + u * u) / u ^ 2) ^ 2 := by
        rw [one_mul]
        have : 1 ≤ (1 + u * u) / u ^ 2 := by
          rw [one_le_div (by positivity)]
          nlinarith
        nlinarith
  have h4 : |(R + I / u) * c + (I - R / u) * s| ≤ (1 + u * u) / u ^ 2 := abs_le_of_sq_le_sq h2 (by positivity)
  calc |(R + I / u) * c + (I - R / u) * s| * u ^ 2 ≤ (1 + u * u) / u ^ 2 * u ^ 2 := mul_le_mul_of_nonneg_right h4 (by positivity)
    _ = 1 + u * u := by field_simp

theorem integrand_le_moment (law : Measure ℝ) (hl : Spec.IsLogPriceLaw law) (k u : ℝ) :
    ‖attariIntegrand (charFun law) k u‖ ≤ 1 + ∫ x, |x - k| ∂law := by
  haveI := hl.probability
  have hm : Integrable (fun x : ℝ => |x - k|) law := (hl.moment.sub (integrable_const k)).abs
  have hi : Integrable (fun x : ℝ => 1 + |x - k|) law := (integrable_const 1).add hm
  rw [integrand_eq]
  have : 1 + ∫ x, |x - k| ∂law = ∫ x, (1 + |x - k|) ∂law := by
    rw [integral_add (integrable_const 1) hm]; simp
  rw [this]
  refine norm_integral_le_of_norm_le hi (ae_of_all _ fun x => ?_)
  rw [norm_mul, Real.norm_eq_abs, Real.norm_eq_abs, abs_of_pos (a := (1 + u ^ 2)⁻¹) (by positivity)]
  have h1 : |Real.cos (u * (x - k)) + Real.sin (u * (x - k)) / u| ≤ 1 + |x - k| :=
    (abs_add_le _ _).trans (add_le_add (Real.abs_cos_le_one _) (Attari.abs_sin_div_le u (x - k)))
  refine (mul_le_of_le_one_right (abs_nonneg _) ?_).trans h1
  exact inv_le_one_of_one_le₀ (by nlinarith [sq_nonneg u])

end Heston

/-- The formula of Attari: with the exact integral over the positive numbers the code computes the expectation of the payoff under every law
whose characteristic function is the given one. -/
theorem C82_attari (law : Measure ℝ) (hl : Spec.IsLogPriceLaw law) (φ : ℝ → ℂ) (hφ : ∀ u, 0 < u → φ u = charFun law u)
    (F K : ℝ) (hF : 0 < F) (hK : 0 < K) :
    IntegrableOn (attariIntegrand φ (Real.log (K / F))) (Ioi 0) ∧
    F - K * (0.5 + (∫ u in Ioi (0 : ℝ), attariIntegrand φ (Real.log (K / F)) u) / Real.pi) = Spec.callValue law F K := by
  haveI := hl.probability
  have hc : ∀ u ∈ Ioi (0 : ℝ), attariIntegrand φ (Real.log (K / F)) u =
      ∫ x, (Real.cos (u * (x - Real.log (K / F))) + Real.sin (u * (x - Real.log (K / F))) / u) * (1 + u ^ 2)⁻¹ ∂law := by
    intro u hu
    rw [← Heston.integrand_eq]
    unfold attariIntegrand
    rw [hφ u hu]
  obtain ⟨h1, h2⟩ := Attari.integral_law law hl.moment (Real.log (K / F))
  refine ⟨(integrableOn_congr_fun hc measurableSet_Ioi).mpr h1, ?_⟩
  rw [setIntegral_congr_fun measurableSet_Ioi hc, h2]
  have hpi := Real.pi_pos
  have hmin : ∀ x : ℝ, max (F * Real.exp x - K) 0 = F * Real.exp x - K * min 1 (Real.exp (x - Real.log (K / F))) := by
    intro x
    rw [Real.exp_sub, Real.exp_log (div_pos hK hF)]
    have e : K * min 1 (Real.exp x / (K / F)) = min K (F * Real.exp x) := by
      rw [mul_min_of_nonneg _ _ hK.le, mul_one]
      congr 1
      field_simp
    rw [e]
    rcases le_total (F * Real.exp x) K with h | h
    · rw [min_eq_right h, max_eq_right (by linarith)]; ring
    · rw [min_eq_left h, max_eq_left (by linarith)]
  unfold Spec.callValue
  simp only [hmin]
  rw [integral_sub (hl.integrable_exp.const_mul F) _, integral_const_mul, integral_const_mul, hl.mean]
  · rw [mul_div_cancel_left₀ _ hpi.ne']
    ring
  · refine Integrable.const_mul ?_ K
    refine (integrable_const (1 : ℝ)).mono (Measurable.aestronglyMeasurable (by fun_prop)) (ae_of_all _ fun x => ?_)
    rw [Real.norm_eq_abs, abs_of_nonneg (le_min zero_le_one (Real.exp_pos _).le)]
    simp

/-- The part of the integral beyond the limits of the integration is small. -/
theorem C82_truncation (law : Measure ℝ) (hl : Spec.IsLogPriceLaw law) (k lower upper : ℝ) (h0 : 0 ≤ lower) (hlu : lower ≤ upper) (hu : 0 < upper) :
    |(∫ u in Ioi (0 : ℝ), attariIntegrand (charFun law) k u) - ∫ u in lower..upper, attariIntegrand (charFun law) k u| ≤
      1 / upper + lower * (1 + ∫ x, |x - k| ∂law) := by
  haveI := hl.probability
  have hint : IntegrableOn (attariIntegrand (charFun law) k) (Ioi 0) := by
    have := (Attari.integral_law law hl.moment k).1
    exact (integrableOn_congr_fun (fun u _ => Heston.integrand_eq law k u) measurableSet_Ioi).mpr this
  have hsplit : (∫ u in Ioi (0 : ℝ), attariIntegrand (charFun law) k u) =
      (∫ u in (0 : ℝ)..lower, attariIntegrand (charFun law) k u) + (∫ u in lower..upper, attariIntegrand (charFun law) k u) +
        ∫ u in Ioi upper, attariIntegrand (charFun law) k u := by
    rw [intervalIntegral.integral_add_adjacent_intervals]
    · rw [intervalIntegral.integral_interval_add_Ioi hint (hint.mono_set (Ioi_subset_Ioi hu.le))]
    · rw [intervalIntegrable_iff_integrableOn_Ioc_of_le h0]
      exact hint.mono_set (fun x hx => hx.1)
    · rw [intervalIntegrable_iff_integrableOn_Ioc_of_le hlu]
      exact hint.mono_set (fun x hx => lt_of_le_of_lt h0 hx.1)
  rw [hsplit]
  have htail : ‖∫ u in Ioi upper, attariIntegrand (charFun law) k u‖ ≤ 1 / upper := by
    have hp : ∫ u in Ioi upper, u ^ (-2 : ℝ) = 1 / upper := by
      rw [integral_Ioi_rpow_of_lt (by norm_num) hu]
      norm_num
      rw [Real.rpow_neg_one]
    rw [← hp]
    refine norm_integral_le_of_norm_le (integrableOn_Ioi_rpow_of_lt (by norm_num) hu) ?_
    refine (ae_restrict_iff' measurableSet_Ioi).mpr (ae_of_all _ fun u hu' => ?_)
    have hu0 : 0 < u := hu.trans hu'
    have := Heston.integrand_le (charFun law) k u hu0 (norm_charFun_le_one u)
    rw [Real.rpow_neg hu0.le]
    rw [Real.norm_eq_abs]
    refine this.trans (le_of_eq ?_)
    norm_num
  have hhead : ‖∫ u in (0 : ℝ)..lower, attariIntegrand (charFun law) k u‖ ≤ (1 + ∫ x, |x - k| ∂law) * |lower - 0| := by
    refine intervalIntegral.norm_integral_le_of_norm_le_const fun u _ => ?_
    exact Heston.integrand_le_moment law hl k u
  rw [sub_zero, abs_of_nonneg h0] at hhead
  rw [Real.norm_eq_abs] at htail hhead
  have e : (∫ u in (0 : ℝ)..lower, attariIntegrand (charFun law) k u) + (∫ u in lower..upper, attariIntegrand (charFun law) k u) +
        (∫ u in Ioi upper, attariIntegrand (charFun law) k u) - (∫ u in lower..upper, attariIntegrand (charFun law) k u) =
      (∫ u in (0 : ℝ)..lower, attariIntegrand (charFun law) k u) + ∫ u in Ioi upper, attariIntegrand (charFun law) k u := by ring
  rw [e]
  refine (abs_add_le _ _).trans ?_
  linarith

/-- Put and call. -/
theorem Heston.put_value (law : Measure ℝ) (hl : Spec.IsLogPriceLaw law) (F K : ℝ) :
    Spec.putValue law F K = Spec.callValue law F K - F + K := by
  haveI := hl.probability
  have h : ∀ x : ℝ, max (K - F * Real.exp x) 0 = max (F * Real.exp x - K) 0 - F * Real.exp x + K := by
    intro x
    rcases le_total (F * Real.exp x) K with h | h
    · rw [max_eq_left (by linarith), max_eq_right (by linarith)]; ring
    · rw [max_eq_right (by linarith), max_eq_left (by linarith)]; ring
  have hexp := hl.integrable_exp.const_mul F
  have hmax : Integrable (fun x => max (F * Real.exp x - K) 0) law := (hexp.sub (integrable_const K)).pos_part
  unfold Spec.putValue Spec.callValue
  simp only [h]
  rw [integral_add (f := fun x => max (F * Real.exp x - K) 0 - F * Real.exp x) (hmax.sub hexp) (integrable_const K), integral_sub hmax hexp, integral_const_mul, hl.mean]
  simp

/-- The arguments which are accepted. -/
def HestonAccepted (a : HestonOptionArgs) : Prop :=
  (a.spot.isSome ↔ a.forward = none) ∧ ¬ (a.discountRate.isSome ∧ a.discountFactor.isSome)

theorem Heston.check_ok (a : HestonOptionArgs) : a.check = .ok () ↔ HestonAccepted a := by
  unfold HestonOptionArgs.check HestonAccepted
  rcases a.spot <;> rcases a.forward <;> rcases a.discountRate <;> rcases a.discountFactor <;> simp

/-- A price is returned exactly if one of the spot and the forward is given, not both the rate and the factor of the discount, and the
integration returns a value. -/
theorem C82_rejects (a : HestonOptionArgs) :
    (∃ r, hestonPrice a = .ok r) ↔ HestonAccepted a ∧ ∃ q, hestonIntegral a.integration
      (attariIntegrand (a.params.charFun a.expiry) (Real.log (a.strike / a.forwardPrice))) = .ok q := by
  rw [← Heston.check_ok]
  unfold hestonPrice
  rcases a.check with e | ⟨⟩
  · simp [bind, Except.bind]
  · simp only [bind, Except.bind, true_and]
    rcases hestonIntegral a.integration _ with e | q
    · simp
    · rcases a.isCall with _ | c <;> simp

/-- The integration returns a value for the defaults, and for an odd number of at least three points. -/
theorem C82_default (f : ℝ → ℝ) (n : Nat) (hn : 3 ≤ n) (hodd : n % 2 = 1) :
    (hestonIntegral {} f = simpson f (1 / 10 ^ 9) 100 1001) ∧ (∃ q, hestonIntegral {} f = .ok q) ∧
    ∃ q, hestonIntegral { numPoints := some n } f = .ok q := by
  refine ⟨rfl, ⟨_, rfl⟩, ?_⟩
  unfold hestonIntegral integrate simpson
  simp [hn, hodd]

/-- The price is the discounted expectation of the payoff, up to the error of the integration. -/
theorem C82_price (a : HestonOptionArgs) (ha : HestonAccepted a) (law : Measure ℝ) (hl : Spec.IsLogPriceLaw law)
    (hφ : ∀ u, 0 < u → a.params.charFun a.expiry u = charFun law u) (hK : 0 < a.strike) (hF : 0 < a.forwardPrice) (q ε : ℝ)
    (hq : hestonIntegral a.integration (attariIntegrand (a.params.charFun a.expiry) (Real.log (a.strike / a.forwardPrice))) = .ok q)
    (hε : |q - ∫ u in Ioi (0 : ℝ), attariIntegrand (a.params.charFun a.expiry) (Real.log (a.strike / a.forwardPrice)) u| ≤ ε) :
    ∃ r, hestonPrice a = .ok r ∧
      |r - (if a.isCall.getD true then Spec.callValue law a.forwardPrice a.strike else Spec.putValue law a.forwardPrice a.strike) * a.factor|
        ≤ a.strike * ε / Real.pi * |a.factor| := by
  have hpi := Real.pi_pos
  have hcheck := (Heston.check_ok a).mpr ha
  have hA := (C82_attari law hl _ hφ a.forwardPrice a.strike hF hK).2
  have hput := Heston.put_value law hl a.forwardPrice a.strike
  unfold hestonPrice
  rw [hcheck]
  simp only [bind, Except.bind, hq]
  generalize (∫ u in Ioi (0 : ℝ), attariIntegrand (a.params.charFun a.expiry) (Real.log (a.strike / a.forwardPrice)) u) = J at *
  have key : |(a.undiscountedCall q - Spec.callValue law a.forwardPrice a.strike) * a.factor| ≤ a.strike * ε / Real.pi * |a.factor| := by
    rw [abs_mul]
    refine mul_le_mul_of_nonneg_right ?_ (abs_nonneg _)
    unfold HestonOptionArgs.undiscountedCall
    rw [← hA]
    have e : a.forwardPrice - a.strike * (0.5 + q / Real.pi) - (a.forwardPrice - a.strike * (0.5 + J / Real.pi)) =
        -(a.strike / Real.pi * (q - J)) := by ring
    rw [e, abs_neg, abs_mul, abs_of_pos (div_pos hK hpi)]
    calc a.strike / Real.pi * |q - J| ≤ a.strike / Real.pi * ε := mul_le_mul_of_nonneg_left hε (div_pos hK hpi).le
      _ = a.strike * ε / Real.pi := by ring
  rcases a.isCall with _ | c
  · refine ⟨_, rfl, ?_⟩
    simp only [Option.getD_none, if_true]
    rw [← sub_mul]
    exact key
  · refine ⟨_, rfl, ?_⟩
    rcases c with _ | _
    · simp only [Option.getD_some, Bool.false_eq_true, if_false]
      rw [hput, ← sub_mul]
      have e : a.undiscountedCall q - a.forwardPrice + a.strike - (Spec.callValue law a.forwardPrice a.strike - a.forwardPrice + a.strike) =
          a.undiscountedCall q - Spec.callValue law a.forwardPrice a.strike := by ring
      rw [e]
      exact key
    · simp only [Option.getD_some, if_true]
      rw [← sub_mul]
      exact key

/-- The forward and the discount factor that the price is made of: the discount factor is the given one or the one of the given rate, the
forward is the given one or the spot carried to expiry, and the two discount arguments are interchangeable. -/
theorem C82_market (a : HestonOptionArgs) :
    (∀ r, a.discountRate = some r → a.discountFactor = none → a.factor = Real.exp (-r * a.expiry)) ∧
    (∀ df, a.discountFactor = some df → a.factor = df) ∧
    (a.discountRate = none → a.discountFactor = none → a.factor = 1) ∧
    (∀ f, a.forward = some f → a.forwardPrice = f) ∧
    (∀ s r, a.forward = none → a.spot = some s → a.discountRate = some r →
      a.forwardPrice = s * Real.exp ((r - a.dividendRate.getD 0) * a.expiry)) ∧
    (∀ s df, a.forward = none → a.spot = some s → a.discountRate = none → a.discountFactor = some df → 0 < df → a.expiry ≠ 0 →
      a.forwardPrice = s * Real.exp (-a.dividendRate.getD 0 * a.expiry) / df) ∧
    (∀ s, a.forward = none → a.spot = some s → a.discountRate = none → a.discountFactor = none →
      a.forwardPrice = s * Real.exp (-a.dividendRate.getD 0 * a.expiry)) := by
  refine ⟨?_, ?_, ?_, ?_, ?_, ?_, ?_⟩
  · intro r h1 h2
    unfold HestonOptionArgs.factor HestonOptionArgs.rate
    rw [h1, h2]
  · intro df h
    unfold HestonOptionArgs.factor
    rw [h]
  · intro h1 h2
    unfold HestonOptionArgs.factor HestonOptionArgs.rate
    rw [h1, h2]
    simp
  · intro f h
    unfold HestonOptionArgs.forwardPrice
    rw [h]
  · intro s r h1 h2 h3
    unfold HestonOptionArgs.forwardPrice HestonOptionArgs.rate
    rw [h1, h2, h3]
    rfl
  · intro s df h1 h2 h3 h4 hdf hT
    unfold HestonOptionArgs.forwardPrice HestonOptionArgs.rate
    rw [h1, h2, h3, h4]
    simp only [Option.getD_some]
    have e : (-Real.log df / a.expiry - a.dividendRate.getD 0) * a.expiry = -a.dividendRate.getD 0 * a.expiry - Real.log df := by
      field_simp
      ring
    rw [e, Real.exp_sub, Real.exp_log hdf]
    ring
  · intro s h1 h2 h3 h4
    unfold HestonOptionArgs.forwardPrice HestonOptionArgs.rate
    rw [h1, h2, h3, h4]
    simp

theorem Heston.price_eq (a : HestonOptionArgs) (c : Bool) (hc : a.isCall = some c) (r : ℝ) (hr : hestonPrice a = .ok r) :
    ∃ q, hestonIntegral a.integration (attariIntegrand (a.params.charFun a.expiry) (Real.log (a.strike / a.forwardPrice))) = .ok q ∧
      r = (if c then a.undiscountedCall q else a.undiscountedCall q - a.forwardPrice + a.strike) * a.factor := by
  unfold hestonPrice at hr
  rcases hcheck : a.check with e | ⟨⟩
  · rw [hcheck] at hr; simp [bind, Except.bind] at hr
  rw [hcheck] at hr
  simp only [bind, Except.bind, hc] at hr
  rcases hq : hestonIntegral a.integration (attariIntegrand (a.params.charFun a.expiry) (Real.log (a.strike / a.forwardPrice))) with e | q
  · rw [hq] at hr; simp at hr
  · rw [hq] at hr
    refine ⟨q, rfl, ?_⟩
    simp only [Except.ok.injEq] at hr
    exact hr.symm

/-- Put-call parity, exactly and for every rule of integration. -/
theorem C82_put_call_parity (a : HestonOptionArgs) (c p : ℝ) (hc : hestonPrice { a with isCall := some true } = .ok c)
    (hp : hestonPrice { a with isCall := some false } = .ok p) : c - p = (a.forwardPrice - a.strike) * a.factor := by
  obtain ⟨q, h1, h2⟩ := Heston.price_eq _ true rfl c hc
  obtain ⟨q', h3, h4⟩ := Heston.price_eq _ false rfl p hp
  have e : HestonOptionArgs.forwardPrice { a with isCall := some true } = HestonOptionArgs.forwardPrice { a with isCall := some false } := rfl
  simp only [e] at h1
  rw [h1] at h3
  obtain rfl : q = q' := by simpa using h3
  rw [h2, h4]
  simp only [if_true, Bool.false_eq_true, if_false]
  have f1 : HestonOptionArgs.factor { a with isCall := some true } = a.factor := rfl
  have f2 : HestonOptionArgs.factor { a with isCall := some false } = a.factor := rfl
  have f3 : HestonOptionArgs.forwardPrice { a with isCall := some false } = a.forwardPrice := rfl
  have f4 : HestonOptionArgs.undiscountedCall { a with isCall := some true } q = a.undiscountedCall q := rfl
  have f5 : HestonOptionArgs.undiscountedCall { a with isCall := some false } q = a.undiscountedCall q := rfl
  rw [f1, f2, f3, f4, f5]
  ring

section Examples

/-- Parameters within the hypotheses. -/
example : HestonValid { variance := 0.04, meanReversion := 1.5, theta := 0.04, volvol := 0.3, rho := -0.7 } :=
  ⟨by norm_num, by norm_num, by norm_num [abs_le]⟩

/-- The characteristic function is bounded by one for them. -/
example (u : ℝ) : ‖HestonOptionParams.charFun { variance := 0.04, meanReversion := 1.5, theta := 0.04, volvol := 0.3, rho := -0.7 } 2 u‖ ≤ 1 :=
  C82_bounded _ ⟨by norm_num, by norm_num, by norm_num [abs_le]⟩ (by norm_num) (by norm_num) u 2 (by norm_num)

open ProbabilityTheory in
/-- A law with the required moments: the normal law with mean `-1/2` and variance one. -/
theorem Heston.gaussian_law : Spec.IsLogPriceLaw (gaussianReal (-1 / 2) 1) where
  probability := inferInstance
  moment := (memLp_id_gaussianReal (μ := -1 / 2) (v := 1) 1).integrable le_rfl
  integrable_exp := by
    have := integrable_exp_mul_gaussianReal (μ := -1 / 2) (v := 1) 1
    simpa using this
  mean := by
    have h := congrFun (mgf_id_gaussianReal (μ := -1 / 2) (v := 1)) 1
    unfold mgf at h
    simp only [id, one_mul] at h
    rw [h]
    norm_num

open ProbabilityTheory in
/-- The formula of Attari for that law: the price of Black and Scholes with total variance one. -/
example : (2 : ℝ) - 3 * (0.5 + (∫ u in Ioi (0 : ℝ), attariIntegrand (charFun (gaussianReal (-1 / 2) 1)) (Real.log (3 / 2)) u) / Real.pi) =
    Spec.callValue (gaussianReal (-1 / 2) 1) 2 3 :=
  (C82_attari _ Heston.gaussian_law _ (fun _ _ => rfl) 2 3 (by norm_num) (by norm_num)).2

/-- Both the spot and the forward: rejected. -/
example (p : HestonOptionParams) : hestonPrice { strike := 1, expiry := 1, spot := some 1, forward := some 1, params := p } =
    .error "Either spots or forwards must be supplied but not both." := by
  unfold hestonPrice HestonOptionArgs.check
  simp [bind, Except.bind]

end Examples

end Props
