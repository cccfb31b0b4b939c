import Verif.Lemmas.ImpliedVol
import Verif.Props.VanillaPrices
import Verif.Props.Newton

/-! # C42 Implied volatilities (Newton) -/

namespace Spec
open Model

/-- The option whose volatility is asked for, priced with volatility `v`. -/
def withVolatility (a : IvArgs) (v : ℝ) : BsArgs :=
  { volatility := v
    strike := a.strike
    expiry := a.expiry
    spot := a.spot
    forward := a.forward
    discountFactor := a.discountFactor
    isCall := a.isCall
    isNormal := a.isNormal }

/-- The forward price and the discount factor of the option. They do not depend on the volatility. -/
noncomputable def ivForwardPrice (a : IvArgs) : ℝ := forward (withVolatility a 0)
noncomputable def ivDiscount (a : IvArgs) : ℝ := discount (withVolatility a 0)

/-- The arguments the documentation allows: one of spot and forward, positive expiry and discount factor, and positive prices
of the underlying in the lognormal model. -/
structure ValidIvArgs (a : IvArgs) : Prop where
  one : a.spot.isSome ≠ a.forward.isSome
  expiry : 0 < a.expiry
  factor : ∀ df, a.discountFactor = some df → 0 < df
  positive : a.isNormal = false → 0 < ivForwardPrice a ∧ 0 < a.strike

/-- The price with volatility `v`, as a number. -/
noncomputable def priceAt (a : IvArgs) (v : ℝ) : ℝ := (optionPrice (withVolatility a v)).toOption.getD 0

/-- Is the price strictly between what the option pays for certain and, in the lognormal model, its largest value? -/
def WithinBounds (a : IvArgs) : Prop :=
  ivDiscount a * vanillaPayoff (a.isCall.getD true) a.strike (ivForwardPrice a) < a.price ∧
    (a.isNormal = false → a.price < ivDiscount a * if a.isCall.getD true then ivForwardPrice a else a.strike)

/-- The larger of strike and forward, the unit of the code's normalization. -/
noncomputable def ivUnit (a : IvArgs) : ℝ :=
  if max |a.strike| |ivForwardPrice a| = 0 then 1 else max |a.strike| |ivForwardPrice a|

end Spec

namespace Lemmas
open Model Spec Filter Topology Set

/-- The call as a function of the standard deviation. -/
noncomputable def callOf (a : IvArgs) (s : ℝ) : ℝ :=
  if a.isNormal then bachelierCall (ivForwardPrice a) a.strike s else blackCall (ivForwardPrice a) a.strike s

/-- What has to be added to the call. -/
noncomputable def parityOf (a : IvArgs) : ℝ := if a.isCall.getD true then 0 else a.strike - ivForwardPrice a

/-- Derivative of the call by the standard deviation. -/
noncomputable def vegaOf (a : IvArgs) (s : ℝ) : ℝ :=
  if a.isNormal then phi ((ivForwardPrice a - a.strike) / s)
  else ivForwardPrice a * phi ((Real.log (ivForwardPrice a) - Real.log a.strike) / s + s / 2)

variable {a : IvArgs} (h : ValidIvArgs a)

theorem valid_with (h : ValidIvArgs a) {v : ℝ} (hv : 0 ≤ v) : ValidArgs (withVolatility a v) :=
  ⟨h.one, by simp [withVolatility], hv, h.expiry.le, fun df hdf => ⟨h.factor df hdf, fun _ => h.expiry⟩⟩

theorem positive_with (h : ValidIvArgs a) (v : ℝ) : Positive (withVolatility a v) := h.positive

theorem ivDiscount_eq (h : ValidIvArgs a) : ivDiscountFactor a = ivDiscount a := by
  unfold ivDiscountFactor ivDiscount discount withVolatility
  rcases a.discountFactor with _ | df <;> rfl

theorem ivDiscount_pos (h : ValidIvArgs a) : 0 < ivDiscount a := discount_pos _ (valid_with h le_rfl)

theorem ivForward_eq (h : ValidIvArgs a) : ivForward a = ivForwardPrice a := by
  unfold ivForward ivForwardPrice forward
  simp only [ivDiscount_eq h, ivDiscount]
  simp only [withVolatility]
  rcases a.forward with _ | f
  · simp
  · rfl

theorem ivNormalization_eq (h : ValidIvArgs a) (p d : ℝ) :
    ivNormalizations p (ivForwardPrice a) a.strike d = (p / ivUnit a / d, ivUnit a) := by
  unfold ivNormalizations ivUnit
  have : (if |a.strike| ≥ |ivForwardPrice a| then |a.strike| else |ivForwardPrice a|) =
      max |a.strike| |ivForwardPrice a| := by
    rw [max_def]
    split <;> split <;> first | rfl | (exfalso; linarith) | (apply le_antisymm <;> linarith)
  simp only [this]

theorem ivUnit_pos : 0 < ivUnit a := by
  unfold ivUnit
  split
  · exact one_pos
  · rename_i hn
    exact lt_of_le_of_ne (le_max_of_le_left (abs_nonneg _)) (Ne.symm hn)

theorem sqrtT_pos (h : ValidIvArgs a) : 0 < Real.sqrt a.expiry := Real.sqrt_pos.mpr h.expiry

theorem optionPrice_with (h : ValidIvArgs a) {v : ℝ} (hv : 0 < v) :
    optionPrice (withVolatility a v) = .ok (ivDiscount a * (callOf a (v * Real.sqrt a.expiry) + parityOf a)) := by
  have hV := valid_with h hv.le
  unfold optionPrice
  rw [bsCheck_ok _ hV]
  simp only [discount_eq, forward_eq _ hV, ncdf_eq, phi_code]
  change (match a.isCall with | none => _ | some isCall => _ : Except String ℝ) = _
  have hs : 0 < v * Real.sqrt a.expiry := mul_pos hv (sqrtT_pos h)
  have hd : discount (withVolatility a v) = ivDiscount a := rfl
  have hf : forward (withVolatility a v) = ivForwardPrice a := rfl
  have hvv : (withVolatility a v).volatility = v := rfl
  have hK : (withVolatility a v).strike = a.strike := rfl
  have hT : (withVolatility a v).expiry = a.expiry := rfl
  have hN : (withVolatility a v).isNormal = a.isNormal := rfl
  rw [hd, hf, hvv, hK, hT, hN]
  have hlog : a.isNormal = false →
      Real.log (ivForwardPrice a / a.strike) = Real.log (ivForwardPrice a) - Real.log a.strike := by
    intro hn
    obtain ⟨h1, h2⟩ := h.positive hn
    exact Real.log_div h1.ne' h2.ne'
  unfold callOf parityOf
  rcases hn : a.isNormal with _ | _
  · simp only [if_true, hs, gt_iff_lt, hlog hn, Bool.false_eq_true, if_false]
    rcases a.isCall with _ | (_ | _)
    · simp [blackCall, pure, Except.pure]
    · simp [blackCall, pure, Except.pure]; left; ring
    · simp [blackCall, pure, Except.pure]
  · simp only [if_true, hs, gt_iff_lt, Bool.true_eq_false, if_false]
    rcases a.isCall with _ | (_ | _)
    · simp [bachelierCall, pure, Except.pure]
    · simp [bachelierCall, pure, Except.pure]; left; ring
    · simp [bachelierCall, pure, Except.pure]

theorem callOf_hasDerivAt (h : ValidIvArgs a) {s : ℝ} (hs : s ≠ 0) : HasDerivAt (callOf a) (vegaOf a s) s := by
  unfold callOf vegaOf
  rcases hn : a.isNormal with _ | _
  · obtain ⟨h1, h2⟩ := h.positive hn
    simpa using blackCall_hasDerivAt _ _ s h1 h2 hs
  · simpa using bachelierCall_hasDerivAt _ _ s hs

theorem vegaOf_pos (h : ValidIvArgs a) (s : ℝ) : 0 < vegaOf a s := by
  unfold vegaOf
  rcases hn : a.isNormal with _ | _
  · obtain ⟨h1, h2⟩ := h.positive hn
    simpa using mul_pos h1 (phi_pos _)
  · simpa using phi_pos _

theorem vegaOf_neg (s : ℝ) : vegaOf a (-s) = vegaOf a s := by
  unfold vegaOf
  rw [div_neg, phi_neg, show (Real.log (ivForwardPrice a) - Real.log a.strike) / -s + -s / 2 =
    -((Real.log (ivForwardPrice a) - Real.log a.strike) / s + s / 2) by rw [div_neg]; ring, phi_neg]

theorem callOf_strictMonoOn (h : ValidIvArgs a) : StrictMonoOn (callOf a) (Ioi 0) :=
  strictMonoOn_of_deriv (fun s hs => callOf_hasDerivAt h (ne_of_gt hs)) (fun s _ => vegaOf_pos h s)

theorem callOf_zero (h : ValidIvArgs a) :
    Tendsto (callOf a) (𝓝[>] 0) (𝓝 (max (ivForwardPrice a - a.strike) 0)) := by
  unfold callOf
  rcases hn : a.isNormal with _ | _
  · obtain ⟨h1, h2⟩ := h.positive hn
    simpa using blackCall_zero _ _ h1 h2
  · simpa using bachelierCall_zero _ _

theorem callOf_gt (h : ValidIvArgs a) {s : ℝ} (hs : 0 < s) : max (ivForwardPrice a - a.strike) 0 < callOf a s :=
  monotone_lower (callOf_strictMonoOn h) (callOf_zero h) s hs

theorem callOf_neg (s : ℝ) : callOf a (-s) = ivForwardPrice a - a.strike - callOf a s := by
  unfold callOf
  rw [bachelierCall_neg, blackCall_neg]
  split <;> rfl

theorem callOf_lt (h : ValidIvArgs a) (hn : a.isNormal = false) {s : ℝ} (hs : 0 < s) : callOf a s < ivForwardPrice a := by
  have h1 : callOf a s < callOf a (s + 1) := callOf_strictMonoOn h hs (show (0 : ℝ) < s + 1 by linarith) (by linarith)
  refine lt_of_lt_of_le h1 ?_
  have ht : Tendsto (callOf a) atTop (𝓝 (ivForwardPrice a)) := by
    unfold callOf; rw [hn]; simpa using blackCall_top _ _
  refine ge_of_tendsto ht ?_
  filter_upwards [eventually_gt_atTop (s + 1)] with x hx
  exact (callOf_strictMonoOn h (show (0 : ℝ) < s + 1 by linarith) (show (0 : ℝ) < x by linarith) hx).le

theorem payoff_call (K x : ℝ) : vanillaPayoff true K x = max (x - K) 0 := by simp [vanillaPayoff]

theorem payoff_iv (a : IvArgs) : vanillaPayoff (a.isCall.getD true) a.strike (ivForwardPrice a) =
    max (ivForwardPrice a - a.strike) 0 + parityOf a := by
  unfold parityOf
  rcases a.isCall.getD true with _ | _
  · have := payoff_parity a.strike (ivForwardPrice a)
    rw [payoff_call] at this
    simp only [Bool.false_eq_true, if_false]
    linarith
  · simp [vanillaPayoff]

theorem ivPdf_eq (x : ℝ) : ivPdf x = phi x := by
  have := phi_code x 1
  simpa [ivPdf] using this

theorem ivCdf_eq (x : ℝ) : ivCdf x = normalCdf x := ncdf_eq x

/-- What the code computes, for every volatility but zero. -/
theorem objective_eq (h : ValidIvArgs a) {v : ℝ} (hv : v ≠ 0) :
    ivObjectiveAndVega a v =
      (some ((callOf a (v * Real.sqrt a.expiry) + parityOf a - a.price / ivDiscount a) / ivUnit a),
       some (vegaOf a (v * Real.sqrt a.expiry) * Real.sqrt a.expiry / ivDiscount a / ivUnit a)) := by
  have hu := (ivUnit_pos (a := a)).ne'
  have hD := (ivDiscount_pos h).ne'
  have hs : v * Real.sqrt a.expiry ≠ 0 := mul_ne_zero hv (sqrtT_pos h).ne'
  unfold ivObjectiveAndVega
  rcases hn : a.isNormal with _ | _
  · simp only [Bool.false_eq_true, if_false, blackObjectiveAndVega, ivNormalization_eq h, ivForward_eq h, ivDiscount_eq h, hs,
      ivPdf_eq, ivCdf_eq, callOf, vegaOf, hn, parityOf, blackCall]
    rcases a.isCall with _ | (_ | _)
    · simp only [Option.getD_none, if_true]
      refine Prod.ext ?_ ?_ <;> simp only [Option.some.injEq] <;> ring
    · simp only [Option.getD_some, Bool.false_eq_true, if_false]
      refine Prod.ext ?_ ?_ <;> simp only [Option.some.injEq] <;> ring
    · simp only [Option.getD_some, if_true]
      refine Prod.ext ?_ ?_ <;> simp only [Option.some.injEq] <;> ring
  · have hs' : v * Real.sqrt a.expiry / ivUnit a ≠ 0 := div_ne_zero hs hu
    have hd1 : (ivForwardPrice a / ivUnit a - a.strike / ivUnit a) / (v * Real.sqrt a.expiry / ivUnit a) =
        (ivForwardPrice a - a.strike) / (v * Real.sqrt a.expiry) := by
      rw [← sub_div, div_div_div_cancel_right₀ hu]
    simp only [if_true, bachelierObjectiveAndVega, ivNormalization_eq h, ivForward_eq h, ivDiscount_eq h, hs', if_false,
      ivPdf_eq, ivCdf_eq, callOf, vegaOf, hn, parityOf, bachelierCall, hd1]
    rcases a.isCall with _ | (_ | _)
    · simp only [Option.getD_none, if_true]
      refine Prod.ext ?_ ?_ <;> simp only [Option.some.injEq] <;> ring
    · simp only [Option.getD_some, Bool.false_eq_true, if_false]
      refine Prod.ext ?_ ?_ <;> simp only [Option.some.injEq] <;> ring
    · simp only [Option.getD_some, if_true]
      refine Prod.ext ?_ ?_ <;> simp only [Option.some.injEq] <;> ring

theorem objective_zero (h : ValidIvArgs a) : ivObjectiveAndVega a 0 = (none, none) := by
  unfold ivObjectiveAndVega blackObjectiveAndVega bachelierObjectiveAndVega
  split <;> simp

theorem priceAt_eq (h : ValidIvArgs a) {v : ℝ} (hv : 0 < v) :
    priceAt a v = ivDiscount a * (callOf a (v * Real.sqrt a.expiry) + parityOf a) := by
  unfold priceAt; rw [optionPrice_with h hv]; rfl

theorem priceAt_hasDerivAt (h : ValidIvArgs a) {v : ℝ} (hv : 0 < v) :
    HasDerivAt (priceAt a) (ivDiscount a * (vegaOf a (v * Real.sqrt a.expiry) * Real.sqrt a.expiry)) v := by
  have h1 : HasDerivAt (fun v => v * Real.sqrt a.expiry) (Real.sqrt a.expiry) v := by
    simpa using (hasDerivAt_id v).mul_const (Real.sqrt a.expiry)
  have h2 := (((callOf_hasDerivAt h (mul_pos hv (sqrtT_pos h)).ne').comp v h1).add_const (parityOf a)).const_mul (ivDiscount a)
  refine h2.congr_of_eventuallyEq ?_
  filter_upwards [lt_mem_nhds hv] with w hw
  exact priceAt_eq h hw

/-- The value at a negative volatility is negative, whatever the type of the option. -/
theorem callOf_parity_neg (h : ValidIvArgs a) {s : ℝ} (hs : s < 0) : callOf a s + parityOf a < 0 := by
  have h1 := callOf_gt h (show 0 < -s by linarith)
  have h2 := callOf_neg (a := a) (-s)
  rw [neg_neg] at h2
  have h3 : ivForwardPrice a - a.strike < callOf a (-s) := lt_of_le_of_lt (le_max_left _ _) h1
  have h4 : 0 < callOf a (-s) := lt_of_le_of_lt (le_max_right _ _) h1
  rw [h2]
  unfold parityOf
  split <;> linarith

end Lemmas

namespace Props
open Model Lemmas Spec Filter Topology Set

/-- C42: option prices are strictly increasing in the volatility. -/
theorem C42_increasing (a : IvArgs) (h : ValidIvArgs a) (v w : ℝ) (hv : 0 ≤ v) (hvw : v < w) :
    ∃ p q, optionPrice (withVolatility a v) = .ok p ∧ optionPrice (withVolatility a w) = .ok q ∧ p < q := by
  have hw : 0 < w := lt_of_le_of_lt hv hvw
  have hT := sqrtT_pos h
  have hD := ivDiscount_pos h
  rcases hv.eq_or_lt with rfl | hv
  · refine ⟨_, _, C31_expectation _ (valid_with h le_rfl) (positive_with h 0), optionPrice_with h hw, ?_⟩
    have hexp : expectation (withVolatility a 0) (vanillaPayoff ((withVolatility a 0).isCall.getD true)
        (withVolatility a 0).strike) = vanillaPayoff (a.isCall.getD true) a.strike (ivForwardPrice a) := by
      unfold expectation
      have hs : stdDev (withVolatility a 0) = 0 := by simp [stdDev, withVolatility]
      rw [hs]
      split
      · exact normalExpectation_zero _ _
      · rename_i hn
        exact lognormalExpectation_zero _ (h.positive (by simpa [withVolatility] using hn)).1 _
    rw [hexp, payoff_iv]
    have := callOf_gt h (mul_pos hw hT)
    exact mul_lt_mul_of_pos_left (by linarith) hD
  · refine ⟨_, _, optionPrice_with h hv, optionPrice_with h hw, ?_⟩
    have := callOf_strictMonoOn h (mul_pos hv hT) (mul_pos hw hT) (mul_lt_mul_of_pos_right hvw hT)
    exact mul_lt_mul_of_pos_left (by linarith) hD

/-- C42: existence and uniqueness. A price strictly within the no-arbitrage bounds is the price for exactly one positive
volatility; other prices are not prices for any. -/
theorem C42_exists_unique (a : IvArgs) (h : ValidIvArgs a) :
    (WithinBounds a → ∃! v, 0 < v ∧ optionPrice (withVolatility a v) = .ok a.price) ∧
    ((∃ v, 0 < v ∧ optionPrice (withVolatility a v) = .ok a.price) → WithinBounds a) := by
  have hT := sqrtT_pos h
  have hD := ivDiscount_pos h
  constructor
  · rintro ⟨hlo, hup⟩
    rw [payoff_iv] at hlo
    have hlo' : max (ivForwardPrice a - a.strike) 0 < a.price / ivDiscount a - parityOf a := by
      have : (max (ivForwardPrice a - a.strike) 0 + parityOf a) < a.price / ivDiscount a := by
        rw [lt_div_iff₀ hD]; linarith
      linarith
    have hfreq : ∃ᶠ s in atTop, a.price / ivDiscount a - parityOf a < callOf a s := by
      apply Eventually.frequently
      rcases hn : a.isNormal with _ | _
      · have ht : Tendsto (callOf a) atTop (𝓝 (ivForwardPrice a)) := by
          unfold callOf; rw [hn]; simpa using blackCall_top _ _
        refine ht.eventually (lt_mem_nhds ?_)
        have := hup hn
        have h2 : a.price / ivDiscount a < if a.isCall.getD true then ivForwardPrice a else a.strike := by
          rw [div_lt_iff₀ hD]; linarith
        unfold parityOf
        split <;> rename_i hc <;> simp only [hc, if_true, if_false] at h2 <;> first | linarith | (simp at h2; linarith)
      · have ht : Tendsto (callOf a) atTop atTop := by
          unfold callOf; rw [hn]; simpa using bachelierCall_top _ _
        exact ht.eventually_gt_atTop _
    obtain ⟨s, ⟨hs, hsp⟩, huniq⟩ := existsUnique_between (f := callOf a)
      (fun s hs => (callOf_hasDerivAt h (ne_of_gt hs)).continuousAt.continuousWithinAt) (callOf_strictMonoOn h) (callOf_zero h)
      hlo' hfreq
    refine ⟨s / Real.sqrt a.expiry, ⟨div_pos hs hT, ?_⟩, ?_⟩
    · rw [optionPrice_with h (div_pos hs hT), div_mul_cancel₀ _ hT.ne', hsp]
      congr 1; field_simp; ring
    · rintro v ⟨hv, hvp⟩
      rw [optionPrice_with h hv] at hvp
      have hvp : ivDiscount a * (callOf a (v * Real.sqrt a.expiry) + parityOf a) = a.price := by injection hvp
      have := huniq (v * Real.sqrt a.expiry) ⟨mul_pos hv hT, by rw [← hvp]; field_simp; ring⟩
      rw [← this, mul_div_cancel_right₀ _ hT.ne']
  · rintro ⟨v, hv, hvp⟩
    rw [optionPrice_with h hv] at hvp
    have hvp : ivDiscount a * (callOf a (v * Real.sqrt a.expiry) + parityOf a) = a.price := by injection hvp
    constructor
    · rw [payoff_iv, ← hvp]
      exact mul_lt_mul_of_pos_left (by linarith [callOf_gt h (mul_pos hv hT)]) hD
    · intro hn
      rw [← hvp]
      apply mul_lt_mul_of_pos_left _ hD
      have := callOf_lt h hn (mul_pos hv hT)
      unfold parityOf
      split <;> linarith

/-- C42: what the root finder is given. At a positive volatility the objective is the price difference in units of the
larger of forward and strike, undiscounted. Its roots are exactly the implied volatilities: negative ones never qualify. -/
theorem C42_objective (a : IvArgs) (h : ValidIvArgs a) :
    (∀ v, 0 < v → ∃ p g, optionPrice (withVolatility a v) = .ok p ∧
      ivObjectiveAndVega a v = (some ((p - a.price) / (ivDiscount a * ivUnit a)), g)) ∧
    (0 ≤ a.price → ∀ v, (∃ g, ivObjectiveAndVega a v = (some 0, g)) ↔
      0 < v ∧ optionPrice (withVolatility a v) = .ok a.price) := by
  have hD := (ivDiscount_pos h).ne'
  have hu := (ivUnit_pos (a := a)).ne'
  have h1 : ∀ v, 0 < v → ∃ p g, optionPrice (withVolatility a v) = .ok p ∧
      ivObjectiveAndVega a v = (some ((p - a.price) / (ivDiscount a * ivUnit a)), g) := by
    intro v hv
    refine ⟨_, (ivObjectiveAndVega a v).2, optionPrice_with h hv, ?_⟩
    rw [objective_eq h hv.ne']
    refine Prod.ext ?_ rfl
    simp only [Option.some.injEq]
    field_simp
  refine ⟨h1, ?_⟩
  intro hp v
  rcases lt_trichotomy v 0 with hv | hv | hv
  · constructor
    · rintro ⟨g, hg⟩
      rw [objective_eq h hv.ne] at hg
      have h0 := congrArg Prod.fst hg
      simp only [Option.some.injEq, div_eq_zero_iff, hu, or_false] at h0
      have := callOf_parity_neg h (mul_neg_of_neg_of_pos hv (sqrtT_pos h))
      have h3 : 0 ≤ a.price / ivDiscount a := div_nonneg hp (ivDiscount_pos h).le
      linarith
    · rintro ⟨h2, _⟩; linarith
  · constructor
    · rintro ⟨g, hg⟩
      rw [hv, objective_zero h] at hg
      simp at hg
    · rintro ⟨h2, _⟩; linarith
  · obtain ⟨p, g, hp1, hp2⟩ := h1 v hv
    rw [hp2, hp1]
    constructor
    · rintro ⟨g', hg⟩
      have h0 := congrArg Prod.fst hg
      simp only [Option.some.injEq, div_eq_zero_iff, mul_eq_zero, hu, hD, or_self, or_false] at h0
      refine ⟨hv, ?_⟩
      congr 1; linarith
    · rintro ⟨_, hpp⟩
      have : p = a.price := by injection hpp
      exact ⟨g, by rw [this]; simp⟩

/-- C42, partial: without discounting, the vega handed to the root finder is the derivative of the objective.
For other discount factors see `C42_vega_discounted`. -/
theorem C42_vega_partial (a : IvArgs) (h : ValidIvArgs a) (h1 : ivDiscount a = 1) (v : ℝ) (hv : v ≠ 0) :
    ∃ g, (ivObjectiveAndVega a v).2 = some g ∧ HasDerivAt (fun w => ((ivObjectiveAndVega a w).1).getD 0) g v := by
  refine ⟨_, by rw [objective_eq h hv], ?_⟩
  rw [h1, div_one]
  have hd : HasDerivAt (fun v => v * Real.sqrt a.expiry) (Real.sqrt a.expiry) v := by
    simpa using (hasDerivAt_id v).mul_const (Real.sqrt a.expiry)
  have h2 := ((((callOf_hasDerivAt h (mul_ne_zero hv (sqrtT_pos h).ne')).comp v hd).add_const (parityOf a)).sub_const
    (a.price / ivDiscount a)).div_const (ivUnit a)
  refine h2.congr_of_eventuallyEq ?_
  filter_upwards [isOpen_ne.mem_nhds hv] with w hw
  rw [objective_eq h hw]; rfl

/-- C42 (deviation): with a discount factor other than 1 the vega handed to the root finder is not the derivative of the
objective: the objective is undiscounted, but the vega is divided by the discount factor. -/
theorem C42_vega_discounted (a : IvArgs) (h : ValidIvArgs a) (h1 : ivDiscount a ≠ 1) (v : ℝ) (hv : v ≠ 0) :
    ∃ g, (ivObjectiveAndVega a v).2 = some g ∧
      HasDerivAt (fun w => ((ivObjectiveAndVega a w).1).getD 0) (ivDiscount a * g) v ∧
      ¬ HasDerivAt (fun w => ((ivObjectiveAndVega a w).1).getD 0) g v := by
  have hD := ivDiscount_pos h
  refine ⟨_, by rw [objective_eq h hv], ?_⟩
  have hd : HasDerivAt (fun v => v * Real.sqrt a.expiry) (Real.sqrt a.expiry) v := by
    simpa using (hasDerivAt_id v).mul_const (Real.sqrt a.expiry)
  have h2 := ((((callOf_hasDerivAt h (mul_ne_zero hv (sqrtT_pos h).ne')).comp v hd).add_const (parityOf a)).sub_const
    (a.price / ivDiscount a)).div_const (ivUnit a)
  have h3 : HasDerivAt (fun w => ((ivObjectiveAndVega a w).1).getD 0)
      (ivDiscount a * (vegaOf a (v * Real.sqrt a.expiry) * Real.sqrt a.expiry / ivDiscount a / ivUnit a)) v := by
    refine HasDerivAt.congr_deriv (h2.congr_of_eventuallyEq ?_) ?_
    · filter_upwards [isOpen_ne.mem_nhds hv] with w hw
      rw [objective_eq h hw]; rfl
    · field_simp
  refine ⟨h3, ?_⟩
  intro h4
  have h5 := h3.unique h4
  have hg : 0 < vegaOf a (v * Real.sqrt a.expiry) * Real.sqrt a.expiry / ivDiscount a / ivUnit a :=
    div_pos (div_pos (mul_pos (vegaOf_pos h _) (sqrtT_pos h)) hD) ivUnit_pos
  exact h1 (mul_right_cancel₀ hg.ne' (by rw [one_mul]; exact h5))

/-- C42: what "converged" means. The volatility returned reprices the option: the error in the price is less than the
tolerance times the true vega divided by the discount factor, up to the relative tolerance. (A negative volatility can be
reported only if the price itself is within this error.) -/
theorem C42_converged (rel tol : ℝ) (N : Nat) (options : List IvArgs) (x0 : List (Option ℝ))
    (hl : options.length = x0.length) (i : Nat) (a : IvArgs) (ha : options[i]? = some a) (h : ValidIvArgs a)
    (c : NewtonCell ℝ) (hc : (newtonImpliedVol rel tol N options x0)[i]? = some c) (hconv : c.converged = true) :
    ∃ v V E, c.parameter = some v ∧ v ≠ 0 ∧ HasDerivAt (priceAt a) V |v| ∧
      E < (rel * (E / (ivDiscount a * ivUnit a)) + tol) * (V / ivDiscount a) ∧
      ((0 < v ∧ ∃ p, optionPrice (withVolatility a v) = .ok p ∧ E = |p - a.price|) ∨ (v < 0 ∧ a.price ≤ E)) := by
  have hD := ivDiscount_pos h
  have hu := ivUnit_pos (a := a)
  have hi : i < x0.length := by
    rw [← hl]; exact (List.getElem?_eq_some_iff.mp ha).1
  obtain ⟨c', hc1, _, hc3⟩ := C29_converged rel tol N (options.map ivObjectiveAndVega) x0 (by simpa using hl) i
    (ivObjectiveAndVega a) x0[i] (by rw [List.getElem?_map, ha]; rfl) (List.getElem?_eq_getElem hi)
  have hcc : c' = c := by
    unfold newtonImpliedVol at hc
    rw [hc1] at hc; exact Option.some.inj hc
  subst hcc
  obtain ⟨_, j, v, _, hv, _, ⟨o, g, hog, hg0, hlt⟩, _⟩ := hc3 hconv
  have hv0 : v ≠ 0 := by
    rintro rfl
    rw [objective_zero h] at hog
    simp at hog
  rw [objective_eq h hv0, Prod.mk.injEq, Option.some.injEq, Option.some.injEq] at hog
  obtain ⟨ho, hg⟩ := hog
  set s := v * Real.sqrt a.expiry with hs
  have hgpos : 0 < g := by
    rw [← hg]
    exact div_pos (div_pos (mul_pos (vegaOf_pos h _) (sqrtT_pos h)) hD) hu
  have hV : vegaOf a (|v| * Real.sqrt a.expiry) = vegaOf a s := by
    rcases abs_choice v with hv' | hv'
    · rw [hv']
    · rw [hv', neg_mul, vegaOf_neg]
  refine ⟨v, _, ivDiscount a * ivUnit a * |o|, hv, hv0, priceAt_hasDerivAt h (abs_pos.mpr hv0), ?_, ?_⟩
  · rw [hV, mul_div_cancel_left₀ _ (mul_pos hD hu).ne', mul_div_cancel_left₀ _ hD.ne']
    rw [abs_div, abs_of_pos hgpos, div_lt_iff₀ hgpos] at hlt
    have hDu := mul_pos hD hu
    calc ivDiscount a * ivUnit a * |o| < ivDiscount a * ivUnit a * ((rel * |o| + tol) * g) :=
          mul_lt_mul_of_pos_left hlt hDu
      _ = _ := by rw [← hg]; field_simp
  · rcases lt_or_gt_of_ne hv0 with hneg | hpos
    · right
      refine ⟨hneg, ?_⟩
      have h1 := callOf_parity_neg h (mul_neg_of_neg_of_pos hneg (sqrtT_pos h))
      have h2 : a.price / ivDiscount a ≤ ivUnit a * |o| := by
        have h3 := neg_abs_le o
        have h4 : o * ivUnit a = callOf a s + parityOf a - a.price / ivDiscount a := by
          rw [← ho, div_mul_cancel₀ _ hu.ne']
        nlinarith
      rw [div_le_iff₀ hD] at h2
      linarith
    · left
      refine ⟨hpos, _, optionPrice_with h hpos, ?_⟩
      rw [← hs, ← ho, abs_div, abs_of_pos hu, mul_assoc, mul_div_cancel₀ _ hu.ne', ← abs_of_pos hD, ← abs_mul, abs_of_pos hD]
      congr 1
      field_simp

/-- C42 (deviation): because of the wrong vega the iteration converges only linearly when there is discounting: the
derivative of the iteration at the implied volatility is one minus the discount factor, where Newton's is zero. -/
theorem C42_linear_rate (a : IvArgs) (h : ValidIvArgs a) (v : ℝ) (hv : 0 < v)
    (hroot : optionPrice (withVolatility a v) = .ok a.price) :
    HasDerivAt (fun w => (newtonNext (ivObjectiveAndVega a) w).getD 0) (1 - ivDiscount a) v := by
  have hD := ivDiscount_pos h
  have hu := ivUnit_pos (a := a)
  have hT := sqrtT_pos h
  have hs0 : v * Real.sqrt a.expiry ≠ 0 := (mul_pos hv hT).ne'
  rw [optionPrice_with h hv] at hroot
  have hroot : ivDiscount a * (callOf a (v * Real.sqrt a.expiry) + parityOf a) = a.price := by injection hroot
  have hd : HasDerivAt (fun v => v * Real.sqrt a.expiry) (Real.sqrt a.expiry) v := by
    simpa using (hasDerivAt_id v).mul_const (Real.sqrt a.expiry)
  have hN := (((callOf_hasDerivAt h hs0).comp v hd).add_const (parityOf a)).sub_const (a.price / ivDiscount a)
  have hM : ∃ m, HasDerivAt (fun w => vegaOf a (w * Real.sqrt a.expiry) * Real.sqrt a.expiry / ivDiscount a) m v := by
    have hvd : ∃ m, HasDerivAt (vegaOf a) m (v * Real.sqrt a.expiry) := by
      unfold vegaOf
      rcases a.isNormal with _ | _
      · have e1 := ((hasDerivAt_const (v * Real.sqrt a.expiry) (Real.log (ivForwardPrice a) - Real.log a.strike)).div
          (hasDerivAt_id _) hs0).add ((hasDerivAt_id _).div_const 2)
        exact ⟨_, by simpa using (((phi_hasDerivAt _).comp _ e1).const_mul (ivForwardPrice a))⟩
      · have e1 := (hasDerivAt_const (v * Real.sqrt a.expiry) (ivForwardPrice a - a.strike)).div (hasDerivAt_id _) hs0
        exact ⟨_, (phi_hasDerivAt _).comp _ e1⟩
    obtain ⟨m, hm⟩ := hvd
    exact ⟨_, ((hm.comp v hd).mul_const _).div_const _⟩
  obtain ⟨m, hM⟩ := hM
  have hvp := vegaOf_pos h (v * Real.sqrt a.expiry)
  have hM0 : vegaOf a (v * Real.sqrt a.expiry) * Real.sqrt a.expiry / ivDiscount a ≠ 0 :=
    (div_pos (mul_pos hvp hT) hD).ne'
  have hq := (hasDerivAt_id v).sub (hN.div hM hM0)
  refine HasDerivAt.congr_deriv (hq.congr_of_eventuallyEq ?_) ?_
  · filter_upwards [isOpen_ne.mem_nhds hv.ne'] with w hw
    have hg : vegaOf a (w * Real.sqrt a.expiry) * Real.sqrt a.expiry / ivDiscount a / ivUnit a ≠ 0 :=
      (div_pos (div_pos (mul_pos (vegaOf_pos h _) hT) hD) hu).ne'
    simp only [newtonNext, objective_eq h hw, hg, if_false, Option.getD_some, Pi.sub_apply, Pi.div_apply, id,
      Function.comp]
    rw [div_div_div_cancel_right₀ hu.ne']
  · have h0 : callOf a (v * Real.sqrt a.expiry) + parityOf a - a.price / ivDiscount a = 0 := by
      rw [← hroot]; field_simp; ring
    simp only [Function.comp, h0, zero_mul, sub_zero]
    congr 1
    field_simp

/-- A call on a forward of 100 with strike 110, two years and discount factor 0.9, and its price with volatility 20%. -/
noncomputable def exIv : IvArgs :=
  { price := 9 / 10 * blackCall 100 110 (1 / 5 * Real.sqrt 2)
    strike := 110
    expiry := 2
    forward := some 100
    discountFactor := some (9 / 10) }

theorem exIv_valid : ValidIvArgs exIv ∧ ivDiscount exIv = 9 / 10 := by
  refine ⟨⟨by simp [exIv], by norm_num [exIv], ?_, ?_⟩, rfl⟩
  · rintro df hdf
    simp only [exIv, Option.some.injEq] at hdf
    rw [← hdf]; norm_num
  · intro _
    constructor
    · show (0 : ℝ) < 100
      norm_num
    · norm_num [exIv]

example : ValidIvArgs exIv ∧ ivDiscount exIv ≠ 1 ∧ WithinBounds exIv ∧ 0 ≤ exIv.price ∧
    optionPrice (withVolatility exIv (1 / 5)) = .ok exIv.price := by
  have h := exIv_valid.1
  have hp : optionPrice (withVolatility exIv (1 / 5)) = .ok exIv.price := by
    rw [optionPrice_with h (by norm_num), exIv_valid.2]
    simp [callOf, parityOf, exIv, ivForwardPrice, forward, withVolatility]
  have hb : WithinBounds exIv := (C42_exists_unique exIv h).2 ⟨1 / 5, by norm_num, hp⟩
  refine ⟨h, by rw [exIv_valid.2]; norm_num, hb, ?_, hp⟩
  refine le_trans ?_ hb.1.le
  exact mul_nonneg (ivDiscount_pos h).le (vanillaPayoff_nonneg _ _ _)

end Props
