import Verif.Props.VanillaPrices

/-! # C32 Binary and asset-or-nothing options -/

namespace Lemmas
open Model Spec

/-- The forward `binary_price` uses is the right one unless it has to take dividends off a spot. -/
theorem binaryForward_eq (a : BsArgs) (hq : a.forward = none → a.dividendRate.getD 0 = 0) :
    binaryForward a = forward a := by
  unfold binaryForward forward
  rcases hf : a.forward with _ | f
  · simp only [discount_eq, hq hf, zero_mul, neg_zero, Real.exp_zero, mul_one]
  · rfl

end Lemmas

namespace Props
open Model Lemmas Spec

/-- C32: the price of an asset-or-nothing option is the discount factor times the expected payoff. -/
theorem C32_asset_expectation (a : BsArgs) (h : ValidArgs a) (hp : Positive a) :
    assetOrNothingPrice a = .ok (discount a * expectation a (assetPayoff (a.isCall.getD true) a.strike)) := by
  unfold assetOrNothingPrice
  rw [bsCheck_ok a h]
  simp only [discount_eq, forward_eq a h, ncdf_eq, phi_code]
  change (match a.isCall with | none => _ | some isCall => _ : Except String ℝ) = _
  rcases hc : a.isCall with _ | c
  · simp only [Option.getD_none]
    rw [expectation_kink h hp (asset_kink_call a.strike)]
    change Except.ok _ = Except.ok _
    congr 2
    unfold stdDev
    rcases a.isNormal with _ | _
    · simp only [if_true, Bool.false_eq_true, if_false]
      split
      · ring
      · simp [assetPayoff]
    · simp only [if_true, Bool.true_eq_false, if_false]
      split
      · ring
      · simp [assetPayoff]
  · simp only [Option.getD_some]
    change Except.ok _ = Except.ok _
    congr 2
    rcases c with _ | _
    · rw [expectation_kink h hp (asset_kink_put a.strike)]
      unfold stdDev
      rcases a.isNormal with _ | _
      · simp only [if_true, Bool.false_eq_true, if_false]
        split
        · ring
        · simp only [assetPayoff, Bool.false_eq_true, if_false, gt_iff_lt]
          split <;> ring
      · simp only [if_true, Bool.true_eq_false, if_false, Bool.false_eq_true]
        split
        · ring
        · simp only [assetPayoff, Bool.false_eq_true, if_false, gt_iff_lt]
          split <;> ring
    · rw [expectation_kink h hp (asset_kink_call a.strike)]
      unfold stdDev
      rcases a.isNormal with _ | _
      · simp only [if_true, Bool.false_eq_true, if_false]
        split
        · ring
        · simp [assetPayoff]
      · simp only [if_true, Bool.true_eq_false, if_false]
        split
        · ring
        · simp [assetPayoff]

/-- C32 (partial): the price of a binary option is the discount factor times the expected payoff, if the forward is given or
there are no dividends. With a spot and dividends it is not: `C32_binary_ignores_dividends`. -/
theorem C32_binary_expectation_partial (a : BsArgs) (h : ValidArgs a) (hp : Positive a)
    (hq : a.forward = none → a.dividendRate.getD 0 = 0) :
    binaryPrice a = .ok (discount a * expectation a (binaryPayoff (a.isCall.getD true) a.strike)) := by
  unfold binaryPrice
  rw [bsCheck_ok a h]
  simp only [discount_eq, binaryForward_eq a hq, ncdf_eq]
  change (match a.isCall with | none => _ | some isCall => _ : Except String ℝ) = _
  rcases hc : a.isCall with _ | c
  · simp only [Option.getD_none]
    rw [expectation_kink h hp (binary_kink_call a.strike)]
    change Except.ok _ = Except.ok _
    congr 2
    unfold stdDev
    rcases a.isNormal with _ | _
    · simp only [Bool.false_eq_true, if_false]
      split
      · ring
      · simp [binaryPayoff]
    · simp only [if_true]
      split
      · ring
      · simp [binaryPayoff]
  · simp only [Option.getD_some]
    change Except.ok _ = Except.ok _
    congr 2
    rcases c with _ | _
    · rw [expectation_kink h hp (binary_kink_put a.strike)]
      unfold stdDev
      rcases a.isNormal with _ | _
      · simp only [Bool.false_eq_true, if_false]
        split
        · ring
        · simp only [binaryPayoff, Bool.false_eq_true, if_false, gt_iff_lt]
          split <;> ring
      · simp only [if_true, if_false, Bool.false_eq_true]
        split
        · ring
        · simp only [binaryPayoff, Bool.false_eq_true, if_false, gt_iff_lt]
          split <;> ring
    · rw [expectation_kink h hp (binary_kink_call a.strike)]
      unfold stdDev
      rcases a.isNormal with _ | _
      · simp only [if_true, Bool.false_eq_true, if_false]
        split
        · ring
        · simp [binaryPayoff]
      · simp only [if_true]
        split
        · ring
        · simp [binaryPayoff]

/-- C32 (partial): a vanilla call is an asset-or-nothing call less `strike` cash-or-nothing calls, and a vanilla put is
`strike` cash-or-nothing puts less an asset-or-nothing put, if the forward is given or there are no dividends. -/
theorem C32_decomposition_partial (a : BsArgs) (h : ValidArgs a) (hp : Positive a)
    (hq : a.forward = none → a.dividendRate.getD 0 = 0) :
    ∃ v w b, optionPrice a = .ok v ∧ assetOrNothingPrice a = .ok w ∧ binaryPrice a = .ok b ∧
      v = if a.isCall.getD true then w - a.strike * b else a.strike * b - w := by
  refine ⟨_, _, _, C31_expectation a h hp, C32_asset_expectation a h hp, C32_binary_expectation_partial a h hp hq, ?_⟩
  rcases a.isCall.getD true with _ | _
  · rw [expectation_kink h hp (vanilla_kink_put a.strike), expectation_kink h hp (asset_kink_put a.strike),
      expectation_kink h hp (binary_kink_put a.strike)]
    simp only [Bool.false_eq_true, if_false]
    split
    · split <;> ring
    · have : vanillaPayoff false a.strike (forward a) =
          a.strike * binaryPayoff false a.strike (forward a) - assetPayoff false a.strike (forward a) := by
        rw [(vanilla_kink_put a.strike).eq, (binary_kink_put a.strike).eq, (asset_kink_put a.strike).eq]
        split <;> ring
      rw [this]; ring
  · rw [expectation_kink h hp (vanilla_kink_call a.strike), expectation_kink h hp (asset_kink_call a.strike),
      expectation_kink h hp (binary_kink_call a.strike)]
    simp only [if_true]
    split
    · split <;> ring
    · have : vanillaPayoff true a.strike (forward a) =
          assetPayoff true a.strike (forward a) - a.strike * binaryPayoff true a.strike (forward a) := by
        rw [(vanilla_kink_call a.strike).eq, (binary_kink_call a.strike).eq, (asset_kink_call a.strike).eq]
        split <;> ring
      rw [this]; ring

/-- C32: a binary call and a binary put together pay one unit for certain; an asset-or-nothing call and put together are the
asset. (In every supply mode.) -/
theorem C32_call_plus_put (a : BsArgs) (h : ValidArgs a) :
    (∃ c p, binaryPrice { a with isCall := some true } = .ok c ∧ binaryPrice { a with isCall := some false } = .ok p ∧
      c + p = discount a) ∧
    (∃ c p, assetOrNothingPrice { a with isCall := some true } = .ok c ∧
      assetOrNothingPrice { a with isCall := some false } = .ok p ∧ c + p = discount a * forward a) := by
  have hf' : ∀ b, bsForward { a with isCall := b } = forward a := fun _ => forward_eq a h
  have hd' : ∀ b, (bsDiscounting { a with isCall := b }).2 = discount a := fun _ => discount_eq a
  have hb' : ∀ b, binaryForward { a with isCall := b } = binaryForward a := fun _ => rfl
  have h1 : bsCheck { a with isCall := some true } = .ok () := bsCheck_ok a h
  have h2 : bsCheck { a with isCall := some false } = .ok () := bsCheck_ok a h
  constructor
  · unfold binaryPrice
    rw [h1, h2]
    refine ⟨_, _, rfl, rfl, ?_⟩
    simp only [Bool.false_eq_true, if_false, if_true, hb', hd']
    ring
  · unfold assetOrNothingPrice
    rw [h1, h2]
    refine ⟨_, _, rfl, rfl, ?_⟩
    simp only [Bool.false_eq_true, if_false, if_true, hf', hd']
    ring

/-- Deviation: `binary_price` carries a spot to expiry without taking off the dividends. So for every option on a spot with
a dividend rate other than zero (positive volatility and expiry), the decomposition of the vanilla call fails. -/
theorem C32_binary_ignores_dividends (a : BsArgs) (h : ValidArgs a) (hn : a.isNormal = false) (hc : a.isCall = some true)
    (s q : ℝ) (hs : a.spot = some s) (hspos : 0 < s) (hK : 0 < a.strike) (hq : a.dividendRate = some q) (hq0 : q ≠ 0)
    (hv : 0 < a.volatility) (hT : 0 < a.expiry) :
    ∃ v w b, optionPrice a = .ok v ∧ assetOrNothingPrice a = .ok w ∧ binaryPrice a = .ok b ∧ v ≠ w - a.strike * b := by
  have hfwd : a.forward = none := by
    have := h.one
    rw [hs] at this
    rcases hf : a.forward with _ | f
    · rfl
    · rw [hf] at this; simp at this
  have hD := discount_pos a h
  have hF : forward a = s * Real.exp (-(q * a.expiry)) / discount a := by
    simp [forward, hfwd, hs, hq]
  have hFpos : 0 < forward a := by rw [hF]; positivity
  have hp : Positive a := fun _ => ⟨hFpos, hK⟩
  have hsd : 0 < stdDev a := mul_pos hv (Real.sqrt_pos.mpr hT)
  have hsd' : a.volatility * Real.sqrt a.expiry > 0 := hsd
  have hb : binaryPrice a = .ok (discount a * normalCdf (Real.log (s / discount a / a.strike) / stdDev a - stdDev a / 2)) := by
    unfold binaryPrice
    rw [bsCheck_ok a h]
    have h1 : binaryForward a = s / discount a := by simp [binaryForward, hfwd, hs, discount_eq]
    simp only [h1, discount_eq, ncdf_eq, hc, hn, Bool.false_eq_true, if_false, if_true, hsd']
    rfl
  refine ⟨_, _, _, C31_expectation a h hp, C32_asset_expectation a h hp, hb, ?_⟩
  rw [hc]
  simp only [Option.getD_some]
  rw [expectation_kink h hp (vanilla_kink_call a.strike), expectation_kink h hp (asset_kink_call a.strike)]
  simp only [gt_iff_lt, hsd, if_true, hn, Bool.false_eq_true, if_false]
  intro heq
  have h1 : normalCdf (Real.log (forward a / a.strike) / stdDev a - stdDev a / 2) =
      normalCdf (Real.log (s / discount a / a.strike) / stdDev a - stdDev a / 2) := by
    have h2 : discount a * a.strike * normalCdf (Real.log (forward a / a.strike) / stdDev a - stdDev a / 2) =
        discount a * a.strike * normalCdf (Real.log (s / discount a / a.strike) / stdDev a - stdDev a / 2) := by
      linarith
    exact mul_left_cancel₀ (mul_pos hD hK).ne' h2
  have h3 := normalCdf_strictMono.injective h1
  have h4 : Real.log (forward a / a.strike) = Real.log (s / discount a / a.strike) := by
    have h5 : Real.log (forward a / a.strike) / stdDev a = Real.log (s / discount a / a.strike) / stdDev a := by linarith
    rw [div_left_inj' hsd.ne'] at h5
    exact h5
  have h6 : forward a / a.strike = s / discount a / a.strike :=
    Real.log_injOn_pos (Set.mem_Ioi.mpr (div_pos hFpos hK)) (Set.mem_Ioi.mpr (by positivity)) h4
  rw [hF] at h6
  have h7 : Real.exp (-(q * a.expiry)) = 1 := by
    field_simp at h6
    exact h6
  rw [Real.exp_eq_one_iff] at h7
  have := mul_ne_zero hq0 hT.ne'
  exact this (by linarith)

/-- The hypotheses of the decomposition hold for a forward with a discount factor. -/
example : ∃ a : BsArgs, ValidArgs a ∧ Positive a ∧ a.forward = some 100 ∧ a.discountFactor = some (9 / 10) ∧ 0 < stdDev a := by
  refine ⟨{ volatility := 1 / 5
            strike := 90
            expiry := 2
            forward := some 100
            discountFactor := some (9 / 10)
            dividendRate := some 1 }, ⟨by simp, by simp, by norm_num, by norm_num, ?_⟩, ?_, rfl, rfl, ?_⟩
  · intro df hdf
    simp only [Option.some.injEq] at hdf
    subst hdf
    exact ⟨by norm_num, by simp⟩
  · intro _
    exact ⟨by norm_num [forward], by norm_num⟩
  · exact mul_pos (by norm_num) (Real.sqrt_pos.mpr (by norm_num))

/-- The hypotheses of the deviation hold for the option of `exArgs`. -/
example : ValidArgs { exArgs with isCall := some true } ∧ exArgs.spot = some 90 ∧ exArgs.dividendRate = some (1 / 50) :=
  ⟨⟨exArgs_valid.1.one, exArgs_valid.1.atMostOne, exArgs_valid.1.volatility, exArgs_valid.1.expiry, exArgs_valid.1.factor⟩, rfl, rfl⟩

end Props
