import Verif.Props.VanillaPrices

/-! # C135 Swaptions in the Black and Bachelier models -/

namespace Spec
open scoped BigOperators

/-- The value of the floating leg per unit of notional: each period pays one at its start and takes one back at its end. -/
def floatingLeg (startDfs endDfs : List ℝ) : ℝ := ∑ k ∈ Finset.range startDfs.length, (startDfs.getD k 0 - endDfs.getD k 0)

/-- The value of payments of the year fractions. -/
def levelOf (daycounts dfs : List ℝ) : ℝ := ∑ k ∈ Finset.range daycounts.length, daycounts.getD k 0 * dfs.getD k 0

/-- The law of the swap rate at expiry: normal or lognormal, with the forward swap rate as its mean. -/
noncomputable def swapRateExpectation (isNormal : Bool) (rate sd : ℝ) (f : ℝ → ℝ) : ℝ := if isNormal then normalExpectation rate sd f else lognormalExpectation rate sd f

end Spec

namespace Lemmas
open Model Spec
open scoped BigOperators

theorem zipWith_range_sum (f : ℝ → ℝ → ℝ) (xs ys : List ℝ) (h : xs.length = ys.length) :
    (List.zipWith f xs ys).sum = ∑ k ∈ Finset.range xs.length, f (xs.getD k 0) (ys.getD k 0) := by
  induction xs generalizing ys with
  | nil => simp
  | cons x xs ih =>
    cases ys with
    | nil => simp at h
    | cons y ys =>
      rw [List.zipWith_cons_cons, List.sum_cons, ih ys (by simpa using h), List.length_cons, Finset.sum_range_succ']
      simp only [List.getD_cons_succ, List.getD_cons_zero]
      ring

theorem swaption_args (volatility expiry coupon rate : ℝ) (isPayer isNormal : Bool) (hv : 0 ≤ volatility) (ht : 0 ≤ expiry) :
    ValidArgs { volatility := volatility, strike := coupon, expiry := expiry, forward := some rate, isCall := some isPayer, isNormal := isNormal } :=
  ⟨by simp, by simp, hv, ht, by simp⟩

end Lemmas

namespace Props
open Model Spec Lemmas
open scoped BigOperators

/-- C135: the price of a swaption is the notional times the level of the fixed leg times the expectation of the positive part of the difference of the swap rate and the coupon,
under the normal or lognormal law of the swap rate. -/
theorem C135_expectation (volatility expiry coupon notional : ℝ) (startDfs endDfs daycounts fixedDfs : List ℝ) (isPayer isNormal : Bool) (hv : 0 ≤ volatility) (ht : 0 ≤ expiry)
    (h1 : startDfs.length = endDfs.length) (h2 : daycounts.length = fixedDfs.length) (hpos : isNormal = false → 0 < floatingLeg startDfs endDfs / levelOf daycounts fixedDfs ∧ 0 < coupon) :
    swaptionPrice volatility expiry startDfs endDfs daycounts fixedDfs coupon (some notional) (some isPayer) isNormal =
      .ok (notional * levelOf daycounts fixedDfs * swapRateExpectation isNormal (floatingLeg startDfs endDfs / levelOf daycounts fixedDfs) (volatility * Real.sqrt expiry)
        (fun r => max (if isPayer then r - coupon else coupon - r) 0)) ∧
    swaptionPrice volatility expiry startDfs endDfs daycounts fixedDfs coupon (some notional) none isNormal =
      swaptionPrice volatility expiry startDfs endDfs daycounts fixedDfs coupon (some notional) (some true) isNormal := by
  refine ⟨?_, rfl⟩
  unfold swaptionPrice
  simp only [Option.elim_some, Option.getD_some]
  rw [zipWith_range_sum _ startDfs endDfs h1, zipWith_range_sum _ daycounts fixedDfs h2]
  change ((optionPrice { volatility := volatility, strike := coupon, expiry := expiry, forward := some (floatingLeg startDfs endDfs /
    levelOf daycounts fixedDfs), isCall := some isPayer, isNormal := isNormal }) >>= fun v => (pure (notional * levelOf daycounts fixedDfs * v) : Except String ℝ)) = _
  rw [C31_expectation _ (swaption_args volatility expiry coupon _ isPayer isNormal hv ht) hpos]
  change Except.ok _ = Except.ok _
  congr 2
  have hp : vanillaPayoff isPayer coupon = fun r => max (if isPayer then r - coupon else coupon - r) 0 := by
    funext r
    cases isPayer <;> simp [vanillaPayoff]
  simp only [discount, expectation, forward, stdDev, one_mul, Option.getD_some, hp, swapRateExpectation]

/-- C135: payer minus receiver is the value of the swap: floating leg minus coupons. -/
theorem C135_parity (volatility expiry coupon notional : ℝ) (startDfs endDfs daycounts fixedDfs : List ℝ) (isNormal : Bool) (hv : 0 ≤ volatility) (ht : 0 ≤ expiry)
    (h1 : startDfs.length = endDfs.length) (h2 : daycounts.length = fixedDfs.length) (hl : levelOf daycounts fixedDfs ≠ 0) :
    ∃ p r, swaptionPrice volatility expiry startDfs endDfs daycounts fixedDfs coupon (some notional) (some true) isNormal = .ok p ∧
      swaptionPrice volatility expiry startDfs endDfs daycounts fixedDfs coupon (some notional) (some false) isNormal = .ok r ∧
      p - r = notional * (floatingLeg startDfs endDfs - coupon * levelOf daycounts fixedDfs) := by
  obtain ⟨c, p, hc, hp, he⟩ := C31_put_call_parity _ (swaption_args volatility expiry coupon (floatingLeg startDfs endDfs / levelOf daycounts fixedDfs) true isNormal hv ht)
  unfold swaptionPrice
  simp only [Option.elim_some, Option.getD_some]
  rw [zipWith_range_sum _ startDfs endDfs h1, zipWith_range_sum _ daycounts fixedDfs h2]
  change optionPrice { volatility := volatility, strike := coupon, expiry := expiry, forward := some ((∑ k ∈ Finset.range startDfs.length, (startDfs.getD k 0 - endDfs.getD k 0)) /
    ∑ k ∈ Finset.range daycounts.length, daycounts.getD k 0 * fixedDfs.getD k 0), isCall := some true, isNormal := isNormal } = .ok c at hc
  change optionPrice { volatility := volatility, strike := coupon, expiry := expiry, forward := some ((∑ k ∈ Finset.range startDfs.length, (startDfs.getD k 0 - endDfs.getD k 0)) /
    ∑ k ∈ Finset.range daycounts.length, daycounts.getD k 0 * fixedDfs.getD k 0), isCall := some false, isNormal := isNormal } = .ok p at hp
  rw [hc, hp]
  refine ⟨_, _, rfl, rfl, ?_⟩
  simp only [discount, forward, one_mul] at he
  rw [← mul_sub, he]
  change notional * levelOf daycounts fixedDfs * _ = _
  field_simp

/-- C135: a swaption is worth at least what its exercise is worth today, and in the lognormal model a payer swaption at most the floating leg and a receiver swaption at most the
coupons. -/
theorem C135_bounds (volatility expiry coupon notional : ℝ) (startDfs endDfs daycounts fixedDfs : List ℝ) (isPayer isNormal : Bool) (hv : 0 ≤ volatility) (ht : 0 ≤ expiry)
    (h1 : startDfs.length = endDfs.length) (h2 : daycounts.length = fixedDfs.length) (hl : 0 < levelOf daycounts fixedDfs) (hN : 0 ≤ notional)
    (hpos : isNormal = false → 0 < floatingLeg startDfs endDfs ∧ 0 < coupon) :
    ∃ v, swaptionPrice volatility expiry startDfs endDfs daycounts fixedDfs coupon (some notional) (some isPayer) isNormal = .ok v ∧
      notional * max (if isPayer then floatingLeg startDfs endDfs - coupon * levelOf daycounts fixedDfs else coupon * levelOf daycounts fixedDfs - floatingLeg startDfs endDfs) 0 ≤ v ∧
      (isNormal = false → v ≤ notional * if isPayer then floatingLeg startDfs endDfs else coupon * levelOf daycounts fixedDfs) := by
  obtain ⟨v, hv', hlow, hup⟩ := C31_bounds _ (swaption_args volatility expiry coupon (floatingLeg startDfs endDfs / levelOf daycounts fixedDfs) isPayer isNormal hv ht)
    (fun h => ⟨div_pos (hpos h).1 hl, (hpos h).2⟩)
  unfold swaptionPrice
  simp only [Option.elim_some, Option.getD_some]
  rw [zipWith_range_sum _ startDfs endDfs h1, zipWith_range_sum _ daycounts fixedDfs h2]
  change optionPrice { volatility := volatility, strike := coupon, expiry := expiry, forward := some ((∑ k ∈ Finset.range startDfs.length, (startDfs.getD k 0 - endDfs.getD k 0)) /
    ∑ k ∈ Finset.range daycounts.length, daycounts.getD k 0 * fixedDfs.getD k 0), isCall := some isPayer, isNormal := isNormal } = .ok v at hv'
  rw [hv']
  refine ⟨_, rfl, ?_, fun hn => ?_⟩
  · change _ ≤ notional * levelOf daycounts fixedDfs * v
    simp only [discount, forward, one_mul, Option.getD_some] at hlow
    rw [mul_assoc]
    refine mul_le_mul_of_nonneg_left ?_ hN
    refine le_trans (le_of_eq ?_) (mul_le_mul_of_nonneg_left hlow hl.le)
    cases isPayer
    · simp only [vanillaPayoff, Bool.false_eq_true, if_false, mul_max_of_nonneg _ _ hl.le, mul_zero]
      congr 1
      field_simp
    · simp only [vanillaPayoff, if_true, mul_max_of_nonneg _ _ hl.le, mul_zero]
      congr 1
      field_simp
  · change notional * levelOf daycounts fixedDfs * v ≤ _
    have h := hup hn
    simp only [discount, forward, one_mul, Option.getD_some] at h
    rw [mul_assoc]
    refine mul_le_mul_of_nonneg_left ?_ hN
    refine (mul_le_mul_of_nonneg_left h hl.le).trans (le_of_eq ?_)
    cases isPayer
    · simp only [Bool.false_eq_true, if_false]; ring
    · simp only [if_true]; field_simp

/-- C135: if each floating period starts where the one before ends, the floating leg is worth the difference of the first and the last discount factor. -/
theorem C135_consecutive (dfs : List ℝ) : floatingLeg dfs.dropLast dfs.tail = dfs.getD 0 0 - dfs.getD (dfs.length - 1) 0 := by
  unfold floatingLeg
  rw [List.length_dropLast, ← Finset.sum_range_sub' (fun k => dfs.getD k 0)]
  refine Finset.sum_congr rfl fun k hk => ?_
  have hk' := Finset.mem_range.1 hk
  congr 1
  · simp only [List.getD_eq_getElem?_getD]
    rw [List.getElem?_dropLast, if_pos hk']
  · simp only [List.getD_eq_getElem?_getD]
    rw [List.getElem?_tail]

/-- C135 (deviation): without a notional the documentation promises the notional 1, but there is an error. -/
theorem C135_default_notional_fails (volatility expiry coupon : ℝ) (startDfs endDfs daycounts fixedDfs : List ℝ) (isPayer : Option Bool) (isNormal : Bool) :
    ∃ e, swaptionPrice volatility expiry startDfs endDfs daycounts fixedDfs coupon none isPayer isNormal = .error e := ⟨_, rfl⟩

/-- A payer swaption on one period of one year with discount factors 1 and 4/5 and coupon 1/5 at expiry now: the swap rate is 1/4 and exercise gives 100 (1/5 - 4/25). -/
example : swaptionPrice (1 / 100) 0 [1] [4 / 5] [1] [4 / 5] (1 / 5) (some 100) none true = .ok 4 := by
  norm_num [swaptionPrice, optionPrice, bsCheck, bsDiscounting, bsForward, bind, Except.bind, pure, Except.pure]

end Props
