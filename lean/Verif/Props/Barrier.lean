import Verif.Lemmas.Barrier
import Verif.Props.VanillaPrices

/-! # C33 Barrier options -/

namespace Spec
open Model

/-- Positive prices, volatility and expiry. -/
structure ValidBarrier (a : BarrierArgs) : Prop where
  volatility : 0 < a.volatility
  strike : 0 < a.strike
  expiry : 0 < a.expiry
  spot : 0 < a.spot
  barrier : 0 < a.barrier

/-- The vanilla option with the same parameters. -/
def vanillaOf (a : BarrierArgs) : BsArgs where
  volatility := a.volatility
  strike := a.strike
  expiry := a.expiry
  spot := some a.spot
  discountRate := a.discountRate
  dividendRate := a.dividendRate
  isCall := a.isCall

/-- The expectation over the paths that never touch the barrier. -/
noncomputable def survival (a : BarrierArgs) (f : ℝ → ℝ) : ℝ :=
  survivalExpectation (a.isDown.getD true) a.barrier a.spot (a.discountRate.getD 0) (a.dividendRate.getD 0) a.volatility
    a.expiry f

/-- The same option with the unit of time `c` times shorter: `c` times the expiry, rates and variance per unit of time are
divided by `c`. -/
noncomputable def inUnit (c : ℝ) (a : BarrierArgs) : BarrierArgs where
  volatility := a.volatility / Real.sqrt c
  strike := a.strike
  expiry := a.expiry * c
  spot := a.spot
  barrier := a.barrier
  rebate := a.rebate
  discountRate := a.discountRate.map (· / c)
  dividendRate := a.dividendRate.map (· / c)
  isDown := a.isDown
  isKnockOut := a.isKnockOut
  isCall := a.isCall

end Spec

namespace Lemmas
open Model Spec

noncomputable def barrierSum (masks : List Int) (sp st R D p2 p0 f1 f2 φ η x x1 y y1 s z1 z2 : ℝ) : ℝ :=
  (List.zipWith (· * ·) (List.zipWith (fun (m : Int) t => (m : ℝ) * t) masks
    [sp, -st, sp, -st, sp * p2, -st * p0, sp * p2, -st * p0, R * D, -R * D * p0, R * f1, R * f2])
    ([φ * x, φ * (x - s), φ * x1, φ * (x1 - s), η * y, η * (y - s), η * y1, η * (y1 - s), η * (x1 - s), η * (y1 - s),
      η * z1, η * z2].map ncdf)).sum

noncomputable def barrierMask (a : BarrierArgs) : List Int :=
  (if a.strike > a.barrier then barrierMasksGreater else barrierMasksLower).getD (barrierIndex a) []

noncomputable def bRate (a : BarrierArgs) : ℝ := a.discountRate.getD 0
noncomputable def bDiv (a : BarrierArgs) : ℝ := a.dividendRate.getD 0
noncomputable def bDrift (a : BarrierArgs) : ℝ := bRate a - bDiv a - a.volatility ^ 2 / 2
noncomputable def bMean (a : BarrierArgs) : ℝ := bDrift a * a.expiry
noncomputable def bStd (a : BarrierArgs) : ℝ := a.volatility * Real.sqrt a.expiry
noncomputable def bLevel (a : BarrierArgs) : ℝ := Real.log (a.barrier / a.spot)
noncomputable def bStrike (a : BarrierArgs) : ℝ := Real.log (a.strike / a.spot)
noncomputable def bDf (a : BarrierArgs) : ℝ := Real.exp (-bRate a * a.expiry)
noncomputable def bWeight (a : BarrierArgs) : ℝ := Real.exp (2 * bDrift a * bLevel a / a.volatility ^ 2)
noncomputable def bB (a : BarrierArgs) : ℝ :=
  (bDrift a ^ 2 + 2 * (a.volatility ^ 2) * bRate a) / (a.volatility ^ 2)
noncomputable def bSign (o : Option Bool) : ℝ := if o.getD true then 1 else -1
noncomputable def bA (a : BarrierArgs) : ℝ := bDrift a / a.volatility ^ 2

theorem bStd_pos {a : BarrierArgs} (h : ValidBarrier a) : 0 < bStd a :=
  mul_pos h.volatility (Real.sqrt_pos.mpr h.expiry)

theorem bStd_sq {a : BarrierArgs} (h : ValidBarrier a) : bStd a ^ 2 = a.volatility ^ 2 * a.expiry := by
  unfold bStd; rw [mul_pow, Real.sq_sqrt h.expiry.le]

/-- The code's price with all its ingredients written through mean and standard deviation of the log price. -/
theorem barrierPrice_form {a : BarrierArgs} (h : ValidBarrier a) :
    barrierPrice a = barrierSum (barrierMask a)
      (bSign a.isCall * (a.spot * Real.exp (-bDiv a * a.expiry))) (bSign a.isCall * (a.strike * bDf a))
      (a.rebate.getD 0) (bDf a) (bWeight a * (a.barrier / a.spot) ^ 2) (bWeight a)
      (Real.exp (bLevel a * (bA a + bB a))) (Real.exp (bLevel a * (bA a - bB a)))
      (bSign a.isCall) (bSign a.isDown)
      ((bMean a - bStrike a) / bStd a + bStd a) ((bMean a - bLevel a) / bStd a + bStd a)
      ((2 * bLevel a + bMean a - bStrike a) / bStd a + bStd a)
      ((2 * bLevel a + bMean a - bLevel a) / bStd a + bStd a)
      (bStd a) (bLevel a / bStd a + bB a * bStd a) (bLevel a / bStd a + bB a * bStd a - 2 * bB a * bStd a) := by
  have hs := bStd_pos h
  have hσ := h.volatility
  have hS := h.spot
  have hK := h.strike
  have hB := h.barrier
  have hlam : (1 + bDrift a / a.volatility ^ 2) * bStd a = bMean a / bStd a + bStd a := by
    have e : bDrift a / a.volatility ^ 2 * bStd a = bMean a / bStd a := by
      rw [div_mul_eq_mul_div, div_eq_div_iff (by positivity) hs.ne', mul_assoc, ← pow_two, bStd_sq h]
      unfold bMean; ring
    rw [add_mul, e]; ring
  have hx : Real.log (a.spot / a.strike) / bStd a + (1 + bDrift a / a.volatility ^ 2) * bStd a =
      (bMean a - bStrike a) / bStd a + bStd a := by
    rw [hlam]; unfold bStrike; rw [Real.log_div hS.ne' hK.ne', Real.log_div hK.ne' hS.ne']; ring
  have hx1 : Real.log (a.spot / a.barrier) / bStd a + (1 + bDrift a / a.volatility ^ 2) * bStd a =
      (bMean a - bLevel a) / bStd a + bStd a := by
    rw [hlam]; unfold bLevel; rw [Real.log_div hS.ne' hB.ne', Real.log_div hB.ne' hS.ne']; ring
  have hy : Real.log (a.barrier ^ 2 / (a.spot * a.strike)) / bStd a + (1 + bDrift a / a.volatility ^ 2) * bStd a =
      (2 * bLevel a + bMean a - bStrike a) / bStd a + bStd a := by
    rw [hlam]; unfold bLevel bStrike
    rw [Real.log_div (by positivity) (by positivity), Real.log_pow, Real.log_mul hS.ne' hK.ne',
      Real.log_div hB.ne' hS.ne', Real.log_div hK.ne' hS.ne']
    push_cast; ring
  have hy1 : Real.log (a.barrier / a.spot) / bStd a + (1 + bDrift a / a.volatility ^ 2) * bStd a =
      (2 * bLevel a + bMean a - bLevel a) / bStd a + bStd a := by
    rw [hlam]; unfold bLevel; ring
  have hr : 0 < a.barrier / a.spot := div_pos hB hS
  have hp0 : (a.barrier / a.spot) ^ (2 * (1 + bDrift a / a.volatility ^ 2) - 2) = bWeight a := by
    rw [Real.rpow_def_of_pos hr]; unfold bWeight bLevel; congr 1; ring
  have hp2 : (a.barrier / a.spot) ^ (2 * (1 + bDrift a / a.volatility ^ 2)) = bWeight a * (a.barrier / a.spot) ^ 2 := by
    rw [← hp0, ← Real.rpow_natCast (a.barrier / a.spot) 2, ← Real.rpow_add hr]; congr 1; push_cast; ring
  have hf : ∀ e, (a.barrier / a.spot) ^ e = Real.exp (bLevel a * e) := fun e => Real.rpow_def_of_pos hr e
  have e0 : barrierPrice a = barrierSum (barrierMask a)
      (bSign a.isCall * a.spot * Real.exp (-bDiv a * a.expiry)) (bSign a.isCall * a.strike * bDf a)
      (a.rebate.getD 0) (bDf a) ((a.barrier / a.spot) ^ (2 * (1 + bDrift a / a.volatility ^ 2)))
      ((a.barrier / a.spot) ^ (2 * (1 + bDrift a / a.volatility ^ 2) - 2))
      ((a.barrier / a.spot) ^ (bA a + bB a)) ((a.barrier / a.spot) ^ (bA a - bB a))
      (bSign a.isCall) (bSign a.isDown)
      (Real.log (a.spot / a.strike) / bStd a + (1 + bDrift a / a.volatility ^ 2) * bStd a)
      (Real.log (a.spot / a.barrier) / bStd a + (1 + bDrift a / a.volatility ^ 2) * bStd a)
      (Real.log (a.barrier ^ 2 / (a.spot * a.strike)) / bStd a + (1 + bDrift a / a.volatility ^ 2) * bStd a)
      (Real.log (a.barrier / a.spot) / bStd a + (1 + bDrift a / a.volatility ^ 2) * bStd a)
      (bStd a) (bLevel a / bStd a + bB a * bStd a) (bLevel a / bStd a + bB a * bStd a - 2 * bB a * bStd a) := rfl
  rw [e0, hx, hx1, hy, hy1, hp0, hp2, hf, hf, mul_assoc, mul_assoc]

theorem ncdf_neg (x : ℝ) : ncdf (-x) = 1 - ncdf x := by rw [ncdf_eq, ncdf_eq, normalCdf_neg]

/-- The rebate part of a knock-out option. -/
noncomputable def bKoRebate (a : BarrierArgs) : ℝ :=
  Real.exp (bLevel a * (bA a + bB a)) * ncdf (bSign a.isDown * (bLevel a / bStd a + bB a * bStd a)) +
    Real.exp (bLevel a * (bA a - bB a)) *
      ncdf (bSign a.isDown * (bLevel a / bStd a + bB a * bStd a - 2 * bB a * bStd a))

/-- The rebate part of a knock-in option. -/
noncomputable def bKiRebate (a : BarrierArgs) : ℝ :=
  bDf a * (ncdf (bSign a.isDown * ((bMean a - bLevel a) / bStd a)) -
    bWeight a * ncdf (bSign a.isDown * ((2 * bLevel a + bMean a - bLevel a) / bStd a)))

/-- Coefficients (constant, above the strike, above the barrier) of the surviving payoff, in units of spot less strike. -/
noncomputable def bCoeffs (a : BarrierArgs) : ℝ × ℝ × ℝ :=
  match a.isDown.getD true, a.isCall.getD true with
  | true, true => if a.strike > a.barrier then (0, 1, 0) else (0, 0, 1)
  | true, false => if a.strike > a.barrier then (0, 1, -1) else (0, 0, 0)
  | false, true => if a.strike > a.barrier then (0, 0, 0) else (0, 1, -1)
  | false, false => if a.strike > a.barrier then (-1, 0, 1) else (-1, 1, 0)

theorem bForward_mean {a : BarrierArgs} (h : ValidBarrier a) :
    bDf a * (a.spot * Real.exp (bMean a + bStd a ^ 2 / 2)) = a.spot * Real.exp (-bDiv a * a.expiry) := by
  rw [bStd_sq h]; unfold bDf bMean bDrift
  rw [mul_left_comm, ← Real.exp_add]; congr 2; ring

theorem bForward_image {a : BarrierArgs} (h : ValidBarrier a) :
    bDf a * (a.spot * Real.exp (2 * bLevel a + bMean a + bStd a ^ 2 / 2)) =
      a.spot * Real.exp (-bDiv a * a.expiry) * (a.barrier / a.spot) ^ 2 := by
  rw [← bForward_mean h, add_assoc, Real.exp_add, two_mul, Real.exp_add]
  unfold bLevel
  rw [Real.exp_log (div_pos h.barrier h.spot)]
  ring

/-- The surviving part of the price. -/
noncomputable def bSurvive (a : BarrierArgs) : ℝ :=
  bDf a * (kink2Value a.spot 1 (-a.strike) (bCoeffs a).1 (bCoeffs a).2.1 (bStrike a) (bCoeffs a).2.2 (bLevel a) (bMean a)
      (bStd a) -
    bWeight a * kink2Value a.spot 1 (-a.strike) (bCoeffs a).1 (bCoeffs a).2.1 (bStrike a) (bCoeffs a).2.2 (bLevel a)
      (2 * bLevel a + bMean a) (bStd a))

/-- The vanilla price. -/
noncomputable def bVanilla (a : BarrierArgs) : ℝ :=
  bSign a.isCall * (a.spot * Real.exp (-bDiv a * a.expiry) *
      normalCdf (bSign a.isCall * ((bMean a - bStrike a) / bStd a + bStd a)) -
    a.strike * bDf a * normalCdf (bSign a.isCall * ((bMean a - bStrike a) / bStd a)))

/-- The one row of the tables with the wrong rebate columns. -/
def WrongRebate (a : BarrierArgs) : Prop :=
  a.isDown.getD true = true ∧ a.isCall.getD true = false ∧ a.isKnockOut.getD true = false ∧ a.strike > a.barrier

theorem barrierSum_expand (m1 m2 m3 m4 m5 m6 m7 m8 m9 m10 m11 m12 : Int)
    (sp st R D p2 p0 f1 f2 φ η u ub v vb s z1 z2 : ℝ) :
    barrierSum [m1, m2, m3, m4, m5, m6, m7, m8, m9, m10, m11, m12] sp st R D p2 p0 f1 f2 φ η (u + s) (ub + s) (v + s)
      (vb + s) s z1 z2 =
      m1 * sp * ncdf (φ * (u + s)) + m2 * -st * ncdf (φ * u) + m3 * sp * ncdf (φ * (ub + s)) + m4 * -st * ncdf (φ * ub) +
      m5 * (sp * p2) * ncdf (η * (v + s)) + m6 * (-st * p0) * ncdf (η * v) + m7 * (sp * p2) * ncdf (η * (vb + s)) +
      m8 * (-st * p0) * ncdf (η * vb) + m9 * (R * D) * ncdf (η * ub) + m10 * (-R * D * p0) * ncdf (η * vb) +
      m11 * (R * f1) * ncdf (η * z1) + m12 * (R * f2) * ncdf (η * z2) := by
  simp only [barrierSum, List.zipWith_cons_cons, List.zipWith_nil_left, List.map_cons, List.map_nil, List.sum_cons,
    List.sum_nil, add_sub_cancel_right]
  ring

theorem barrierPrice_cases {a : BarrierArgs} (h : ValidBarrier a) :
    barrierPrice a = if a.isKnockOut.getD true then bSurvive a + a.rebate.getD 0 * bKoRebate a
      else bVanilla a - bSurvive a + a.rebate.getD 0 * (if a.isDown.getD true = true ∧ a.isCall.getD true = false ∧
        a.strike > a.barrier then bKoRebate a else bKiRebate a) := by
  have hm := bForward_mean h
  have hi := bForward_image h
  have hsurv : ∀ c0 ck cb, bDf a * (kink2Value a.spot 1 (-a.strike) c0 ck (bStrike a) cb (bLevel a) (bMean a) (bStd a) -
      bWeight a * kink2Value a.spot 1 (-a.strike) c0 ck (bStrike a) cb (bLevel a) (2 * bLevel a + bMean a) (bStd a)) =
      a.spot * Real.exp (-bDiv a * a.expiry) * (c0 + ck * normalCdf ((bMean a - bStrike a) / bStd a + bStd a) +
        cb * normalCdf ((bMean a - bLevel a) / bStd a + bStd a)) - a.strike * bDf a *
        (c0 + ck * normalCdf ((bMean a - bStrike a) / bStd a) + cb * normalCdf ((bMean a - bLevel a) / bStd a)) -
      bWeight a * (a.spot * Real.exp (-bDiv a * a.expiry) * (a.barrier / a.spot) ^ 2 *
        (c0 + ck * normalCdf ((2 * bLevel a + bMean a - bStrike a) / bStd a + bStd a) +
        cb * normalCdf ((2 * bLevel a + bMean a - bLevel a) / bStd a + bStd a)) - a.strike * bDf a *
        (c0 + ck * normalCdf ((2 * bLevel a + bMean a - bStrike a) / bStd a) +
        cb * normalCdf ((2 * bLevel a + bMean a - bLevel a) / bStd a))) := by
    intro c0 ck cb
    rw [← hi, ← hm]
    unfold kink2Value
    ring
  rw [barrierPrice_form h]
  unfold bSurvive bVanilla bKoRebate bKiRebate
  rw [hsurv]
  generalize a.spot * Real.exp (-bDiv a * a.expiry) = G
  generalize (bMean a - bStrike a) / bStd a = u
  generalize (bMean a - bLevel a) / bStd a = ub
  generalize (2 * bLevel a + bMean a - bStrike a) / bStd a = v
  generalize (2 * bLevel a + bMean a - bLevel a) / bStd a = vb
  generalize bLevel a / bStd a + bB a * bStd a - 2 * bB a * bStd a = z2
  generalize bLevel a / bStd a + bB a * bStd a = z1
  generalize (a.barrier / a.spot) ^ 2 = h2
  generalize Real.exp (bLevel a * (bA a + bB a)) = f1
  generalize Real.exp (bLevel a * (bA a - bB a)) = f2
  generalize a.rebate.getD 0 = R
  generalize bStd a = s
  generalize bWeight a = w
  generalize bDf a = D
  unfold barrierMask barrierIndex bCoeffs bSign
  dsimp only
  generalize a.isDown.getD true = down
  generalize a.isCall.getD true = call
  generalize a.isKnockOut.getD true = out
  have e : ∀ (l : List Int), l.length = 12 → ∀ (sp st R D p2 p0 f1 f2 φ η u ub v vb s z1 z2 : ℝ),
      barrierSum l sp st R D p2 p0 f1 f2 φ η (u + s) (ub + s) (v + s) (vb + s) s z1 z2 =
      (l.getD 0 0 : Int) * sp * ncdf (φ * (u + s)) + (l.getD 1 0 : Int) * -st * ncdf (φ * u) +
      (l.getD 2 0 : Int) * sp * ncdf (φ * (ub + s)) + (l.getD 3 0 : Int) * -st * ncdf (φ * ub) +
      (l.getD 4 0 : Int) * (sp * p2) * ncdf (η * (v + s)) + (l.getD 5 0 : Int) * (-st * p0) * ncdf (η * v) +
      (l.getD 6 0 : Int) * (sp * p2) * ncdf (η * (vb + s)) +
      (l.getD 7 0 : Int) * (-st * p0) * ncdf (η * vb) + (l.getD 8 0 : Int) * (R * D) * ncdf (η * ub) +
      (l.getD 9 0 : Int) * (-R * D * p0) * ncdf (η * vb) +
      (l.getD 10 0 : Int) * (R * f1) * ncdf (η * z1) + (l.getD 11 0 : Int) * (R * f2) * ncdf (η * z2) := by
    intro l hl
    match l, hl with
    | [m1, m2, m3, m4, m5, m6, m7, m8, m9, m10, m11, m12], _ =>
      intros
      rw [barrierSum_expand]
      rfl
  by_cases hKB : a.strike > a.barrier
  · simp only [hKB, if_true, and_true]
    cases down <;> cases call <;> cases out <;> rw [e _ rfl] <;>
      simp only [barrierMasksGreater, List.getD_cons_zero, List.getD_cons_succ, Bool.false_eq_true, if_true, if_false,
        Nat.reduceShiftLeft, Nat.reduceAdd, Int.cast_one, Int.cast_zero, Int.cast_neg, one_mul, neg_one_mul, ncdf_eq,
        normalCdf_neg, and_self, and_false, false_and, Bool.true_eq_false, and_true] <;> ring
  · simp only [hKB, if_false, and_false]
    cases down <;> cases call <;> cases out <;> rw [e _ rfl] <;>
      simp only [barrierMasksLower, List.getD_cons_zero, List.getD_cons_succ, Bool.false_eq_true, if_true, if_false,
        Nat.reduceShiftLeft, Nat.reduceAdd, Int.cast_one, Int.cast_zero, Int.cast_neg, one_mul, neg_one_mul, ncdf_eq,
        normalCdf_neg] <;> ring

theorem vanillaOf_valid {a : BarrierArgs} (h : ValidBarrier a) : ValidArgs (vanillaOf a) ∧ Positive (vanillaOf a) := by
  have hv : ValidArgs (vanillaOf a) :=
    ⟨by simp [vanillaOf], by simp [vanillaOf], h.volatility.le, h.expiry.le, by simp [vanillaOf]⟩
  refine ⟨hv, fun _ => ⟨?_, h.strike⟩⟩
  have := discount_pos _ hv
  have := h.spot
  simp only [forward, vanillaOf, Option.getD_some] at *
  positivity

theorem vanillaOf_price {a : BarrierArgs} (h : ValidBarrier a) : optionPrice (vanillaOf a) = .ok (bVanilla a) := by
  obtain ⟨hv, hp⟩ := vanillaOf_valid h
  rw [Props.C31_expectation _ hv hp]
  have hs := bStd_pos h
  have hsd : stdDev (vanillaOf a) = bStd a := rfl
  have hD : discount (vanillaOf a) = bDf a := by
    unfold discount vanillaOf bDf bRate
    rcases a.discountRate with _ | r <;> simp
  have hF : forward (vanillaOf a) = a.spot * Real.exp (bMean a + bStd a ^ 2 / 2) := by
    have := bForward_mean h
    have hpos : 0 < bDf a := Real.exp_pos _
    simp only [forward, hD]
    simp only [vanillaOf, Option.getD_some]
    rw [div_eq_iff hpos.ne', mul_comm (a.spot * _), this]
    unfold bDiv
    rw [neg_mul]
  have hK : (vanillaOf a).strike = a.strike := rfl
  have hl : Real.log (forward (vanillaOf a) / a.strike) = bMean a + bStd a ^ 2 / 2 - bStrike a := by
    rw [hF, Real.log_div (by have := h.spot; positivity) h.strike.ne', Real.log_mul h.spot.ne' (Real.exp_pos _).ne',
      Real.log_exp]
    unfold bStrike
    rw [Real.log_div h.strike.ne' h.spot.ne']
    ring
  have e1 : (bMean a + bStd a ^ 2 / 2 - bStrike a) / bStd a + bStd a / 2 = (bMean a - bStrike a) / bStd a + bStd a := by
    field_simp; ring
  have e2 : (bMean a + bStd a ^ 2 / 2 - bStrike a) / bStd a - bStd a / 2 = (bMean a - bStrike a) / bStd a := by
    field_simp; ring
  have hn : (vanillaOf a).isNormal = false := rfl
  have hc : (vanillaOf a).isCall = a.isCall := rfl
  have hm := bForward_mean h
  rw [← hF] at hm
  congr 1
  unfold bVanilla bSign
  rw [hD, hc, ← hm]
  rcases a.isCall.getD true with _ | _
  · rw [expectation_kink hv hp (vanilla_kink_put _), hsd, hn, hK, hl, e1, e2]
    simp only [hs, gt_iff_lt, if_true, Bool.false_eq_true, if_false, neg_one_mul, normalCdf_neg]
    ring
  · rw [expectation_kink hv hp (vanilla_kink_call _), hsd, hn, hK, hl, e1, e2]
    simp only [hs, gt_iff_lt, if_true, Bool.false_eq_true, if_false, one_mul]
    ring

/-- The surviving payoff is affine between strike and barrier. -/
theorem survive_payoff {a : BarrierArgs} (h : ValidBarrier a) (x : ℝ) (hx : x ≠ bLevel a) :
    (if (if a.isDown.getD true then bLevel a < x else x < bLevel a) then
      vanillaPayoff (a.isCall.getD true) a.strike (a.spot * Real.exp x) else 0) =
      kink2 a.spot 1 (-a.strike) (bCoeffs a).1 (bCoeffs a).2.1 (bStrike a) (bCoeffs a).2.2 (bLevel a) x := by
  have hS := h.spot
  have e1 : bStrike a < x ↔ a.strike < a.spot * Real.exp x := by
    unfold bStrike
    rw [Real.log_lt_iff_lt_exp (div_pos h.strike hS), div_lt_iff₀ hS, mul_comm]
  have e2 : bStrike a > bLevel a ↔ a.strike > a.barrier := by
    unfold bStrike bLevel
    rw [gt_iff_lt, Real.log_lt_log_iff (div_pos h.barrier hS) (div_pos h.strike hS), div_lt_div_iff_of_pos_right hS]
  unfold bCoeffs kink2 vanillaPayoff
  simp only [e1, ← e2]
  have e3 : ¬bStrike a < x ↔ a.spot * Real.exp x ≤ a.strike := by rw [e1, not_lt]
  rcases lt_or_gt_of_ne hx with hlt | hlt
  · have hb : ¬bLevel a < x := not_lt.mpr hlt.le
    rcases a.isDown.getD true <;> rcases a.isCall.getD true <;> by_cases hKB : bStrike a > bLevel a <;>
      simp only [hb, hKB, hlt, if_true, if_false, Bool.false_eq_true] <;> try simp only [← e1]
    all_goals by_cases hk : bStrike a < x
    all_goals first
      | (exfalso; linarith)
      | (have := e1.mp hk; simp only [hk, if_true]; (first | rw [max_eq_left (by linarith)] | rw [max_eq_right (by linarith)] | skip); ring)
      | (have := e3.mp hk; simp only [hk, if_false]; (first | rw [max_eq_left (by linarith)] | rw [max_eq_right (by linarith)] | skip); ring)
  · have hb : ¬x < bLevel a := not_lt.mpr hlt.le
    have hlt' : bLevel a < x := hlt
    rcases a.isDown.getD true <;> rcases a.isCall.getD true <;> by_cases hKB : bStrike a > bLevel a <;>
      simp only [hb, hKB, hlt', if_true, if_false, Bool.false_eq_true] <;> try simp only [← e1]
    all_goals by_cases hk : bStrike a < x
    all_goals first
      | (exfalso; linarith)
      | (have := e1.mp hk; simp only [hk, if_true]; (first | rw [max_eq_left (by linarith)] | rw [max_eq_right (by linarith)] | skip); ring)
      | (have := e3.mp hk; simp only [hk, if_false]; (first | rw [max_eq_left (by linarith)] | rw [max_eq_right (by linarith)] | skip); ring)

theorem bSurvive_eq {a : BarrierArgs} (h : ValidBarrier a) :
    bSurvive a = bDf a * survival a (vanillaPayoff (a.isCall.getD true) a.strike) := by
  unfold survival
  rw [survivalExpectation_kink _ _ _ _ _ _ _ h.spot h.barrier h.volatility h.expiry _ 1 (-a.strike) _ _ _ _
    (survive_payoff h)]
  rfl

theorem bKiRebate_eq {a : BarrierArgs} (h : ValidBarrier a) : bKiRebate a = bDf a * survival a (fun _ => 1) := by
  unfold survival
  rw [survivalExpectation_kink _ _ _ _ _ _ _ h.spot h.barrier h.volatility h.expiry _ 0 1
    (if a.isDown.getD true then 0 else 1) 0 0 (if a.isDown.getD true then 1 else -1) (by
      intro x hx
      unfold kink2
      rcases lt_or_gt_of_ne hx with hlt | hlt
      · have hb : ¬Real.log (a.barrier / a.spot) < x := not_lt.mpr hlt.le
        rcases a.isDown.getD true <;> simp [hb, hlt]
      · have hb : ¬x < Real.log (a.barrier / a.spot) := not_lt.mpr (le_of_lt hlt)
        have hlt' : Real.log (a.barrier / a.spot) < x := hlt
        rcases a.isDown.getD true <;> simp [hb, hlt'])]
  change bKiRebate a = bDf a * (kink2Value a.spot 0 1 _ 0 0 _ (bLevel a) (bMean a) (bStd a) - bWeight a *
    kink2Value a.spot 0 1 _ 0 0 _ (bLevel a) (2 * bLevel a + bMean a) (bStd a))
  unfold bKiRebate kink2Value bSign
  rcases a.isDown.getD true with _ | _
  · simp only [Bool.false_eq_true, if_false, neg_one_mul, ncdf_eq, normalCdf_neg]; ring
  · simp only [if_true, one_mul, ncdf_eq]; ring

theorem inUnit_valid {a : BarrierArgs} (h : ValidBarrier a) {c : ℝ} (hc : 0 < c) : ValidBarrier (inUnit c a) :=
  ⟨div_pos h.volatility (Real.sqrt_pos.mpr hc), h.strike, mul_pos h.expiry hc, h.spot, h.barrier⟩

theorem inUnit_facts {a : BarrierArgs} (h : ValidBarrier a) {c : ℝ} (hc : 0 < c) :
    bStd (inUnit c a) = bStd a ∧ bMean (inUnit c a) = bMean a ∧ bDf (inUnit c a) = bDf a ∧
      bWeight (inUnit c a) = bWeight a ∧ bA (inUnit c a) = bA a ∧ bB (inUnit c a) = bB a / c ∧
      bDiv (inUnit c a) * (inUnit c a).expiry = bDiv a * a.expiry := by
  have hσ := h.volatility
  have hsq : Real.sqrt c ^ 2 = c := Real.sq_sqrt hc.le
  have hr : bRate (inUnit c a) = bRate a / c := by
    unfold bRate inUnit; rcases a.discountRate with _ | r <;> simp
  have hq : bDiv (inUnit c a) = bDiv a / c := by
    unfold bDiv inUnit; rcases a.dividendRate with _ | r <;> simp
  have hv : (inUnit c a).volatility ^ 2 = a.volatility ^ 2 / c := by
    simp only [inUnit]; rw [div_pow, hsq]
  have hd : bDrift (inUnit c a) = bDrift a / c := by
    unfold bDrift; rw [hr, hq, hv]; ring
  have ha : bA (inUnit c a) = bA a := by
    unfold bA; rw [hd, hv]; field_simp
  refine ⟨?_, ?_, ?_, ?_, ha, ?_, ?_⟩
  · have hpos : 0 < Real.sqrt c := Real.sqrt_pos.mpr hc
    simp only [bStd, inUnit]; rw [Real.sqrt_mul h.expiry.le]; field_simp
  · unfold bMean; rw [hd]; simp only [inUnit]; field_simp
  · unfold bDf; rw [hr]; simp only [inUnit]; congr 1; field_simp
  · have e : ∀ a : BarrierArgs, bWeight a = Real.exp (2 * bLevel a * bA a) := by
      intro a; unfold bWeight bA; congr 1; ring
    rw [e, e, ha]; rfl
  · unfold bB; rw [hd, hr, hv]; field_simp
  · rw [hq]; simp only [inUnit]; field_simp

theorem inUnit_parts {a : BarrierArgs} (h : ValidBarrier a) {c : ℝ} (hc : 0 < c) :
    bSurvive (inUnit c a) = bSurvive a ∧ bVanilla (inUnit c a) = bVanilla a ∧ bKiRebate (inUnit c a) = bKiRebate a := by
  obtain ⟨h1, h2, h3, h4, -, -, h7⟩ := inUnit_facts h hc
  have hL : bLevel (inUnit c a) = bLevel a := rfl
  have hK : bStrike (inUnit c a) = bStrike a := rfl
  refine ⟨?_, ?_, ?_⟩
  · unfold bSurvive; rw [h1, h2, h3, h4, hL, hK]; rfl
  · unfold bVanilla; rw [neg_mul, h1, h2, h3, h7, hK, ← neg_mul]; rfl
  · unfold bKiRebate; rw [h1, h2, h3, h4, hL]; rfl

theorem bKoRebate_pos (a : BarrierArgs) : 0 < bKoRebate a := by
  unfold bKoRebate
  rw [ncdf_eq, ncdf_eq]
  have h1 := normalCdf_pos (bSign a.isDown * (bLevel a / bStd a + bB a * bStd a))
  have h2 := normalCdf_pos (bSign a.isDown * (bLevel a / bStd a + bB a * bStd a - 2 * bB a * bStd a))
  positivity

/-- The code's rebate value is small when `b` is large. -/
theorem bKoRebate_le {a : BarrierArgs} (h : ValidBarrier a) (hl : Alive (a.isDown.getD true) a.barrier a.spot)
    (hb : 0 ≤ bB a) :
    bKoRebate a ≤ Real.exp (bLevel a * bA a) * (Real.exp (-(|bLevel a| * bB a)) + Real.exp (-(bB a ^ 2 * bStd a ^ 2 / 2))) := by
  have hs := bStd_pos h
  unfold bKoRebate
  rw [ncdf_eq, ncdf_eq]
  have key : ∀ t : ℝ, t ≤ 0 → (Real.exp (bLevel a * bA a) * Real.exp (-(t * bB a))) * normalCdf (t / bStd a - bB a * bStd a) ≤
      Real.exp (bLevel a * bA a) * Real.exp (-(bB a ^ 2 * bStd a ^ 2 / 2)) := by
    intro t ht
    have h1 := normalCdf_le_exp (t / bStd a - bB a * bStd a) (by
      have := div_nonpos_of_nonpos_of_nonneg ht hs.le
      have := mul_nonneg hb hs.le
      linarith)
    rw [mul_assoc]
    apply mul_le_mul_of_nonneg_left _ (Real.exp_pos _).le
    calc Real.exp (-(t * bB a)) * normalCdf (t / bStd a - bB a * bStd a)
        ≤ Real.exp (-(t * bB a)) * Real.exp (-(t / bStd a - bB a * bStd a) ^ 2 / 2) :=
          mul_le_mul_of_nonneg_left h1 (Real.exp_pos _).le
      _ = Real.exp (-(t / bStd a) ^ 2 / 2 - bB a ^ 2 * bStd a ^ 2 / 2) := by
          rw [← Real.exp_add]; congr 1; field_simp; ring
      _ ≤ Real.exp (-(bB a ^ 2 * bStd a ^ 2 / 2)) := by
          apply Real.exp_le_exp.mpr; nlinarith [sq_nonneg (t / bStd a)]
  have one : ∀ x u : ℝ, Real.exp x * normalCdf u ≤ Real.exp x := by
    intro x u
    have := normalCdf_lt_one u
    have := Real.exp_pos x
    nlinarith
  have hr : 0 < a.barrier / a.spot := div_pos h.barrier h.spot
  rw [mul_add (Real.exp (bLevel a * bA a))]
  unfold bSign
  unfold Alive at hl
  rcases hd : a.isDown.getD true with _ | _
  · rw [hd] at hl
    simp only [Bool.false_eq_true, if_false] at hl ⊢
    have hL : 0 < bLevel a := Real.log_pos ((one_lt_div h.spot).mpr hl)
    rw [abs_of_pos hL]
    have h1 := key (-bLevel a) (by linarith)
    have h2 := one (bLevel a * (bA a - bB a)) (-1 * (bLevel a / bStd a + bB a * bStd a - 2 * bB a * bStd a))
    rw [← Real.exp_add] at h1
    rw [← Real.exp_add]
    rw [show bLevel a * bA a + -(-bLevel a * bB a) = bLevel a * (bA a + bB a) by ring,
      show -bLevel a / bStd a - bB a * bStd a = -1 * (bLevel a / bStd a + bB a * bStd a) by ring] at h1
    rw [show bLevel a * bA a + -(bLevel a * bB a) = bLevel a * (bA a - bB a) by ring]
    linarith
  · rw [hd] at hl
    simp only [if_true, one_mul] at hl ⊢
    have hL : bLevel a < 0 := Real.log_neg hr ((div_lt_one h.spot).mpr hl)
    rw [abs_of_neg hL]
    have h1 := key (bLevel a) hL.le
    have h2 := one (bLevel a * (bA a + bB a)) (bLevel a / bStd a + bB a * bStd a)
    rw [← Real.exp_add] at h1
    rw [← Real.exp_add]
    rw [show bLevel a * bA a + -(bLevel a * bB a) = bLevel a * (bA a - bB a) by ring] at h1
    rw [show bLevel a / bStd a + bB a * bStd a - 2 * bB a * bStd a = bLevel a / bStd a - bB a * bStd a by ring,
      show bLevel a * bA a + -(-bLevel a * bB a) = bLevel a * (bA a + bB a) by ring]
    linarith

/-- Mirroring the spot at the barrier. -/
theorem bSurvive_mirror {a : BarrierArgs} (h : ValidBarrier a) :
    bSurvive a = -bWeight a * bSurvive { a with spot := a.barrier ^ 2 / a.spot } := by
  have hS := h.spot
  have hB := h.barrier
  have hK := h.strike
  set a' : BarrierArgs := { a with spot := a.barrier ^ 2 / a.spot } with ha'
  have hL : bLevel a' = -bLevel a := by
    simp only [bLevel, ha']
    rw [Real.log_div hB.ne' (by positivity), Real.log_div (by positivity) hS.ne', Real.log_pow,
      Real.log_div hB.ne' hS.ne']
    push_cast; ring
  have hk : bStrike a' = bStrike a - 2 * bLevel a := by
    simp only [bStrike, bLevel, ha']
    rw [Real.log_div hK.ne' (by positivity), Real.log_div (by positivity) hS.ne', Real.log_pow,
      Real.log_div hB.ne' hS.ne', Real.log_div hK.ne' hS.ne']
    push_cast; ring
  have hw : bWeight a' = (bWeight a)⁻¹ := by
    unfold bWeight
    rw [hL, ← Real.exp_neg]
    congr 1
    change 2 * bDrift a * -bLevel a / a.volatility ^ 2 = _
    ring
  have hsp : a'.spot = a.spot * Real.exp (2 * bLevel a) := by
    simp only [ha', bLevel]
    rw [two_mul, Real.exp_add, Real.exp_log (div_pos hB hS)]
    field_simp
  have hV : ∀ c0 ck cb m, kink2Value a'.spot 1 (-a.strike) c0 ck (bStrike a') cb (bLevel a') m (bStd a) =
      kink2Value a.spot 1 (-a.strike) c0 ck (bStrike a) cb (bLevel a) (2 * bLevel a + m) (bStd a) := by
    intro c0 ck cb m
    unfold kink2Value
    rw [hsp, hL, hk, show m - (bStrike a - 2 * bLevel a) = 2 * bLevel a + m - bStrike a by ring,
      show m - -bLevel a = 2 * bLevel a + m - bLevel a by ring, mul_assoc a.spot, ← Real.exp_add,
      show 2 * bLevel a + (m + bStd a ^ 2 / 2) = 2 * bLevel a + m + bStd a ^ 2 / 2 by ring]
  have hwpos : bWeight a ≠ 0 := (Real.exp_pos _).ne'
  unfold bSurvive
  change _ = -bWeight a * (bDf a * (kink2Value a'.spot 1 (-a.strike) (bCoeffs a).1 (bCoeffs a).2.1 (bStrike a')
      (bCoeffs a).2.2 (bLevel a') (bMean a) (bStd a) - bWeight a' *
    kink2Value a'.spot 1 (-a.strike) (bCoeffs a).1 (bCoeffs a).2.1 (bStrike a')
      (bCoeffs a).2.2 (bLevel a') (2 * bLevel a' + bMean a) (bStd a)))
  rw [hV, hV, hw, hL, show 2 * bLevel a + (2 * -bLevel a + bMean a) = bMean a by ring]
  field_simp
  ring

theorem survivalDensity_nonneg {σ T ν b x : ℝ} (hσ : 0 < σ) (hT : 0 < T) (hx : b * (x - b) ≤ 0) :
    0 ≤ survivalDensity ν σ T b x := by
  have hv : ((Real.toNNReal (σ ^ 2 * T) : NNReal) : ℝ) = σ ^ 2 * T := Real.coe_toNNReal _ (by positivity)
  have hpos : 0 < σ ^ 2 * T := by positivity
  unfold survivalDensity ProbabilityTheory.gaussianPDFReal
  rw [hv, sub_nonneg, mul_left_comm, ← Real.exp_add]
  apply mul_le_mul_of_nonneg_left _ (by positivity)
  apply Real.exp_le_exp.mpr
  have : -(x - ν * T) ^ 2 / (2 * (σ ^ 2 * T)) - (2 * ν * b / σ ^ 2 + -(x - (2 * b + ν * T)) ^ 2 / (2 * (σ ^ 2 * T))) =
      -(2 * (b * (x - b))) / (σ ^ 2 * T) := by field_simp; ring
  have h2 : 0 ≤ -(2 * (b * (x - b))) / (σ ^ 2 * T) := div_nonneg (by linarith) hpos.le
  linarith

theorem alive_level {a : BarrierArgs} (h : ValidBarrier a) (down : Bool) (hl : Alive down a.barrier a.spot) (x : ℝ)
    (hx : Alive down a.barrier (a.spot * Real.exp x)) : bLevel a * (x - bLevel a) ≤ 0 := by
  have hS := h.spot
  have hr : 0 < a.barrier / a.spot := div_pos h.barrier h.spot
  unfold Alive at hl hx
  rcases down with _ | _
  · simp only [Bool.false_eq_true, if_false] at hl hx
    have hL : 0 < bLevel a := Real.log_pos ((one_lt_div hS).mpr hl)
    have : x < bLevel a := by
      unfold bLevel; rw [Real.lt_log_iff_exp_lt hr, lt_div_iff₀ hS, mul_comm]; exact hx
    nlinarith
  · simp only [if_true] at hl hx
    have hL : bLevel a < 0 := Real.log_neg hr ((div_lt_one hS).mpr hl)
    have : bLevel a < x := by
      unfold bLevel; rw [Real.log_lt_iff_lt_exp hr, div_lt_iff₀ hS, mul_comm]; exact hx
    nlinarith

theorem survival_nonneg {a : BarrierArgs} (h : ValidBarrier a) (hl : Alive (a.isDown.getD true) a.barrier a.spot)
    (f : ℝ → ℝ) (hf : ∀ x, 0 ≤ f x) : 0 ≤ survival a f := by
  unfold survival survivalExpectation
  apply MeasureTheory.integral_nonneg_of_ae
  have hmeas : MeasurableSet {x : ℝ | Alive (a.isDown.getD true) a.barrier (a.spot * Real.exp x)} := by
    unfold Alive
    rcases a.isDown.getD true with _ | _
    · simp only [Bool.false_eq_true, if_false]; exact measurableSet_lt (by fun_prop) (by fun_prop)
    · simp only [if_true]; exact measurableSet_lt (by fun_prop) (by fun_prop)
  filter_upwards [MeasureTheory.ae_restrict_mem hmeas] with x hx
  exact mul_nonneg (hf _) (survivalDensity_nonneg h.volatility h.expiry (alive_level h _ hl x hx))

/-- The vanilla price as an expectation of the undiscounted payoff. -/
theorem bVanilla_kink {a : BarrierArgs} (h : ValidBarrier a) :
    bVanilla a = bDf a * kink2Value a.spot 1 (-a.strike) (if a.isCall.getD true then 0 else -1) 1 (bStrike a) 0 (bLevel a)
      (bMean a) (bStd a) := by
  have hm := bForward_mean h
  unfold bVanilla kink2Value bSign
  rw [← hm]
  rcases a.isCall.getD true with _ | _
  · simp only [Bool.false_eq_true, if_false, neg_one_mul, normalCdf_neg]; ring
  · simp only [if_true, one_mul]; ring

theorem survival_le_vanilla {a : BarrierArgs} (h : ValidBarrier a) (hl : Alive (a.isDown.getD true) a.barrier a.spot) :
    bDf a * survival a (vanillaPayoff (a.isCall.getD true) a.strike) ≤ bVanilla a := by
  have hs := bStd_pos h
  rw [bVanilla_kink h]
  apply mul_le_mul_of_nonneg_left _ (Real.exp_pos _).le
  have hk : ∀ x, kink2 a.spot 1 (-a.strike) (if a.isCall.getD true then 0 else -1) 1 (bStrike a) 0 (bLevel a) x =
      vanillaPayoff (a.isCall.getD true) a.strike (a.spot * Real.exp x) := by
    intro x
    have e1 : bStrike a < x ↔ a.strike < a.spot * Real.exp x := by
      unfold bStrike
      rw [Real.log_lt_iff_lt_exp (div_pos h.strike h.spot), div_lt_iff₀ h.spot, mul_comm]
    unfold kink2 vanillaPayoff
    simp only [e1, ite_self, add_zero]
    rcases a.isCall.getD true with _ | _
    · simp only [Bool.false_eq_true, if_false]
      split
      · rw [max_eq_right (by linarith)]; ring
      · rw [max_eq_left (by linarith)]; ring
    · simp only [if_true]
      split
      · rw [max_eq_left (by linarith)]; ring
      · rw [max_eq_right (by linarith)]; ring
  have hsq := bStd_sq h
  rw [← kink2_expectation _ _ _ _ _ _ _ _ _ _ hs]
  unfold normalExpectation
  rw [ProbabilityTheory.integral_gaussianReal_eq_integral_smul (Real.toNNReal_pos.mpr (pow_pos hs 2)).ne']
  have hint := kink2_integrable a.spot 1 (-a.strike) (if a.isCall.getD true then 0 else -1) 1 (bStrike a) 0 (bLevel a)
    (bMean a) (bStd a) hs
  simp only [hk] at hint
  simp only [hk, smul_eq_mul]
  unfold survival survivalExpectation
  have hmeas : MeasurableSet {x : ℝ | Alive (a.isDown.getD true) a.barrier (a.spot * Real.exp x)} := by
    unfold Alive
    rcases a.isDown.getD true with _ | _
    · simp only [Bool.false_eq_true, if_false]; exact measurableSet_lt (by fun_prop) (by fun_prop)
    · simp only [if_true]; exact measurableSet_lt (by fun_prop) (by fun_prop)
  refine le_trans (MeasureTheory.integral_mono_of_nonneg ?_ hint.integrableOn ?_)
    (MeasureTheory.setIntegral_le_integral hint (Filter.Eventually.of_forall (fun x =>
      mul_nonneg (ProbabilityTheory.gaussianPDFReal_nonneg _ _ _) (vanillaPayoff_nonneg _ _ _))))
  · filter_upwards [MeasureTheory.ae_restrict_mem hmeas] with x hx
    exact mul_nonneg (vanillaPayoff_nonneg _ _ _)
      (survivalDensity_nonneg h.volatility h.expiry (alive_level h _ hl x hx))
  · refine Filter.Eventually.of_forall (fun x => ?_)
    simp only
    rw [mul_comm]
    apply mul_le_mul_of_nonneg_right _ (vanillaPayoff_nonneg _ _ _)
    unfold survivalDensity
    rw [hsq]
    have := ProbabilityTheory.gaussianPDFReal_nonneg (2 * Real.log (a.barrier / a.spot) +
      (a.discountRate.getD 0 - a.dividendRate.getD 0 - a.volatility ^ 2 / 2) * a.expiry)
      (Real.toNNReal (a.volatility ^ 2 * a.expiry)) x
    have h2 := mul_nonneg (Real.exp_pos (2 * (a.discountRate.getD 0 - a.dividendRate.getD 0 - a.volatility ^ 2 / 2) *
      Real.log (a.barrier / a.spot) / a.volatility ^ 2)).le this
    change _ ≤ ProbabilityTheory.gaussianPDFReal
      ((a.discountRate.getD 0 - a.dividendRate.getD 0 - a.volatility ^ 2 / 2) * a.expiry) _ x
    linarith

end Lemmas

namespace Props
open Model Lemmas Spec

/-- C33: without rebate, the knock-in and the knock-out option together are worth as much as the vanilla option. -/
theorem C33_in_out_vanilla (a : BarrierArgs) (h : ValidBarrier a) (hR : a.rebate.getD 0 = 0) :
    optionPrice (vanillaOf a) =
      .ok (barrierPrice { a with isKnockOut := some false } + barrierPrice { a with isKnockOut := some true }) := by
  rw [vanillaOf_price h, barrierPrice_cases (a := { a with isKnockOut := some false }) ⟨h.1, h.2, h.3, h.4, h.5⟩,
    barrierPrice_cases (a := { a with isKnockOut := some true }) ⟨h.1, h.2, h.3, h.4, h.5⟩]
  simp only [Option.getD_some, Bool.false_eq_true, if_false, if_true, hR, zero_mul, add_zero]
  congr 1
  change bVanilla a = bVanilla a - bSurvive a + bSurvive a
  ring

/-- C33: without rebate, a knock-out option is worth the discounted expectation of its payoff over the paths that never touch
the barrier. -/
theorem C33_knock_out_expectation (a : BarrierArgs) (h : ValidBarrier a) (hR : a.rebate.getD 0 = 0)
    (ho : a.isKnockOut.getD true = true) :
    barrierPrice a = Real.exp (-(a.discountRate.getD 0 * a.expiry)) *
      survival a (vanillaPayoff (a.isCall.getD true) a.strike) := by
  rw [barrierPrice_cases h, ho, hR, if_pos rfl, bSurvive_eq h]
  unfold bDf bRate
  rw [neg_mul]; ring

/-- C33: a knock-in option is worth the vanilla option less the discounted expectation of the payoff over the paths that never
touch the barrier, plus the discounted rebate on these paths. Missing: the down-and-in put with the strike above the barrier and
a rebate, see `C33_down_in_put_rebate`. -/
theorem C33_knock_in_expectation_partial (a : BarrierArgs) (h : ValidBarrier a) (ho : a.isKnockOut.getD true = false)
    (hrow : ¬(a.isDown.getD true = true ∧ a.isCall.getD true = false ∧ a.strike > a.barrier) ∨ a.rebate.getD 0 = 0) :
    ∃ v, optionPrice (vanillaOf a) = .ok v ∧
      barrierPrice a = v - Real.exp (-(a.discountRate.getD 0 * a.expiry)) *
          survival a (vanillaPayoff (a.isCall.getD true) a.strike) +
        a.rebate.getD 0 * (Real.exp (-(a.discountRate.getD 0 * a.expiry)) * survival a (fun _ => 1)) := by
  refine ⟨_, vanillaOf_price h, ?_⟩
  rw [barrierPrice_cases h, ho, if_neg (by simp), bSurvive_eq h]
  have e : Real.exp (-(a.discountRate.getD 0 * a.expiry)) = bDf a := by unfold bDf bRate; rw [neg_mul]
  rw [e, ← bKiRebate_eq h]
  rcases hrow with hrow | hrow
  · rw [if_neg hrow]
  · rw [hrow, zero_mul, zero_mul]

/-- C33: at the barrier a knock-out option is worth its rebate. -/
theorem C33_at_barrier_out (a : BarrierArgs) (h : ValidBarrier a) (hS : a.spot = a.barrier)
    (ho : a.isKnockOut.getD true = true) : barrierPrice a = a.rebate.getD 0 := by
  have hL : bLevel a = 0 := by unfold bLevel; rw [hS, div_self h.barrier.ne', Real.log_one]
  have hw : bWeight a = 1 := by unfold bWeight; rw [hL]; simp
  have h1 : bSurvive a = 0 := by unfold bSurvive; rw [hw, hL]; simp
  have h2 : bKoRebate a = 1 := by
    unfold bKoRebate
    rw [hL, show bSign a.isDown * (0 / bStd a + bB a * bStd a - 2 * bB a * bStd a) =
      -(bSign a.isDown * (0 / bStd a + bB a * bStd a)) by ring, ncdf_neg]
    simp
  rw [barrierPrice_cases h, ho, if_pos rfl, h1, h2]; ring

/-- C33 (deviation): at the barrier a knock-in option has just become the vanilla option, but the code adds the rebate to a
down-and-in put with the strike above the barrier. That row of the table selects the rebate columns of a knock-out option. -/
theorem C33_down_in_put_rebate (a : BarrierArgs) (h : ValidBarrier a) (hS : a.spot = a.barrier)
    (ho : a.isKnockOut.getD true = false) :
    ∃ v, optionPrice (vanillaOf a) = .ok v ∧ barrierPrice a =
      if a.isDown.getD true = true ∧ a.isCall.getD true = false ∧ a.strike > a.barrier then v + a.rebate.getD 0 else v := by
  have hL : bLevel a = 0 := by unfold bLevel; rw [hS, div_self h.barrier.ne', Real.log_one]
  have hw : bWeight a = 1 := by unfold bWeight; rw [hL]; simp
  have h1 : bSurvive a = 0 := by unfold bSurvive; rw [hw, hL]; simp
  have h2 : bKoRebate a = 1 := by
    unfold bKoRebate
    rw [hL, show bSign a.isDown * (0 / bStd a + bB a * bStd a - 2 * bB a * bStd a) =
      -(bSign a.isDown * (0 / bStd a + bB a * bStd a)) by ring, ncdf_neg]
    simp
  have h3 : bKiRebate a = 0 := by unfold bKiRebate; rw [hw, hL]; simp
  refine ⟨_, vanillaOf_price h, ?_⟩
  rw [barrierPrice_cases h, ho, if_neg (by simp), h1, h2, h3]
  split <;> ring

/-- C33: prices do not depend on the unit of time, for options without rebate and for knock-in options. Missing: knock-out
options with a rebate, see `C33_time_unit_rebate`. -/
theorem C33_time_unit_partial (a : BarrierArgs) (h : ValidBarrier a) (c : ℝ) (hc : 0 < c)
    (hR : a.rebate.getD 0 = 0 ∨ (a.isKnockOut.getD true = false ∧
      ¬(a.isDown.getD true = true ∧ a.isCall.getD true = false ∧ a.strike > a.barrier))) :
    barrierPrice (inUnit c a) = barrierPrice a := by
  obtain ⟨h1, h2, h3⟩ := inUnit_parts h hc
  rw [barrierPrice_cases h, barrierPrice_cases (inUnit_valid h hc), h1, h2, h3]
  change (if a.isKnockOut.getD true = true then _ + a.rebate.getD 0 * _ else _ + a.rebate.getD 0 *
    (if a.isDown.getD true = true ∧ a.isCall.getD true = false ∧ a.strike > a.barrier then _ else _)) = _
  rcases hR with hR | ⟨hk, hrow⟩
  · rw [hR]; simp
  · simp only [hk, hrow, if_false, Bool.false_eq_true]

/-- C33 (deviation): the price of a knock-out option with a rebate depends on the unit of time, for every option that is alive
and every positive interest rate. The exponent `b` lacks a square root. -/
theorem C33_time_unit_rebate (a : BarrierArgs) (h : ValidBarrier a)
    (hl : Alive (a.isDown.getD true) a.barrier a.spot) (ho : a.isKnockOut.getD true = true) (hR : a.rebate.getD 0 ≠ 0)
    (hr : 0 < a.discountRate.getD 0) : ∃ c, 0 < c ∧ barrierPrice (inUnit c a) ≠ barrierPrice a := by
  have hσ := h.volatility
  have hs := bStd_pos h
  have hb : 0 < bB a := by
    unfold bB
    have : 0 < 2 * a.volatility ^ 2 * bRate a := by
      have : 0 < bRate a := hr
      positivity
    have := sq_nonneg (bDrift a)
    exact div_pos (by linarith) (by positivity)
  have hL : 0 < |bLevel a| := by
    rw [abs_pos]
    have hr : 0 < a.barrier / a.spot := div_pos h.barrier h.spot
    unfold Alive at hl
    rcases hd : a.isDown.getD true with _ | _
    · rw [hd] at hl
      exact (Real.log_pos ((one_lt_div h.spot).mpr (by simpa using hl))).ne'
    · rw [hd] at hl
      exact (Real.log_neg hr ((div_lt_one h.spot).mpr (by simpa using hl))).ne
  have hx := bKoRebate_pos a
  have hlim : Filter.Tendsto (fun t : ℝ => Real.exp (bLevel a * bA a) *
      (Real.exp (-(|bLevel a| * t)) + Real.exp (-(t ^ 2 * bStd a ^ 2 / 2)))) Filter.atTop (nhds 0) := by
    have h1 : Filter.Tendsto (fun t : ℝ => Real.exp (-(|bLevel a| * t))) Filter.atTop (nhds 0) :=
      Real.tendsto_exp_neg_atTop_nhds_zero.comp (Filter.tendsto_id.const_mul_atTop hL)
    have h2 : Filter.Tendsto (fun t : ℝ => Real.exp (-(t ^ 2 * bStd a ^ 2 / 2))) Filter.atTop (nhds 0) := by
      have h3 : Filter.Tendsto (fun t : ℝ => t ^ 2 * bStd a ^ 2 / 2) Filter.atTop Filter.atTop := by
        have h4 : Filter.Tendsto (fun t : ℝ => t ^ 2) Filter.atTop Filter.atTop := Filter.tendsto_pow_atTop (by norm_num)
        have h5 := h4.atTop_mul_const (show 0 < bStd a ^ 2 / 2 by positivity)
        refine h5.congr (fun t => by ring)
      exact Real.tendsto_exp_neg_atTop_nhds_zero.comp h3
    have := (h1.add h2).const_mul (Real.exp (bLevel a * bA a))
    simpa using this
  obtain ⟨t, ht, htpos⟩ := ((hlim.eventually (gt_mem_nhds hx)).and (Filter.eventually_gt_atTop 0)).exists
  have hc : 0 < bB a / t := div_pos hb htpos
  refine ⟨bB a / t, hc, ?_⟩
  obtain ⟨h1, -, -, -, h5, h6, -⟩ := inUnit_facts h hc
  have hbt : bB (inUnit (bB a / t) a) = t := by rw [h6]; field_simp
  have hle := bKoRebate_le (inUnit_valid h hc) hl (by rw [hbt]; exact htpos.le)
  have hLe : bLevel (inUnit (bB a / t) a) = bLevel a := rfl
  rw [h1, h5, hbt, hLe] at hle
  rw [barrierPrice_cases h, barrierPrice_cases (inUnit_valid h hc), (inUnit_parts h hc).1]
  change (if a.isKnockOut.getD true = true then _ + a.rebate.getD 0 * _ else _) ≠ _
  rw [ho, if_pos rfl, if_pos rfl]
  intro heq
  have := mul_left_cancel₀ hR (add_left_cancel heq)
  linarith

/-- C33: while the barrier has not been reached, a barrier option without rebate is worth at least nothing and at most as much
as the vanilla option. -/
theorem C33_bounds (a : BarrierArgs) (h : ValidBarrier a) (hR : a.rebate.getD 0 = 0)
    (hl : Alive (a.isDown.getD true) a.barrier a.spot) :
    ∃ v, optionPrice (vanillaOf a) = .ok v ∧ 0 ≤ barrierPrice a ∧ barrierPrice a ≤ v := by
  refine ⟨_, vanillaOf_price h, ?_⟩
  have h1 := survival_le_vanilla h hl
  have h2 : 0 ≤ bDf a * survival a (vanillaPayoff (a.isCall.getD true) a.strike) :=
    mul_nonneg (Real.exp_pos _).le (survival_nonneg h hl _ (fun x => vanillaPayoff_nonneg _ _ _))
  rw [← bSurvive_eq h] at h1 h2
  rw [barrierPrice_cases h, hR]
  rcases a.isKnockOut.getD true with _ | _
  · simp only [Bool.false_eq_true, if_false, zero_mul, add_zero]
    constructor <;> linarith
  · simp only [if_true, zero_mul, add_zero]
    exact ⟨h2, h1⟩

/-- C33 (deviation): the code does not notice that the barrier has been crossed already. The price of a knock-out option beyond
the barrier is then minus a positive multiple of the price at the mirrored spot on the other side, so it is not positive. -/
theorem C33_crossed (a : BarrierArgs) (h : ValidBarrier a) (hR : a.rebate.getD 0 = 0) (ho : a.isKnockOut.getD true = true) :
    (∃ w, 0 < w ∧ barrierPrice a = -w * barrierPrice { a with spot := a.barrier ^ 2 / a.spot }) ∧
    (Alive (!a.isDown.getD true) a.barrier a.spot → barrierPrice a ≤ 0) := by
  have hS := h.spot
  have hB := h.barrier
  have h' : ValidBarrier { a with spot := a.barrier ^ 2 / a.spot } := ⟨h.1, h.2, h.3, by simp only; positivity, h.5⟩
  have hw : 0 < bWeight a := Real.exp_pos _
  have e : barrierPrice a = -bWeight a * barrierPrice { a with spot := a.barrier ^ 2 / a.spot } := by
    rw [barrierPrice_cases h, barrierPrice_cases h']
    simp only [ho, hR, if_true, zero_mul, add_zero]
    exact bSurvive_mirror h
  refine ⟨⟨_, hw, e⟩, fun hl => ?_⟩
  have hl' : Alive (a.isDown.getD true) a.barrier (a.barrier ^ 2 / a.spot) := by
    unfold Alive at hl ⊢
    generalize a.isDown.getD true = down at hl ⊢
    rcases down with _ | _
    · simp only [Bool.not_false, if_true, Bool.false_eq_true, if_false] at hl ⊢
      rw [div_lt_iff₀ hS]; nlinarith
    · simp only [Bool.not_true, if_true, Bool.false_eq_true, if_false] at hl ⊢
      rw [lt_div_iff₀ hS]; nlinarith
  obtain ⟨v, -, this, -⟩ := C33_bounds { a with spot := a.barrier ^ 2 / a.spot } h' hR hl'
  rw [e]
  nlinarith

/-- A down-and-in put with the strike above the barrier. -/
noncomputable def exBarrier : BarrierArgs :=
  { volatility := 1 / 5
    strike := 100
    expiry := 1
    spot := 95
    barrier := 90
    rebate := some 3
    discountRate := some (1 / 20)
    isDown := some true
    isKnockOut := some false
    isCall := some false }

example : ValidBarrier exBarrier ∧ Alive (exBarrier.isDown.getD true) exBarrier.barrier exBarrier.spot := by
  refine ⟨⟨?_, ?_, ?_, ?_, ?_⟩, ?_⟩ <;> norm_num [exBarrier, Alive]

/-- The rebate of 3 is paid although the option has been knocked in. -/
example : ∃ v, optionPrice (vanillaOf { exBarrier with spot := 90 }) = .ok v ∧
    barrierPrice { exBarrier with spot := 90 } = v + 3 := by
  obtain ⟨v, h1, h2⟩ := C33_down_in_put_rebate { exBarrier with spot := 90 }
    ⟨by norm_num [exBarrier], by norm_num [exBarrier], by norm_num [exBarrier], by norm_num [exBarrier],
      by norm_num [exBarrier]⟩ rfl rfl
  refine ⟨v, h1, ?_⟩
  rw [h2, if_pos ⟨rfl, rfl, by norm_num [exBarrier]⟩]
  rfl

end Props
