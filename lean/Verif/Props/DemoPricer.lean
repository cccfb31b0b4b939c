import Verif.Model.DemoPricer
import Verif.Props.OptionDemo
import Verif.Props.VanillaPrices
import Verif.Props.Dates

/-! # C151 The prices of the option pricing demo -/

namespace Props
open Model Spec

/-- C151: an option expiring `n` days after today on the underlier `k` has the discounted expectation of its payoff as price,
with the spot, volatility and rate at the position `k` and the time `n / 360`. -/
theorem C151_price (spots vols rates : List ℝ) (today : DateT) (ht : 0 < today.ordinal) (o : DemoOption) (n : ℕ)
    (hn : o.expiryDate = today.ordinal + n) (spot vol rate : ℝ) (h1 : spots[o.underlier]? = some spot)
    (h2 : vols[o.underlier]? = some vol) (h3 : rates[o.underlier]? = some rate) (hs : 0 < spot) (hv : 0 ≤ vol) (hk : 0 < o.strike) :
    demoPrice spots vols rates today o = .ok (Real.exp (-(rate * (n / 360))) *
      lognormalExpectation (spot * Real.exp (rate * (n / 360))) (vol * Real.sqrt (n / 360)) (vanillaPayoff o.isCall o.strike)) := by
  have hdate : ∃ d, fromOrdinals o.expiryDate = .ok d ∧ d.ordinal = today.ordinal + n := by
    unfold fromOrdinals
    have hpos : 0 < o.expiryDate := by omega
    refine ⟨⟨o.expiryDate, (ordinalToYearMonthDay o.expiryDate).1, (ordinalToYearMonthDay o.expiryDate).2.1,
      (ordinalToYearMonthDay o.expiryDate).2.2⟩, ?_, hn⟩
    simp [hpos]
    rfl
  obtain ⟨d, hd, hdo⟩ := hdate
  have htime : actual360 ℝ today d = (n : ℝ) / 360 := by
    unfold actual360 DateT.daysUntil
    rw [hdo]
    push_cast
    ring
  unfold demoPrice gatherMarket
  simp only [h1, h2, h3, Except.bind, hd, htime]
  have hT : (0 : ℝ) ≤ n / 360 := by positivity
  set a : BsArgs := { volatility := vol, strike := o.strike, expiry := (n : ℝ) / 360, spot := some spot,
                      discountRate := some rate, isCall := some o.isCall } with ha
  have hvalid : ValidArgs a := ⟨by simp [ha], by simp [ha], hv, hT, by simp [ha]⟩
  have hf : forward a = spot * Real.exp (rate * (n / 360)) := by
    simp only [forward, discount, ha, Option.getD_some, Option.getD_none, zero_mul, neg_zero, Real.exp_zero, mul_one]
    rw [Real.exp_neg, div_inv_eq_mul]
  have hpos : Positive a := fun _ => ⟨by rw [hf]; positivity, hk⟩
  rw [C31_expectation a hvalid hpos]
  unfold expectation stdDev
  rw [hf]
  rfl

/-- C151: an underlier outside of the market data is an error. -/
theorem C151_unknown (spots vols rates : List ℝ) (today : DateT) (o : DemoOption)
    (h : spots.length ≤ o.underlier ∨ vols.length ≤ o.underlier ∨ rates.length ≤ o.underlier) :
    ∃ msg, demoPrice spots vols rates today o = .error msg := by
  unfold demoPrice gatherMarket
  rcases h1 : spots[o.underlier]? with _ | s
  · exact ⟨_, rfl⟩
  · rcases h2 : vols[o.underlier]? with _ | v
    · exact ⟨_, rfl⟩
    · rcases h3 : rates[o.underlier]? with _ | r
      · exact ⟨_, rfl⟩
      · exfalso
        rcases h with h | h | h
        · rw [List.getElem?_eq_none h] at h1; exact absurd h1 (by simp)
        · rw [List.getElem?_eq_none h] at h2; exact absurd h2 (by simp)
        · rw [List.getElem?_eq_none h] at h3; exact absurd h3 (by simp)

/-- C151: every option of a generated portfolio is priced, for all draws: its price is the discounted expectation. -/
theorem C151_generated (draws : List (ℝ × ℝ × ℝ))
    (hd : ∀ x ∈ draws, (0 ≤ x.1 ∧ x.1 < 1) ∧ (0 ≤ x.2.1 ∧ x.2.1 < 1) ∧ (0 ≤ x.2.2 ∧ x.2.2 < 1))
    (today : DateT) (ht : 0 < today.ordinal) (k : ℕ) (hk : k < draws.length) (u : ℝ) (hu : 0 ≤ u ∧ u < 1) (days : ℕ)
    (isCall : Bool) :
    let market := draws.map (fun x => marketOf x.1 x.2.1 x.2.2)
    let m := marketOf draws[k].1 draws[k].2.1 draws[k].2.2
    demoPrice (market.map (·.1)) (market.map (·.2.1)) (market.map (·.2.2)) today
        (demoOption (market.map (·.1)) today.ordinal k u days isCall) =
      .ok (Real.exp (-(m.2.2 * (days / 360))) * lognormalExpectation (m.1 * Real.exp (m.2.2 * (days / 360)))
        (m.2.1 * Real.sqrt (days / 360)) (vanillaPayoff isCall (m.1 * (u * (8 / 10) + 6 / 10)))) := by
  intro market m
  obtain ⟨g1, g2, g3⟩ := hd draws[k] (List.getElem_mem hk)
  obtain ⟨⟨r1, -⟩, ⟨r2, -⟩, -, -⟩ := C150_ranges draws[k].1 draws[k].2.1 draws[k].2.2 u g1 g2 g3 hu
  have hm : market[k]? = some m := by
    simp only [market, m, List.getElem?_map, List.getElem?_eq_getElem hk, Option.map_some]
  have e1 : (market.map (·.1))[k]? = some m.1 := by rw [List.getElem?_map, hm]; rfl
  have e2 : (market.map (·.2.1))[k]? = some m.2.1 := by rw [List.getElem?_map, hm]; rfl
  have e3 : (market.map (·.2.2))[k]? = some m.2.2 := by rw [List.getElem?_map, hm]; rfl
  have hm1 : (100 : ℝ) ≤ m.1 := r1
  have hm2 : (3 / 100 : ℝ) ≤ m.2.1 := r2
  have hstrike : (demoOption (market.map (·.1)) today.ordinal k u days isCall).strike = m.1 * (u * (8 / 10) + 6 / 10) := by
    unfold demoOption strikeOf
    simp only [List.getD_eq_getElem?_getD, e1, Option.getD_some]
  have hpos : 0 < m.1 * (u * (8 / 10) + 6 / 10) := mul_pos (by linarith) (by linarith [hu.1])
  have := C151_price (market.map (·.1)) (market.map (·.2.1)) (market.map (·.2.2)) today ht
    (demoOption (market.map (·.1)) today.ordinal k u days isCall) days rfl m.1 m.2.1 m.2.2 e1 e2 e3 (by linarith) (by linarith)
    (by rw [hstrike]; exact hpos)
  rw [hstrike] at this
  exact this

/-- An option on the second of two underliers that expires in 360 days. -/
example : demoPrice [100, 200] [1 / 10, 2 / 10] [0, 0] ⟨737425, 2020, 1, 1⟩ ⟨210, true, 737785, 1⟩ =
    .ok (Real.exp (-(0 * ((360 : ℕ) / 360))) * lognormalExpectation (200 * Real.exp (0 * ((360 : ℕ) / 360)))
      (2 / 10 * Real.sqrt ((360 : ℕ) / 360)) (vanillaPayoff true 210)) :=
  C151_price _ _ _ _ (by decide) _ 360 rfl 200 (2 / 10) 0 rfl rfl rfl (by norm_num) (by norm_num) (by norm_num)

end Props
