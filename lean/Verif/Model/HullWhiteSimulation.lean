import Verif.Model.HullWhite
import Verif.Model.HjmOptions

/-!
# Model of the simulated prices of `tf_quant_finance/models/hull_white`

`zero_coupon_bond_option.py` L172-209, `cap_floor.py` L196-236 and `swaption.py` L263-311 with `use_analytic_pricing=False`. One factor.
-/

namespace Model

namespace HullWhite
variable (m : HullWhite)

/-- `sample_discount_curve_paths`, `vector_hull_white.py` L543-592: the rates of the sampled paths at the requested times and the bond prices from them. `draws s` are the
normal draws of the path `s`. -/
noncomputable def curvePaths (times : List ℝ) (draws : Nat → List ℝ) : CurvePaths :=
  let rate := fun (s : Nat) (t : ℝ) => ((m.samplePath times (draws s))[searchLeft times t]?.join).getD 0
  { bond := fun s t maturity => m.discountBondPrice (rate s t) t maturity, rate := rate }

/-- `bond_option_price`, `zero_coupon_bond_option.py` L172-209, without analytic pricing: prices from the samples of the paths. -/
noncomputable def simulatedBondOptions (options : List BondOption) (draws : Nat → List ℝ) (numSamples : Nat) (timeStep : ℝ) (steps : Nat) : List ℝ :=
  optionsPriceFromSamples options (m.curvePaths (simulationTimes (options.map BondOption.expiry) timeStep steps) draws) numSamples timeStep steps

/-- `cap_floor_price`, `cap_floor.py` L196-236, without analytic pricing, for one cap with caplets `(strike, expiry, maturity, daycount fraction)`. -/
noncomputable def simulatedCapFloor (notional : ℝ) (isCap : Bool) (caplets : List (ℝ × ℝ × ℝ × ℝ)) (draws : Nat → List ℝ) (numSamples : Nat) (timeStep : ℝ)
    (steps : Nat) : ℝ :=
  let options := caplets.map (fun (c : ℝ × ℝ × ℝ × ℝ) => BondOption.mk (1 / (1 + c.2.2.2 * c.1)) c.2.1 c.2.2.1 (!isCap))
  let prices := m.simulatedBondOptions options draws numSamples timeStep steps
  (List.zipWith (fun (c : ℝ × ℝ × ℝ × ℝ) (p : ℝ) => notional * (1 + c.2.2.2 * c.1) * (if c.2.1 < 0 then 0 else p)) caplets prices).sum

/-- The simulation times of European swaptions, `swaption.py` L284-288: the unique expiries and the multiples of `time_step`, sorted; `tf.range(step, longest, step)` is given
by the number `n` of its elements. Times that are both an expiry and a multiple occur twice. -/
noncomputable def europeanSimTimes (expiries : List ℝ) (step : ℝ) (n : Nat) : List ℝ :=
  (expiries.dedup ++ (List.range n).map (fun (i : Nat) => ((i + 1 : Nat) : ℝ) * step)).mergeSort (fun (a b : ℝ) => decide (a ≤ b))

/-- `_sample_discount_curve_path_fn`, `swaption.py` L270-278, with the discount factors of `hjm/swaption_util.py` L125-136. Rates that were never written are zero. -/
noncomputable def discountPaths (times : List ℝ) (draws : Nat → List ℝ) : DiscountPaths :=
  let rates := fun (s : Nat) => (m.samplePath times (draws s)).map (fun (r : Option ℝ) => r.getD 0)
  { bond := fun s t maturity => m.discountBondPrice ((rates s).getD (searchLeft times t) 0) t maturity,
    discount := fun s t => (pathDiscountFactorsSum times (rates s)).getD (searchLeft times t) 0 }

/-- `swaption_price`, `swaption.py` L263-311, without analytic pricing. -/
noncomputable def simulatedSwaptions (swaptions : List HjmSwaption) (draws : Nat → List ℝ) (numSamples : Nat) (timeStep : ℝ) (steps : Nat) : List ℝ :=
  let times := europeanSimTimes (swaptions.map HjmSwaption.expiry) timeStep steps
  swaptionsMc (some times) none swaptions (m.discountPaths times draws) numSamples

end HullWhite

end Model
