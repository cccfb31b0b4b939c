import Verif.Model.VanillaPrices
import Verif.Model.Piecewise
import Verif.Model.Sampling
import Mathlib.Analysis.Calculus.Deriv.Basic
import Mathlib.Analysis.SpecialFunctions.Sqrt

/-!
# Model of `tf_quant_finance/experimental/local_volatility/local_volatility_model.py`

One element of the batch over the reals. `math.fwd_gradient(f, x)` is the derivative of `f` at `x` (`deriv`), `tf.nn.relu x` is
`max x 0` and `divide_no_nan` is Lean's division. The implied volatility surface is an arbitrary function `theta time strike`,
the discount factor an arbitrary function of time. The interpolation of market quotes is not part of this model.
-/

namespace Model

/-- L811-819 `_get_risk_free_rate_from_discount_factor`: the derivative of minus the logarithm of the discount factor. -/
noncomputable def lvRiskFreeRate (df : ℝ → ℝ) (t : ℝ) : ℝ := deriv (fun x => -Real.log (df x)) t

/-- L75-87 `_option_price(expiry_time, strike)`. -/
noncomputable def lvOptionPrice (theta : ℝ → ℝ → ℝ) (df : ℝ → ℝ) (spot0 dividend expiry strike : ℝ) : ℝ :=
  match optionPrice {
    volatility := theta expiry strike
    strike := strike
    expiry := expiry
    spot := some spot0
    dividendRate := some dividend
    discountFactor := some (df expiry) } with
  | .ok c => c
  | .error _ => 0

/-- L37-103 `_dupire_local_volatility_prices`. -/
noncomputable def dupirePrices (theta : ℝ → ℝ → ℝ) (df : ℝ → ℝ) (spot0 dividend time spot : ℝ) : ℝ :=
  let rate := lvRiskFreeRate df time
  let price := lvOptionPrice theta df spot0 dividend
  let dcdk := fun x => price time x
  let dcdt := fun x => price x spot
  let d2cdk2 := fun x => deriv dcdk x
  let numerator := deriv dcdt time + (rate - dividend) * spot * deriv dcdk spot + dividend * price time spot
  let denominator := deriv d2cdk2 spot * spot ^ 2
  Real.sqrt (max (2 * (numerator / denominator)) 0)

/-- `d1` of L120-123 and L280-283. -/
noncomputable def dupireD1 (rate dividend theta spot0 time spot : ℝ) : ℝ :=
  (Real.log (spot0 / spot) + (rate - dividend + 0.5 * theta ^ 2) * time) / theta / Real.sqrt time

/-- The quotient of L131-140 and L295-300; `thetaT`, `thetaK`, `thetaKK` are the derivatives of the implied volatility. -/
noncomputable def dupireRatio (rate dividend theta thetaT thetaK thetaKK spot0 time spot : ℝ) : ℝ :=
  let d1 := dupireD1 rate dividend theta spot0 time spot
  let numerator := theta ^ 2 + 2 * time * theta * thetaT + 2 * (rate - dividend) * spot * time * theta * thetaK
  let denominator := (1 + spot * d1 * time * thetaK) ^ 2 + spot ^ 2 * time * theta * (thetaKK - d1 * time * thetaK ^ 2)
  numerator / denominator

/-- L106-141 `_dupire_local_volatility_iv`. -/
noncomputable def dupireIv (theta : ℝ → ℝ → ℝ) (df : ℝ → ℝ) (spot0 dividend time spot : ℝ) : ℝ :=
  let rate := lvRiskFreeRate df time
  let spotFn := fun x => theta time x
  let timeFn := fun t => theta t spot
  let dthetaDspot := fun x => deriv spotFn x
  Real.sqrt (max (dupireRatio rate dividend (theta time spot) (deriv timeFn time) (dthetaDspot spot) (deriv dthetaDspot spot)
    spot0 time spot) 0)

/-- L226-232, L250-255: the row of the table of implied volatilities, one row for each time of `timesGrid`, that
`local_variance` uses at `time`. -/
def precomputedRow {K : Type} [LinearOrder K] (timesGrid : List K) (time : K) : Nat :=
  searchLeft (timesGrid.drop 1) time

/-- L144-304 `_dupire_local_volatility_iv_precomputed`: `rows i` and `rowsT i` are the splines in the spot through the implied
volatilities and their time derivatives at the `i`-th grid time. -/
noncomputable def dupireIvPrecomputed (timesGrid : List ℝ) (rows rowsT : Nat → ℝ → ℝ) (df : ℝ → ℝ) (spot0 dividend time spot : ℝ) : ℝ :=
  let rate := lvRiskFreeRate df time
  let i := precomputedRow timesGrid time
  let gradSpots := fun x => deriv (rows i) x
  Real.sqrt (max (dupireRatio rate dividend (rows i spot) (rowsT i spot) (gradSpots spot) (deriv gradSpots spot)
    spot0 time spot) 0)

/-- L468-473 `_drift_fn`, the drift of the logarithm of one asset. -/
noncomputable def lvDrift (localVol : ℝ → ℝ → ℝ) (domestic foreign : ℝ → ℝ) (t logSpot : ℝ) : ℝ :=
  let lv := localVol t (Real.exp logSpot)
  domestic t - foreign t - lv * lv / 2

/-- L461-465 `_vol_fn`, the row of the volatility matrix of one asset; `sqrtRhoRow` is its row of the Cholesky factor. -/
noncomputable def lvVol (localVol : ℝ → ℝ → ℝ) (sqrtRhoRow : List ℝ) (t logSpot : ℝ) : List ℝ :=
  let lv := localVol t (Real.exp logSpot)
  sqrtRhoRow.map (fun c => lv * c)

/-- L468-473 `_drift_fn` for all assets; `localVol` takes the time and the spots of all assets. -/
noncomputable def lvLogDrift {d : Nat} (localVol : ℝ → (Fin d → ℝ) → Fin d → ℝ) (domestic foreign : Fin d → ℝ → ℝ) (t : ℝ) (logSpot : Fin d → ℝ) : Fin d → ℝ :=
  fun i => lvDrift (fun t _ => localVol t (fun j => Real.exp (logSpot j)) i) (domestic i) (foreign i) t (logSpot i)

/-- L461-465 `_vol_fn` for all assets; `sqrtRho` is the Cholesky factor of the correlation matrix. -/
noncomputable def lvLogVol {d : Nat} (localVol : ℝ → (Fin d → ℝ) → Fin d → ℝ) (sqrtRho : Matrix (Fin d) (Fin d) ℝ) (t : ℝ) (logSpot : Fin d → ℝ) : Matrix (Fin d) (Fin d) ℝ :=
  fun i j => (lvVol (fun t _ => localVol t (fun j => Real.exp (logSpot j)) i) (List.ofFn (sqrtRho i)) t (logSpot i)).getD j 0

/-- L508-541 `sample_paths` for one path: the logarithms of the spots are sampled with the Euler scheme of `GenericItoProcess.sample_paths` and the exponentials are
returned. Without an initial state the sampler starts at zero (`euler_sampling.py` L247-248). -/
noncomputable def lvSamplePath {d : Nat} (localVol : ℝ → (Fin d → ℝ) → Fin d → ℝ) (domestic foreign : Fin d → ℝ → ℝ) (sqrtRho : Matrix (Fin d) (Fin d) ℝ)
    (requested : Nat) (grid : List ℝ) (mask : List Bool) (initialState : Option (Fin d → ℝ)) (draws : List (Fin d → ℝ)) : List (Option (Fin d → ℝ)) :=
  let logState := match initialState with
    | some spot => fun i => Real.log (spot i)
    | none => 0
  (whileSample (eulerStep (lvLogDrift localVol domestic foreign) (lvLogVol localVol sqrtRho)) requested grid mask logState draws).map
    (fun state => state.map (fun x i => Real.exp (x i)))

/-- L517-523: the grid of times handed to the sampler, or the error. -/
def lvSampleGrid {A B C : Type*} (precomputed : Bool) (modelGrid : Option C) (timeStep : Option A) (numTimeSteps : Option B)
    (timesGrid : Option C) : Except String (Option C) :=
  if precomputed then
    if timeStep.isSome || numTimeSteps.isSome || timesGrid.isSome then
      .error "`time_step`, `num_time_steps`, or `times_grid` cannot be used with the interpolated LVM"
    else .ok modelGrid
  else .ok timesGrid

/-- L632-639 `_log_forward_moneyness` of a quote. -/
noncomputable def lvLogForwardMoneyness (df : ℝ → ℝ) (spot dividend time strike : ℝ) : ℝ :=
  Real.log (strike / spot) - (lvRiskFreeRate df time - dividend) * time

end Model
