import Verif.Model.VanillaPrices
import Mathlib.Analysis.SpecialFunctions.Pow.Real

/-!
# Model of `tf_quant_finance/black_scholes/asian_prices.py`: geometric Asian options

One element of the batch over the reals. The sampling times and the past fixings are the lists along the first axis of the tensors.
-/

namespace Model

/-- `AveragingType` L26-34. -/
inductive AveragingType where
  | geometric
  | arithmetic
  deriving DecidableEq

/-- `AveragingFrequency` L37-45. -/
inductive AveragingFrequency where
  | discrete
  | continuous
  deriving DecidableEq

/-- The arguments of `asian_option_price` L48-65. -/
structure AsianArgs extends BsArgs where
  samplingTimes : Option (List ℝ) := none
  pastFixings : Option (List ℝ) := none
  averagingType : AveragingType := .geometric
  averagingFrequency : AveragingFrequency := .discrete

/-- The checks of the sampling times L193-197; returns the sampling times. The index `-1` of an empty tensor is an error. -/
noncomputable def asianTimes (a : AsianArgs) : Except String (List ℝ) :=
  match a.samplingTimes with
  | none => .error "Sampling times required for discrete sampling asians"
  | some times => match times.getLast? with
    | none => .error "index out of bounds"
    | some last => if max last a.expiry = a.expiry then .ok times else .error "Sampling times cannot occur after expiry times"

/-- The checks of the arguments L182-202; returns the sampling times. -/
noncomputable def asianCheck (a : AsianArgs) : Except String (List ℝ) :=
  if a.spot.isNone == a.forward.isNone then .error "Either spots or forwards must be supplied but not both."
  else if a.discountRate.isSome && a.discountFactor.isSome then
    .error "At most one of discount_rates and discount_factors may be supplied"
  else if a.isNormal && a.averagingType = .geometric then
    .error "Cannot price geometric averaging asians analytically under normal volatility"
  else if !a.isNormal && a.averagingType = .arithmetic then
    .error "Cannot price arithmetic averaging asians analytically under lognormal volatility"
  else match a.averagingFrequency with
    | .continuous => .error "Pricing continuous averaging asians not yet supported"
    | .discrete => do
      let times ← asianTimes a
      if a.averagingType = .arithmetic then .error "Pricing arithmetic Asians not yet supported" else .ok times

/-- The spot price, given or derived from the forward, L229-234. -/
noncomputable def asianSpot (a : AsianArgs) : ℝ :=
  let rate := (bsDiscounting a.toBsArgs).1
  let dividend := a.dividendRate.getD 0
  match a.forward with
  | some f => f * Real.exp (-(rate - dividend) * a.expiry)
  | none => a.spot.getD 0

/-- `running_accumulator` L236-241. -/
noncomputable def asianAccumulator (a : AsianArgs) : ℝ :=
  match a.pastFixings with
  | none => 1
  | some fixings => fixings.prod

/-- `fixing_count` L236-241. -/
def asianFixingCount (a : AsianArgs) : Nat :=
  match a.pastFixings with
  | none => 0
  | some fixings => fixings.length

/-- `t1` L261. -/
noncomputable def asianT1 (a : AsianArgs) (times : List ℝ) : ℝ := times.sum / ((times.length + asianFixingCount a : Nat) : ℝ)

/-- `t2` L262-266: the sum of the matrix of the minima of pairs of sampling times. -/
noncomputable def asianT2 (a : AsianArgs) (times : List ℝ) : ℝ :=
  (times.map fun s => (times.map fun t => min s t).sum).sum / ((times.length + asianFixingCount a : Nat) : ℝ) ^ 2

/-- `asian_forwards` L244-245 and L268-272. -/
noncomputable def asianForward (a : AsianArgs) (times : List ℝ) : ℝ :=
  let rate := (bsDiscounting a.toBsArgs).1
  let dividend := a.dividendRate.getD 0
  let samplingTimeForwards := times.map fun t => asianSpot a * Real.exp ((rate - dividend) * t)
  (asianAccumulator a * samplingTimeForwards.prod) ^ (1 / ((times.length + asianFixingCount a : Nat) : ℝ)) *
    Real.exp (-0.5 * a.volatility * a.volatility * (asianT1 a times - asianT2 a times))

/-- The arguments of the vanilla pricer L274-286. -/
noncomputable def asianVanilla (a : AsianArgs) (times : List ℝ) : BsArgs :=
  { volatility := a.volatility * Real.sqrt (asianT2 a times / a.expiry)
    strike := a.strike
    expiry := a.expiry
    forward := some (asianForward a times)
    dividendRate := some ((bsDiscounting a.toBsArgs).1 - Real.log (asianForward a times / asianSpot a) / a.expiry)
    discountFactor := some (bsDiscounting a.toBsArgs).2
    isCall := a.isCall }

/-- `asian_option_price` L48-286. -/
noncomputable def asianOptionPrice (a : AsianArgs) : Except String ℝ := do
  let times ← asianCheck a
  optionPrice (asianVanilla a times)

end Model
