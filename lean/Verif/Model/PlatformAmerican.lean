import Mathlib.Data.String.Basic
import Verif.Model.PlatformSwap
import Verif.Model.Interpolation2D
import Verif.Model.Lsm
import Verif.Model.PrepareGrid

/-!
# Model of American equity options of the pricing platform

`experimental/pricing_platform/framework/equity_instruments` and `market_data/volatility_surface.py`. One option of the batch at a time, except in the lookup of market
data, which is about the batch. Floats are real numbers.
-/

namespace Model.Platform
open scoped BigOperators

/-! ## `volatility_surface.py` -/

/-- The members of `VolatilitySurface`, L76-101. -/
structure VolSurface where
  valuation : DateT
  expiries : List DateT
  strikes : List (List ℝ)
  volatilities : List (List ℝ)
  daycount : Option Daycount
  interpolator : Option (ℝ → ℝ → Option ℝ)

namespace VolSurface

/-- L79-81: the day count function. -/
noncomputable def daycountFn (s : VolSurface) : Except String (DateT → DateT → ℝ) := getDaycountFn ℝ (s.daycount.getD .ACTUAL_365)

/-- L90-101: the interpolator. -/
noncomputable def interpolate (s : VolSurface) (f : DateT → DateT → ℝ) : ℝ → ℝ → Option ℝ :=
  match s.interpolator with
  | none => fun t x => interpolate2D (s.expiries.map fun d => f s.valuation d) s.strikes s.volatilities t x
  | some g => g

/-- L129-142: the time of expiry asked for. -/
noncomputable def queryTime (s : VolSurface) (f : DateT → DateT → ℝ) (date : Option DateT) (time : Option ℝ) : Except String ℝ :=
  match date, time with
  | some _, some _ => .error "Unexpected inputs: Both expiry_dates and expiry times are specified"
  | some d, none => .ok (f s.valuation d)
  | none, some t => .ok t
  | none, none => .error "Attempt to convert a value (None) to a date tensor"

/-- L103-143 `volatility`. -/
noncomputable def volatility (s : VolSurface) (strike : ℝ) (date : Option DateT) (time : Option ℝ) : Except String (Option ℝ) := do
  let f ← s.daycountFn
  let t ← s.queryTime f date time
  return s.interpolate f t strike

end VolSurface

/-! ## `american_option/utils.py` -/

/-- The arguments of `bs_lsm_price`, L26-39, for one option. -/
structure AmArgs where
  spot : ℝ
  expiryTime : ℝ
  strike : ℝ
  volatility : ℝ
  discountFactor : ℝ
  isCall : Bool
  numExerciseTimes : Nat
  numCalibration : Option Nat

namespace AmArgs

/-- L94. -/
noncomputable def rate (a : AmArgs) : ℝ := -Real.log a.discountFactor / a.expiryTime

/-- L97. -/
noncomputable def scaledStrike (a : AmArgs) : ℝ := a.strike / a.spot

/-- L99. -/
noncomputable def scaledExpiry (a : AmArgs) : ℝ := a.volatility * Real.sqrt a.expiryTime

/-- L104. -/
noncomputable def times (a : AmArgs) : List ℝ := tfLinspace 0 1 a.numExerciseTimes

/-- L101-134: a sample; `gbm` is the sample of the geometric Brownian motion with drift zero and volatility one at the time `t`. -/
noncomputable def rescale (a : AmArgs) (t gbm : ℝ) : ℝ :=
  let samples := Real.exp (0.5 * t) * gbm
  let samples := samples ^ a.scaledExpiry
  let samples := samples * Real.exp (-t * a.expiryTime * a.volatility ^ 2 / 2)
  1 * Real.exp (a.rate * t * a.expiryTime) * samples

variable {n b : Nat}

/-- The samples of L107-134: `w i` is the Brownian motion at the time `i`, of which the sample paths are `exp(-t / 2 + w)` (L106). -/
noncomputable def samples (a : AmArgs) (w : Nat → Fin n → ℝ) (i : Nat) (s : Fin n) : ℝ :=
  let t := a.times.getD i 0
  a.rescale t (Real.exp (-t / 2 + w i s))

/-- `_payoff_fn`, L139-147. -/
noncomputable def payoff (a : AmArgs) (w : Nat → Fin n → ℝ) (i : Nat) (s : Fin n) : ℝ :=
  let p := a.scaledStrike - a.samples w i s
  if a.isCall then max (-p) 0 else max p 0

/-- The basis, L149-151, as a function of the logarithms of the samples. The default is the polynomial basis of degree 2. -/
noncomputable def defaultBasis (num n : Nat) (x : Fin num → Fin n → ℝ) (i : Nat) (k : Fin 3) (s : Fin n) : ℝ :=
  if h : i < num then ((polynomialBasis 2 1 (List.ofFn fun s => [x ⟨i, h⟩ s])).getD k.val []).getD s.val 0 else 0

/-- L154-167: the arguments of `least_square_mc`. -/
noncomputable def lsmInput (a : AmArgs) (basis : (Fin a.numExerciseTimes → Fin n → ℝ) → Nat → Fin b → Fin n → ℝ)
    (pinv : Matrix (Fin b) (Fin b) ℝ → Matrix (Fin b) (Fin b) ℝ) (w : Nat → Fin n → ℝ) : LsmInput n b where
  exerciseTimes := List.range a.times.length
  payoffFn := a.payoff w
  basisFn := basis fun i s => Real.log (a.samples w i.val s)
  discountFactors := a.times.map fun t _ => Real.exp (-a.rate * t * a.expiryTime)
  numCalibration := a.numCalibration
  numPathTimes := a.times.length
  pinv := pinv

/-- `bs_lsm_price`, L169. -/
noncomputable def price (a : AmArgs) (basis : (Fin a.numExerciseTimes → Fin n → ℝ) → Nat → Fin b → Fin n → ℝ)
    (pinv : Matrix (Fin b) (Fin b) ℝ → Matrix (Fin b) (Fin b) ℝ) (w : Nat → Fin n → ℝ) : ℝ :=
  (a.lsmInput basis pinv w).leastSquareMc * a.spot

end AmArgs

/-- `american_option_impl.py` L152-153 and L318: the value of the position. -/
noncomputable def amPosition (short : Bool) (contractAmount price : ℝ) : ℝ := (if short then 1 else -1) * contractAmount * price

/-! ## Market data of a batch -/

/-- `market_data_impl.py` L264-268 and L286-302: one entry of the market for each pair of `zip(currency, asset)`. -/
def marketRows {D : Type} (market : String → String → Option D) (currencies equities : List String) : Except String (List D) :=
  (List.zip currencies equities).mapM fun p => match market p.1 p.2 with
    | some d => .ok d
    | none => .error "No data for asset"

/-- `american_option_impl.py` L287-298 with `equity_instruments/utils.py` L27-58 and L93-100: the data (spot or volatility surface) of each option. The discount curve of
an option is the risk free curve of its currency, the signature of which is the currency. -/
def amMarketData {D : Type} (market : String → String → Option D) (currencies equities : List String) : Except String (List D) := do
  let curves := processCurveTypes (fun c => c.key.1) (currencies.map CurveType.riskFree)
  let types := createMask equities
  let rows ← marketRows market (curves.1.map fun c => c.key.1) types.2
  gatherRows rows types.1

/-! ## `american_option/proto_utils.py` -/

/-- `instrument_protos/american_equity_option.proto`. -/
structure AmProto (K : Type) where
  short : Bool
  currency : String
  expiry : Int × Int × Int
  equity : String
  contractAmount : K
  strike : K
  rule : BusinessRule
  holidays : Nat
  settlementDays : Int
  isCall : Bool
  id : String
  instrumentType : String
deriving DecidableEq

/-- The values of the dictionary of L57-105 (the configuration is the same for all). -/
structure AmBatch (K : Type) where
  short : List Bool
  currency : List String
  expiry : List (Int × Int × Int)
  equity : List String
  contractAmount : List K
  rule : BusinessRule
  calendar : Nat
  strike : List K
  isCall : List Bool
  settlementDays : List Int
  names : List (String × String)
deriving DecidableEq

/-- L30-38 `_get_hash`, without the hash. -/
def amKey {K : Type} (p : AmProto K) : List Nat := [p.holidays, p.rule.value]

/-- L83-94. -/
def amEntry {K : Type} (p : AmProto K) : AmBatch K :=
  ⟨[p.short], [p.currency], [p.expiry], [p.equity], [p.contractAmount], p.rule, p.holidays, [p.strike], [p.isCall], [p.settlementDays], [(p.id, p.instrumentType)]⟩

/-- L96-104. -/
def AmBatch.update {K : Type} (b e : AmBatch K) : AmBatch K :=
  { b with
    short := b.short ++ e.short, expiry := b.expiry ++ e.expiry, equity := b.equity ++ e.equity, currency := b.currency ++ e.currency,
    contractAmount := b.contractAmount ++ e.contractAmount, strike := b.strike ++ e.strike, isCall := b.isCall ++ e.isCall,
    settlementDays := b.settlementDays ++ e.settlementDays, names := b.names ++ e.names }

/-- L57-105 `from_protos`. -/
def amFromProtos {K : Type} (protos : List (AmProto K)) : Except String (List (List Nat × AmBatch K)) :=
  protos.foldlM (fun d p => dictUpdate d (amKey p) (amEntry p) (fun b => .ok (b.update (amEntry p)))) []

/-- `american_option_impl.py` L176-181: the check of the constructor. -/
def amCheck (currencies equities : List String) : Except String Unit :=
  if currencies.length ≠ equities.length ∧ currencies.length > 1 ∧ equities.length > 1 then .error "Number of currencies and equities should be the same" else .ok ()

/-- `proto_utils.py` L139-156 `tensor_repr`: the currencies and equities passed to the constructor. -/
def amTensorRepr (currencies equities : List String) : List String × List String :=
  (((processCurveTypes (fun c => c.key.1) (currencies.map CurveType.riskFree)).1).map (fun c => c.key.1), (createMask equities).2)

end Model.Platform
