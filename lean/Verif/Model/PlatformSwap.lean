import Verif.Model.PlatformStreams

/-!
# Model of `experimental/pricing_platform/framework/rate_instruments/interest_rate_swap`: interest rate swaps

Protocol buffers are structures; enumerations in keys are their numbers, as the hash is computed from the JSON text of the numbers.  The
hash (MD5) is replaced by the key itself, so that collisions are left out.  Amounts are elements of a field `K` (the conversion from
units and nanos is `decimalToDouble`).
-/

namespace Model.Platform
variable {K : Type}

/-- `rate_instruments/utils.py` L21-22 `decimal_to_double`. -/
def decimalToDouble [Field K] (units nanos : Int) : K := (units : K) + (nanos : K) * (1 / 1000000000)

def Daycount.value : Daycount → Nat
  | .DAY_COUNT_CONVENTION_UNKNOWN => 0 | .ACTUAL_ACTUAL_ISDA => 1 | .ACTUAL_360 => 2 | .ACTUAL_365 => 3 | .CONVENTION_30_360 => 4

def BusinessRule.value : BusinessRule → Nat
  | .BUSINESS_DAY_CONVENTION_UNKNOWN => 0 | .NO_ADJUSTMENT => 1 | .PREVIOUS => 2 | .FOLLOWING => 3 | .MODIFIED_PREVIOUS => 4
  | .MODIFIED_FOLLOWING => 5 | .EOM_NO_ADJUSTMENT => 6 | .EOM_PREVIOUS => 7 | .EOM_FOLLOWING => 8

def ProtoPeriod.value : ProtoPeriod → Nat
  | .TYPE_UNKNOWN => 0 | .DAY => 1 | .WEEK => 2 | .MONTH => 3 | .QUARTER => 4 | .YEAR => 5

/-- `instrument_protos/rate_indices.proto` (`type` is the number of the enumeration). -/
structure RateIndex where
  type : Nat
  name : String
  source : String
deriving DecidableEq, Repr

/-- `instrument_protos/interest_rate_swap.proto` `FixedLeg`. -/
structure FixedLegProto (K : Type) where
  currency : String
  frequency : ProtoPeriod × Int
  notional : K
  daycount : Daycount
  rule : BusinessRule
  settlementDays : Int
  holidays : Nat
  fixedRate : K
deriving DecidableEq

/-- `FloatingLeg`. -/
structure FloatLegProto (K : Type) where
  currency : String
  frequency : ProtoPeriod × Int
  notional : K
  daycount : Daycount
  rule : BusinessRule
  settlementDays : Int
  holidays : Nat
  reset : ProtoPeriod × Int
  rateType : RateIndex
  spread : K
deriving DecidableEq

/-- `SwapLeg`. -/
inductive LegProto (K : Type)
  | fixed (leg : FixedLegProto K)
  | floating (leg : FloatLegProto K)
deriving DecidableEq

/-- `InterestRateSwap`. -/
structure SwapProto (K : Type) where
  effective : Int × Int × Int
  maturity : Int × Int × Int
  currency : Nat
  receive : LegProto K
  pay : LegProto K
  holidays : Nat
  id : String
  instrumentType : String
deriving DecidableEq

/-- `proto_utils.py` L594-599 `_frequency_and_multiplier` (years become months, the multiplier is always 1). -/
def frequencyAndMultiplier (t : ProtoPeriod) : ProtoPeriod × Int := (if t = .YEAR then .MONTH else t, 1)

/-- `coupon_specs.py` with lists over the batch. -/
structure FixedSpec (K : Type) where
  currency : List String
  frequency : ProtoPeriod × List Int
  notional : List K
  fixedRate : List K
  settlementDays : List Int
  rule : BusinessRule
  daycount : Daycount
  calendar : Nat
deriving DecidableEq

structure FloatSpec (K : Type) where
  currency : List String
  frequency : ProtoPeriod × List Int
  reset : ProtoPeriod × List Int
  notional : List K
  rateType : List RateIndex
  settlementDays : List Int
  rule : BusinessRule
  daycount : Daycount
  spread : List K
  calendar : Nat
deriving DecidableEq

inductive LegSpec (K : Type)
  | fixed (spec : FixedSpec K)
  | floating (spec : FloatSpec K)
deriving DecidableEq

/-- `proto_utils.py` L207-258 `leg_from_proto_v2`. -/
def legFromProto : LegProto K → LegSpec K
  | .fixed l =>
    let f := frequencyAndMultiplier l.frequency.1
    .fixed ⟨[l.currency], (f.1, [f.2 * l.frequency.2]), [l.notional], [l.fixedRate], [l.settlementDays], l.rule, l.daycount, l.holidays⟩
  | .floating l =>
    let f := frequencyAndMultiplier l.frequency.1
    let r := frequencyAndMultiplier l.reset.1
    .floating ⟨[l.currency], (f.1, [f.2 * l.frequency.2]), (r.1, [r.2 * l.reset.2]), [l.notional], [l.rateType], [l.settlementDays],
      l.rule, l.daycount, [l.spread], l.holidays⟩

/-- L283-313 `update_leg_v2`. -/
def updateLeg : LegSpec K → LegSpec K → Except String (LegSpec K)
  | .fixed c, .fixed l => .ok (.fixed { c with
      currency := c.currency ++ l.currency, notional := c.notional ++ l.notional, fixedRate := c.fixedRate ++ l.fixedRate,
      settlementDays := c.settlementDays ++ l.settlementDays, frequency := (c.frequency.1, c.frequency.2 ++ l.frequency.2) })
  | .floating c, .floating l => .ok (.floating { c with
      currency := c.currency ++ l.currency, notional := c.notional ++ l.notional, rateType := c.rateType ++ l.rateType,
      settlementDays := c.settlementDays ++ l.settlementDays, spread := c.spread ++ l.spread,
      frequency := (c.frequency.1, c.frequency.2 ++ l.frequency.2), reset := (c.reset.1, c.reset.2 ++ l.reset.2) })
  | _, _ => .error "Both `current_leg` and `leg` should beof the same fixed or float type."

/-- L451-453: all notionals of a leg negated. -/
def LegSpec.negate [Neg K] : LegSpec K → LegSpec K
  | .fixed s => .fixed { s with notional := s.notional.map (fun x => -x) }
  | .floating s => .floating { s with notional := s.notional.map (fun x => -x) }

/-- L539-569 `_fixed_leg_key_v2`, `_floating_leg_key_v2`, `_get_keys_v2`. -/
def getKeys : LegProto K → List (Option Nat) × List (Option Nat)
  | .fixed l => ([some (if l.frequency.1.value = 5 then 3 else l.frequency.1.value), some l.daycount.value, some l.rule.value],
      List.replicate 4 none)
  | .floating l => (List.replicate 3 none,
      [some (frequencyAndMultiplier l.frequency.1).1.value, some (frequencyAndMultiplier l.reset.1).1.value, some l.daycount.value,
        some l.rule.value])

/-- L572-591 `_get_legs_hash_key_v2`. -/
def legsHashKey (leg1 leg2 : LegProto K) : Bool × List (Option Nat) :=
  let p := getKeys leg1
  let r := getKeys leg2
  let key1 := p.1 ++ p.2
  let key2 := r.1 ++ r.2
  let flip := decide (p.1[0]? = some none) && decide (r.1[0]? ≠ some none)
  if flip then (flip, key2 ++ key1) else (flip, key1 ++ key2)

/-- L337-344 `get_hash_v2`, without the hash. -/
def getHash (s : SwapProto K) : List (Option Nat) × Bool :=
  let q := legsHashKey s.pay s.receive
  (q.2 ++ [some s.holidays], q.1)

/-- Python: append to the entry of a key, or make a new entry (dictionaries keep the order of insertion). -/
def dictUpdate {κ α : Type} [DecidableEq κ] (d : List (κ × α)) (k : κ) (fresh : α) (update : α → Except String α) :
    Except String (List (κ × α)) :=
  match d with
  | [] => .ok [(k, fresh)]
  | (k', a) :: d => if k' = k then do return (k', ← update a) :: d else do return (k', a) :: (← dictUpdate d k fresh update)

/-- L363-376 `group_protos_v2` (and the same loop for the other instruments). -/
def groupProtos {κ α : Type} [DecidableEq κ] (key : α → κ) (protos : List α) : Except String (List (κ × List α)) :=
  protos.foldlM (fun d p => dictUpdate d (key p) [p] (fun ps => .ok (ps ++ [p]))) []

/-- The values of the dictionary of L429-476 (the configuration is the same for all). -/
structure SwapBatch (K : Type) where
  start : List (Int × Int × Int)
  maturity : List (Int × Int × Int)
  pay : LegSpec K
  receive : LegSpec K
  names : List (String × String)
deriving DecidableEq

/-- L435-475: the entry of one swap. -/
def swapEntry [Neg K] (s : SwapProto K) : SwapBatch K :=
  let pay := legFromProto s.pay
  let receive := legFromProto s.receive
  if (getHash s).2 then ⟨[s.effective], [s.maturity], receive.negate, pay.negate, [(s.id, s.instrumentType)]⟩
  else ⟨[s.effective], [s.maturity], pay, receive, [(s.id, s.instrumentType)]⟩

/-- L461-468. -/
def SwapBatch.update (b e : SwapBatch K) : Except String (SwapBatch K) := do
  let pay ← updateLeg b.pay e.pay
  let receive ← updateLeg b.receive e.receive
  return ⟨b.start ++ e.start, b.maturity ++ e.maturity, pay, receive, b.names ++ e.names⟩

/-- L429-476 `from_protos_v2`. -/
def fromProtos [Neg K] (protos : List (SwapProto K)) : Except String (List (List (Option Nat) × SwapBatch K)) :=
  protos.foldlM (fun d s => dictUpdate d (getHash s).1 (swapEntry s) (fun b => b.update (swapEntry s))) []

/-- `interest_rate_swap_impl.py` L248-259: the streams of a swap, for one row. -/
inductive Leg (K : Type)
  | fixed (row : FixedRow K)
  | floating (row : FloatRow K)

section
variable [Field K] [LinearOrder K]

/-- The price of a leg: `discount` and `reference` are the discount factors of the curves. -/
def Leg.price (l : Leg K) (reference discount : DateT → K) (data : Option (FixingData K)) (given : Option K) (valuation : DateT) :
    Except String K :=
  match l with
  | .fixed r => .ok (r.price discount valuation)
  | .floating r => r.price reference discount data given valuation

/-- A swap. `curve` is the discount curve if a single curve type was given in a dictionary, and nothing if it is a list, as it
always is otherwise (L210-225). -/
structure Swap (K : Type) where
  pay : Leg K
  receive : Leg K
  curve : Option (DateT → K)

/-- L317-335 `price`. -/
def Swap.price (s : Swap K) (reference discount : DateT → K) (data : Option (FixingData K)) (given : Option K) (valuation : DateT) :
    Except String K := do
  let p ← s.pay.price reference discount data given valuation
  let r ← s.receive.price reference discount data given valuation
  return r - p

/-- L490-507 `_annuity`.  A list has no attribute `currency`. -/
def Swap.annuity (s : Swap K) : Except String K :=
  match s.pay, s.receive with
  | .floating _, .floating _ => .error "Swap does not have a fixed leg."
  | .fixed _, .fixed _ => .error "Swap should not have both fixed leg."
  | .fixed r, .floating _ | .floating _, .fixed r =>
    match s.curve with
    | none => .error "AttributeError: 'list' object has no attribute 'currency'"
    | some D => .ok (List.zipWith (fun d τ => D d * τ) (couponEnds r.dates) (yearFractions r.daycount r.dates)).sum

/-- L341-350 `par_rate`. -/
def Swap.parRate (s : Swap K) (reference discount : DateT → K) (data : Option (FixingData K)) (given : Option K)
    (valuation : DateT) : Except String K := do
  let a ← s.annuity
  let leg := match s.pay with | .floating r => Leg.floating r | .fixed _ => s.receive
  let v ← leg.price reference discount data given valuation
  match leg with
  | .floating r => return v / a / r.notional
  | .fixed r => return v / a / r.notional

/-- L352-359 `fixed_rate`. -/
def Swap.fixedRate (s : Swap K) : Option K :=
  match s.pay, s.receive with
  | .fixed r, _ => some r.rate
  | .floating _, .fixed r => some r.rate
  | .floating _, .floating _ => none

/-- L392-468 `ir_delta_parallel_leg` with a shock: `price` is the price of the leg as a function of the bump of the yields.  With a curve
type given, the local variable `curve_types` is read before it is bound (L413). -/
def irDeltaLeg (curveTypeGiven : Bool) (price : K → Except String K) (unbumped : Except String K) (shock : K) : Except String K :=
  if curveTypeGiven then .error "UnboundLocalError: curve_types"
  else do return ((← price shock) - (← unbumped)) / shock

/-- L470-481 `ir_delta_parallel`. -/
def irDelta (curveTypeGiven : Bool) (pay receive : K → Except String K) (pay0 receive0 : Except String K) (shock : K) :
    Except String K := do
  let p ← irDeltaLeg curveTypeGiven pay pay0 shock
  let r ← irDeltaLeg curveTypeGiven receive receive0 shock
  return r - p

end

/-- L440, L446-448: the discount factor of a node for a bump of its yield. -/
noncomputable def bumpedNode (yield time bump : ℝ) : ℝ := (1 + yield + bump) ^ (-time)

end Model.Platform
