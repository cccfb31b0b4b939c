import Mathlib.Algebra.Order.Floor.Ring
import Verif.Model.HullWhite
import Verif.Model.PlatformSwap

/-!
# Model of `experimental/pricing_platform/framework/rate_instruments/swaption`: European swaptions

One row of the batch at a time.
-/

namespace Model.Platform
variable {K : Type}

/-- The arguments of `hull_white.swaption_price` at `swaption_impl.py` L325-339 (without curve and model parameters). -/
structure SwaptionArgs (K : Type) where
  expiry : K
  floatStarts : List K
  floatEnds : List K
  payments : List K
  floatFractions : List K
  fixedFractions : List K
  coupons : List K
  isPayer : Bool
  notional : K
deriving DecidableEq

/-- L199-235 and L277-323 for the model `HULL_WHITE_ONE_FACTOR`.  Without a floating leg there is no reference curve, and without a fixed
leg there are no cashflow dates. -/
def swaptionArgs [Field K] [LinearOrder K] (s : Swap K) (expiry valuation : DateT) : Except String (SwaptionArgs K) :=
  let time := fun d => actual365Fixed K valuation d
  let build := fun (f : FixedRow K) (g : FloatRow K) (isPayer : Bool) (notional : K) => Except.ok
    ⟨time expiry, (couponStarts g.dates).map time, (couponEnds g.dates).map time, (couponEnds f.dates).map time,
      yearFractions g.daycount g.dates, yearFractions f.daycount f.dates, (couponEnds f.dates).map (fun _ => f.rate), isPayer, notional⟩
  match s.pay, s.receive with
  | .floating g, .fixed f => build f g false g.notional
  | .fixed f, .floating g => build f g true f.notional
  | _, _ => .error "AttributeError"

/-- `tf.round`: to the nearest integer, halves to the even one. -/
def roundHalfEven [Field K] [LinearOrder K] [FloorRing K] (x : K) : Int :=
  let f := ⌊x⌋
  if x - f < 1 / 2 then f else if 1 / 2 < x - f then f + 1 else if f % 2 = 0 then f else f + 1

/-- L294-302: the ordinal of the date at which the rate for time `t` is read. -/
def rateOrdinal [Field K] [LinearOrder K] [FloorRing K] (t : K) (valuation : DateT) : Int := roundHalfEven (t * 365 + (valuation.ordinal : K))

/-- The price of the Hull-White model for the arguments.  `breakEven` is the result of the root search. -/
noncomputable def swaptionValue (m : HullWhite) (a : SwaptionArgs ℝ) (breakEven : ℝ) : ℝ :=
  m.swaptionPrice a.expiry a.notional a.isPayer (List.zip a.payments (List.zip a.fixedFractions a.coupons)) breakEven

/-- `interest_rate_swap/proto_utils.py` L490-514 `_fixed_leg_key`, `_floating_leg_key`, `_get_keys`. -/
def getKeysV1 : LegProto K → List (Option Int) × List (Option Int)
  | .fixed l => ([some l.frequency.1.value, some l.frequency.2, some l.daycount.value, some l.rule.value], List.replicate 7 none)
  | .floating l => (List.replicate 4 none, [some l.frequency.1.value, some l.frequency.2, some l.reset.1.value, some l.reset.2,
      some l.daycount.value, some l.rule.value, some l.rateType.type])

/-- L517-536 `_get_legs_hash_key` and L326-334 `get_hash`, without the hash; `swaption/proto_utils.py` L22-24 uses the underlying swap. -/
def getHashV1 (s : SwapProto K) : List (Option Int) × Bool :=
  let p := getKeysV1 s.pay
  let r := getKeysV1 s.receive
  let key1 := p.1 ++ p.2
  let key2 := r.1 ++ r.2
  let flip := decide (p.1[0]? = some none) && decide (r.1[0]? ≠ some none)
  ((if flip then key2 ++ key1 else key1 ++ key2) ++ [some (s.currency : Int), some (s.holidays : Int)], flip)

/-- `instrument_protos/swaption.proto`. -/
structure SwaptionProto (K : Type) where
  swap : SwapProto K
  expiry : Int × Int × Int
  id : String
  instrumentType : String
deriving DecidableEq

/-- `swaption_impl.py` L245-256 `from_protos`: of the batches of swaps of a group only the first is used. -/
def swaptionFromProtos [Neg K] (protos : List (SwaptionProto K)) :
    Except String (List (SwapBatch K × List (Int × Int × Int) × List (String × String))) := do
  let groups ← groupProtos (fun p : SwaptionProto K => (getHashV1 p.swap).1) protos
  groups.mapM (fun g => do
    let batches ← fromProtos (g.2.map (fun p => p.swap))
    match batches with
    | [] => throw "list index out of range"
    | b :: _ => return (b.2, g.2.map (fun p => p.expiry), g.2.map (fun p => (p.id, p.instrumentType))))

end Model.Platform
