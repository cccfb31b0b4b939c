import Verif.Model.PlatformSwap

/-!
# Model of `experimental/pricing_platform/framework/rate_instruments/forward_rate_agreement`: forward rate agreements

One row of the batch at a time; a curve is the function giving the discount factor of a date.
-/

namespace Model.Platform
variable {K : Type}

/-- `forward_rate_agreement_impl.py` L202-226: start and end of the accrual period. -/
def fraDates (fixing : DateT) (settlementDays : Int) (rule : BusinessRule) (term : ProtoPeriod × Int) : Except String (DateT × DateT) := do
  let q ← getBusinessDayConvention rule
  let start ← streamCalendar.addBusinessDays fixing settlementDays q.1
  let period ← getPeriod term.1 term.2
  let stop ← streamCalendar.addPeriodAndRoll start period q.1
  let stop ← if q.2 then stop.toEndOfMonth else pure stop
  return (start, stop)

/-- The data of one agreement. -/
structure Fra (K : Type) where
  start : DateT
  stop : DateT
  fraction : K
  notional : K
  fixedRate : K
  short : Bool

/-- L104-231: the constructor for one row. -/
def Fra.init [Field K] (short : Bool) (fixing : DateT) (fixedRate notional : K) (daycount : Daycount) (rule : BusinessRule)
    (term : ProtoPeriod × Int) (settlementDays : Int) : Except String (Fra K) := do
  let d ← fraDates fixing settlementDays rule term
  let f ← getDaycountFn K daycount
  return ⟨d.1, d.2, f d.1 d.2, notional, fixedRate, short⟩

/-- L335-376 `price` (the forward rate is `RateCurve.forward_rate` for the given year fraction). -/
def Fra.price [Field K] [LinearOrder K] (a : Fra K) (reference discount : DateT → K) : K :=
  let forward := curveForwardRate reference a.start a.stop a.fraction
  let df := if a.fraction > 0 then discount a.start else 0
  (if a.short then 1 else -1) * df * a.notional * (forward - a.fixedRate) * a.fraction / (1 + a.fraction * forward)

/-- `instrument_protos/forward_rate_agreement.proto`. -/
structure FraProto (K : Type) where
  short : Bool
  currency : String
  fixing : Int × Int × Int
  fixedRate : K
  notional : K
  daycount : Daycount
  rule : BusinessRule
  holidays : Nat
  term : ProtoPeriod × Int
  rateType : RateIndex
  settlementDays : Int
  id : String
  instrumentType : String
deriving DecidableEq

/-- The values of the dictionary of `proto_utils.py` L159-212. -/
structure FraBatch (K : Type) where
  short : List Bool
  currency : List String
  fixing : List (Int × Int × Int)
  fixedRate : List K
  notional : List K
  daycount : Daycount
  rule : BusinessRule
  calendar : Nat
  term : ProtoPeriod × List Int
  rateType : List RateIndex
  settlementDays : List Int
  names : List (String × String)
deriving DecidableEq

/-- `proto_utils.py` L56-73 `_get_hash_v2`, without the hash. -/
def fraKey (p : FraProto K) : List Nat :=
  [p.holidays, p.daycount.value, p.rule.value, (frequencyAndMultiplier p.term.1).1.value]

/-- L185-197. -/
def fraEntry (p : FraProto K) : FraBatch K :=
  let f := frequencyAndMultiplier p.term.1
  ⟨[p.short], [p.currency], [p.fixing], [p.fixedRate], [p.notional], p.daycount, p.rule, p.holidays, (f.1, [f.2 * p.term.2]),
    [p.rateType], [p.settlementDays], [(p.id, p.instrumentType)]⟩

/-- L199-211. -/
def FraBatch.update (b e : FraBatch K) : FraBatch K :=
  { b with
    short := b.short ++ e.short, currency := b.currency ++ e.currency, fixing := b.fixing ++ e.fixing,
    fixedRate := b.fixedRate ++ e.fixedRate, notional := b.notional ++ e.notional, term := (b.term.1, b.term.2 ++ e.term.2),
    rateType := b.rateType ++ e.rateType, settlementDays := b.settlementDays ++ e.settlementDays, names := b.names ++ e.names }

/-- L159-212 `from_protos_v2`. -/
def fraFromProtos (protos : List (FraProto K)) : Except String (List (List Nat × FraBatch K)) :=
  protos.foldlM (fun d p => dictUpdate d (fraKey p) (fraEntry p) (fun b => .ok (b.update (fraEntry p)))) []

end Model.Platform
