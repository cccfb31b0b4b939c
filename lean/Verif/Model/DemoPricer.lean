import Verif.Model.OptionDemo
import Verif.Model.VanillaPrices
import Verif.Model.Daycounts

/-! # Model of `tf_quant_finance/examples/demos/option_pricing_basic/pricer/app/pricers.py` -/

namespace Model

/-- One option of a portfolio, `common/datatypes.py` L20-28. -/
structure DemoOption where
  strike : ℝ
  isCall : Bool
  expiryDate : Int
  underlier : Nat

/-- `tf.gather(values, index)` for one index; an index out of range is an error. -/
def gatherMarket (values : List ℝ) (index : Nat) : Except String ℝ :=
  match values[index]? with
  | some v => .ok v
  | none => .error "indices out of range"

/-- `_price`, L45-65, for one option. The date of today is an argument. -/
noncomputable def demoPrice (spots vols rates : List ℝ) (today : DateT) (o : DemoOption) : Except String ℝ :=
  (gatherMarket spots o.underlier).bind fun spot =>
  (gatherMarket vols o.underlier).bind fun vol =>
  (gatherMarket rates o.underlier).bind fun rate =>
  (fromOrdinals o.expiryDate).bind fun expiry =>
  optionPrice { volatility := vol, strike := o.strike, expiry := actual360 ℝ today expiry, spot := some spot,
                discountRate := some rate, isCall := some o.isCall }

/-- The option that `generate_portfolio` makes of its draws, `data_generator/data_generation.py` L85-106: the underlier, the
draw for the strike, the number of days to expiry, the flag. -/
noncomputable def demoOption (spots : List ℝ) (today : Int) (underlier : Nat) (u : ℝ) (days : Nat) (isCall : Bool) : DemoOption :=
  { strike := strikeOf (spots.getD underlier 0) u, isCall := isCall, expiryDate := today + days, underlier := underlier }

end Model
