import Verif.Model.Validation

/-! # `tf_quant_finance/black_scholes/implied_vol_lib.py`

One option as in `Verif.Model.ImpliedVol`. The values of the enumeration are the two methods, so that L171 is never reached. -/

namespace Model

/-- `ImpliedVolMethod`, L24-32. -/
inductive ImpliedVolMethod | fastApprox | newton

/-- `implied_vol`, L35-171. The other keyword arguments are those of the two methods; of the three results of Newton's method
only the first is returned. A result that is not finite is `none`. -/
noncomputable def impliedVol (a : IvArgs) (method : ImpliedVolMethod) (validate : Bool) (polya : ℝ)
    (initialVolatility : Option ℝ) (rel tolerance : ℝ) (maxIterations : Nat) : Except String (Option ℝ) :=
  match method with
  | .fastApprox =>
    match a.isNormal with
    | true => .error "Only LOG_NORMAL underlying distribution is supported for FAST_APPROX method."
    | false => (approxImpliedVolChecked a polya validate).map (fun v => some v)
  | .newton =>
    (impliedVolNewtonChecked a initialVolatility rel tolerance maxIterations validate).map
      (fun cells => (cells[0]?).bind (fun c => c.parameter))

end Model
