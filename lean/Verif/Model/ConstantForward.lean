import Verif.Model.LinearInterpolation

/-! # Model of `tf_quant_finance/rates/constant_fwd/constant_fwd_interpolation.py` -/

namespace Model

variable {K : Type} [Field K] [LinearOrder K]

/-- `interpolate`, L22-100, for one row of the batch and one time. `none` stands for the result of a division by zero (NaN,
since the numerator is zero as well in the only case where this happens for sorted times that are not negative). -/
def constantForward (t : K) (times yields : List K) : Option K :=
  let tMin := times.foldl min (times.headD 0)
  let tMax := times.foldl max (times.headD 0)
  let t := min tMax (max tMin t)
  let prod := linearInterpolate t times (List.zipWith (fun x y => x * y) times yields)
  if t = 0 then none else some (prod / t)

end Model
