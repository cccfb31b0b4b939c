import Verif.Model.CubicSpline
import Verif.Model.LinearInterpolation

/-!
# Model of `tf_quant_finance/math/interpolation/interpolation_2d/interpolation_2d.py`

One point of one batch element; the rows of `y_data` and `z_data` belong to the entries of `x_data`. The permutations of the axes, which
bring the points in front, disappear for one point.
-/

namespace Model

variable {K : Type} [Field K] [LinearOrder K]

/-- `__init__` L66-106: the coefficients of one spline for each row. -/
def splineRows (yData zData : List (List K)) : Option (List (List K)) :=
  (List.zip yData zData).mapM fun r => splineBuild r.1 r.2 none none none

/-- `interpolate` L108-158. -/
def interpolate2D (xData : List K) (yData zData : List (List K)) (x y : K) : Option K := do
  let coeffs ← splineRows yData zData
  let yx := (List.zip (List.zip yData zData) coeffs).map fun r => cubicInterpolate y r.1.1 r.1.2 r.2
  pure (linearInterpolate x xData yx)

end Model
