import Verif.Model.LinearInterpolation
import Verif.Model.Adi
import Mathlib.Data.Real.Sqrt
import Mathlib.Analysis.SpecialFunctions.Log.Basic
import Mathlib.Analysis.SpecialFunctions.Arsinh
import Mathlib.LinearAlgebra.Matrix.Notation
import Mathlib.Algebra.Order.Floor.Defs
import Mathlib.Algebra.Order.Floor.Ring

/-!
# Model of `tf_quant_finance/experimental/local_stochastic_volatility/lsv_variance_model.py` and
`tf_quant_finance/experimental/local_stochastic_volatility/local_stochastic_volatility_model.py`

One sample, real numbers. `divide_no_nan` is the division of a Lean field. The tensor of the joint density has the variance in its first dimension and the
logarithm of the spot in the second one, since `tf.meshgrid` indexes as `xy`; it is a function of the two indices here. The PDE solver is a parameter of the
loop; its stencils are those of `Model/Adi`. The local volatility is a parameter.
-/

namespace Model
open scoped BigOperators

/-- `LSVVarianceModel`, `lsv_variance_model.py` L68-87. -/
structure LsvVariance where
  k : ℝ
  m : ℝ
  alpha : ℝ

noncomputable def LsvVariance.vol (p : LsvVariance) (state : ℝ) : ℝ := p.alpha * Real.sqrt state
def LsvVariance.drift (p : LsvVariance) (state : ℝ) : ℝ := p.k * (p.m - state)

/-- L132: `dtype or self._domestic_rate.dtype`; there is no such attribute. -/
def lsvDtype (dtype : Option String) : Except String String :=
  match dtype with
  | some d => .ok d
  | none => .error "AttributeError"

/-- `_create_corr_matrix` L453-458. -/
def createCorrMatrix (rho : ℝ) : Matrix (Fin 2) (Fin 2) ℝ := !![1, rho; rho, 1]

/-- `tf.linalg.cholesky` for two rows; absent if a pivot is not positive. -/
noncomputable def cholesky2 (m : Matrix (Fin 2) (Fin 2) ℝ) : Option (Matrix (Fin 2) (Fin 2) ℝ) :=
  if m 0 0 ≤ 0 then none
  else
    let l00 := Real.sqrt (m 0 0)
    let l10 := m 1 0 / l00
    if m 1 1 - l10 ^ 2 ≤ 0 then none else some !![l00, 0; l10, Real.sqrt (m 1 1 - l10 ^ 2)]

/-- L141-156 `_vol_fn`. `diffusion` has shape `[1, 2]`, so the product with the factor scales its columns. -/
noncomputable def lsvVolFn (sqrtRho : Matrix (Fin 2) (Fin 2) ℝ) (p : LsvVariance) (leverage : ℝ → ℝ → ℝ) (t spot variance : ℝ) :
    Matrix (Fin 2) (Fin 2) ℝ :=
  let diffusion : Fin 2 → ℝ := ![leverage t spot * spot * Real.sqrt variance, p.vol variance]
  fun i j => diffusion j * sqrtRho i j

/-- L159-164 `_drift_fn`. -/
def lsvDriftFn (riskFreeRate dividendYield : Option ℝ) (p : LsvVariance) (spot variance : ℝ) : Fin 2 → ℝ :=
  ![(riskFreeRate.getD 0 - dividendYield.getD 0) * spot, p.drift variance]

/-- `_two_d_integration` L468-475. -/
def twoDIntegration (nx ny : Nat) (x y : Nat → ℝ) (value : Nat → Nat → ℝ) : ℝ :=
  let integral (j : Nat) : ℝ := ∑ i ∈ Finset.range (ny - 1), value i j * (y (i + 1) - y i)
  ∑ j ∈ Finset.range (nx - 1), integral j * (x (j + 1) - x j)

/-- `_tavella_randell_nonuniform_grid` L479-507, one dimension, point `i`. -/
noncomputable def tavellaRandell (xMin xMax xStar : ℝ) (numGridPoints : Nat) (alpha : ℝ) (i : Nat) : ℝ :=
  let c1 := Real.arsinh ((xMin - xStar) / alpha)
  let c2 := Real.arsinh ((xMax - xStar) / alpha)
  xStar + alpha * Real.sinh (c2 * i / numGridPoints + c1 * (1 - i / numGridPoints))

/-- `_conditional_expected_variance_from_pde_solution` L510-525: `variance_given_logspot` at index `j`. -/
noncomputable def varianceGivenLogspot (ny : Nat) (y : Nat → ℝ) (value : Nat → Nat → ℝ) (j : Nat) : ℝ :=
  let integral0 := ∑ i ∈ Finset.range (ny - 1), value i j * (y (i + 1) - y i)
  let integral1 := ∑ i ∈ Finset.range (ny - 1), y i * value i j * (y (i + 1) - y i)
  integral1 / integral0

/-- The interpolation returned at L521-525. -/
noncomputable def conditionalVariance (nx ny : Nat) (x y : Nat → ℝ) (value : Nat → Nat → ℝ) (logSpot : ℝ) : ℝ :=
  linearInterpolate logSpot ((List.range nx).map x) ((List.range nx).map (varianceGivenLogspot ny y value))

/-- Scaled bounds of the grid, L620-641: logarithm of the spot over the initial spot and variance over the initial variance. `bound` is the argument,
`default` the default. -/
noncomputable def gridBound (initialSpot initialVariance : ℝ) (default : ℝ × ℝ) (bound : Option (ℝ × ℝ)) : ℝ × ℝ :=
  let scaled := bound.elim default (fun b => (b.1 / initialSpot, b.2 / initialVariance))
  (Real.log scaled.1, scaled.2)

/-- The two grids, L643-646, with `num_grid_points + 1` points. -/
noncomputable def lsvGridX (initialSpot initialVariance : ℝ) (lo hi : Option (ℝ × ℝ)) (n i : Nat) : ℝ :=
  tavellaRandell (gridBound initialSpot initialVariance (1 / 100, 1 / 10000) lo).1 (gridBound initialSpot initialVariance (10, 5) hi).1 0 n (3 / 10) i
noncomputable def lsvGridY (initialSpot initialVariance : ℝ) (lo hi : Option (ℝ × ℝ)) (n i : Nat) : ℝ :=
  tavellaRandell (gridBound initialSpot initialVariance (1 / 100, 1 / 10000) lo).2 (gridBound initialSpot initialVariance (10, 5) hi).2 1 n (3 / 10) i

/-- The leverage at the start, L651-652. -/
noncomputable def initialLeverage (x : ℝ) : ℝ := linearInterpolate x [0, 1] [1, 1]

/-- `_initial_value` L654-665 for the smallest steps and the tolerance. -/
noncomputable def lsvInitialValue (deltaX deltaY tol : ℝ) (x y : Nat → ℝ) (i j : Nat) : ℝ :=
  if |x j - 0| < deltaX + tol ∧ |y i - 1| < deltaY + tol then 1 / (deltaX * deltaY * 4) else 0

/-- The values of `_second_order_coeff_fn` and `_first_order_coeff_fn`, L667-687, as a function of the arguments `grid[0]`, `grid[1]`: the list
`[val_xx, val_xy, val_yy, val_x, val_y]`. -/
structure LsvCoefficients where
  xx : ℝ
  xy : ℝ
  yy : ℝ
  x : ℝ
  y : ℝ

noncomputable def lsvCoefficients (rate dividend rho xScale yScale : ℝ) (p : LsvVariance) (leverage : ℝ → ℝ) (gx gy : ℝ) : LsvCoefficients :=
  let logSpot := gx + xScale
  let variance := gy * yScale
  let l := leverage logSpot
  ⟨1 / 2 * variance * l ^ 2, 1 / 2 * (rho * Real.sqrt variance * l * p.vol variance) / yScale, 1 / 2 * p.vol variance ^ 2 / yScale ^ 2,
    rate - dividend - 1 / 2 * variance * l ^ 2, p.drift variance / yScale⟩

/-- What the stepper receives. The callables are applied to the one-dimensional coordinate grids `[x, y]`, so that the entry `j` belongs to `x j` and `y j`, and
the result is broadcast along the first dimension: at the index `(i, j)` of the density it is the entry `j`. -/
noncomputable def lsvAdiCoeffs (rate dividend rho xScale yScale : ℝ) (p : LsvVariance) (leverage : ℝ → ℝ) (x y : Nat → ℝ) : AdiCoeffs 2 ℝ :=
  let c (q : GridIndex 2) : LsvCoefficients := lsvCoefficients rate dividend rho xScale yScale p leverage (x (q 1)) (y (q 1))
  { second := fun _ _ => none, first := fun _ => none, zeroth := none,
    innerSecond := fun a b => some (fun q => !![-(c q).yy, -(c q).xy; -(c q).xy, -(c q).xx] a b),
    innerFirst := fun a => some (fun q => ![(c q).y, (c q).x] a) }

/-- The steps of the stepper for `coord_grid = [x, y]`: `_get_grid_delta`, `multidim_parabolic_equation_stepper.py` L1064-1073, and the Neumann conditions. -/
def lsvAdiGrid (nx ny : Nat) (x y : Nat → ℝ) : AdiGrid 2 ℝ :=
  let neumann : ℝ → AdiBc 2 ℝ := fun _ => ⟨none, some (fun _ => 1), fun _ => 0⟩
  { size := ![ny, nx], delta := ![x 1 - x 0, y 1 - y 0], lower := fun _ => some neumann, upper := fun _ => some neumann }

/-- L737-740: negative values are removed and the density is divided by its integral. -/
noncomputable def lsvNormalize (nx ny : Nat) (x y : Nat → ℝ) (value : Nat → Nat → ℝ) : Nat → Nat → ℝ :=
  let positive := fun i j => max (value i j) 0
  fun i j => positive i j / twoDIntegration nx ny x y positive

/-- `_compute_leverage_fn` L689-712, the value at the grid point `j`. -/
noncomputable def leverageValue (nx ny : Nat) (xScale yScale : ℝ) (localVol : ℝ → ℝ → ℝ) (x y : Nat → ℝ) (value : Nat → Nat → ℝ) (t : ℝ) (j : Nat) : ℝ :=
  let logSpot := x j + xScale
  let sigma := localVol t (Real.exp logSpot)
  let sigma := if 10000 < |sigma| then 0 else sigma
  sigma / Real.sqrt (conditionalVariance nx ny (fun k => x k + xScale) (fun k => y k * yScale) value logSpot)

/-- The function returned by `_compute_leverage_fn`. -/
noncomputable def leverageFn (nx ny : Nat) (xScale yScale : ℝ) (localVol : ℝ → ℝ → ℝ) (x y : Nat → ℝ) (value : Nat → Nat → ℝ) (t logSpot : ℝ) : ℝ :=
  linearInterpolate logSpot ((List.range nx).map (fun k => x k + xScale))
    ((List.range nx).map (leverageValue nx ny xScale yScale localVol x y value t))

/-- The loop L722-764 with the index of the next entry, the time, the density and the entries written. `evolve` is the solver with the coefficients of a
leverage function and the normalization. The name `leverage_fn` is assigned inside `loop_body`, so it is local there, and the coefficient callables keep the
function `l0` of the start. -/
noncomputable def lsvLoop {D L : Type} (evolve : L → ℝ → D → D) (leverage : ℝ → D → L) (dt maxTime : ℝ) (l0 : L) :
    Nat → Nat → ℝ → D → List (Nat × L) → Nat × ℝ × D × List (Nat × L)
  | 0, i, t, d, written => (i, t, d, written)
  | fuel + 1, i, t, d, written =>
    if t < maxTime then
      let d' := evolve l0 t d
      lsvLoop evolve leverage dt maxTime l0 fuel (i + 1) (t + dt) d' (written ++ [(i, leverage (t + dt) d')])
    else (i, t, d, written)

/-- The number of entries of `times`, L751: `tf.range(0, max_time + time_step, time_step)`. -/
noncomputable def lsvTimesSize (dt maxTime : ℝ) : Nat := ⌈(maxTime + dt) / dt⌉₊

/-- The checks of `_leverage_function_using_pde`, L599-617: `tf.convert_to_tensor` of an absent rate fails. `from_market_data` and
`from_volatility_surface` pass the arguments with the default `None` on. -/
def lsvLeverageArguments (dim : Nat) (riskFreeRate dividendYield : Option ℝ) : Except String (ℝ × ℝ) :=
  if 1 < dim then .error "ValueError: more than one factor"
  else match riskFreeRate, dividendYield with
    | some r, some d => .ok (r, d)
    | _, _ => .error "ValueError: None values not supported"

end Model
