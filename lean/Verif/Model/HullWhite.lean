import Verif.Model.Piecewise
import Verif.Model.NormalCdf
import Verif.Model.Brent
import Mathlib.Analysis.Calculus.Deriv.Basic
import Mathlib.Analysis.SpecialFunctions.Log.Basic

/-!
# Model of `tf_quant_finance/models/hull_white`: `vector_hull_white.py`, `zero_coupon_bond_option.py`, `cap_floor.py`, `swaption.py`

One factor over the reals, with a constant mean reversion and a piecewise constant volatility (the case which the code samples exactly).
The correlation matrix is absent. Automatic differentiation is the derivative. Sorting the jump locations (L836) is left out, since
piecewise constant functions have sorted jumps.
-/

namespace Model

/-- Parameters of the model, `vector_hull_white.py` L139-147. -/
structure HullWhite where
  meanReversion : ℝ
  volJumps : List ℝ
  volValues : List ℝ
  discountRate : ℝ → ℝ

/-- `_y_integral` L909-912 and `_variance_int` L951-954. -/
noncomputable def varianceInt (t0 t vol k : ℝ) : ℝ := vol * vol / (2 * k) * (Real.exp (2 * k * t) - Real.exp (2 * k * t0))

/-- `_ex_integral` L914-923. -/
noncomputable def exIntegral (t0 t vol k y0 : ℝ) : ℝ :=
  (Real.exp (k * t) - Real.exp (k * t0) + Real.exp (2 * k * t0) * (Real.exp (-k * t) - Real.exp (-k * t0))) * vol ^ 2 / (2 * k * k) +
    y0 * (Real.exp (-k * t0) - Real.exp (-k * t)) / k

namespace HullWhite
variable (m : HullWhite)

noncomputable def volatility (t : ℝ) : ℝ := piecewiseConstant m.volJumps m.volValues true t

/-- `_instant_forward_rate_fn` L209-225. -/
noncomputable def instantForwardRate (t : ℝ) : ℝ := -deriv (fun x => -m.discountRate x * x) t

/-- `_padded_knots` L852-855. -/
def paddedKnots : List ℝ := 0 :: m.volJumps.dropLast

/-- `vn` L869-870, L881, L939-941. -/
def vn : List ℝ := 0 :: m.volJumps

/-- `_jump_values_vol` L842-843. -/
noncomputable def jumpValuesVol : List ℝ := m.volJumps.map m.volatility

/-- `y_at_vol_knots` L862-867, L882-889, and `varx_at_vol_knots` L929-936. -/
noncomputable def varianceAtKnots : List ℝ :=
  0 :: cumsum (List.zipWith (fun (p : ℝ × ℝ) v => varianceInt p.1 p.2 v m.meanReversion) (m.paddedKnots.zip m.volJumps) m.jumpValuesVol) false

/-- The sum of L871-873 and of L943-945. -/
noncomputable def varianceAt (t : ℝ) : ℝ :=
  let index := searchLeft m.volJumps t
  varianceInt (m.vn.getD index 0) t (m.volatility t) m.meanReversion + m.varianceAtKnots.getD index 0

/-- `_compute_yt` L857-874. -/
noncomputable def computeYt (t : ℝ) : ℝ := Real.exp (-2 * m.meanReversion * t) * m.varianceAt t

/-- `ex_at_vol_knots` L891-899. -/
noncomputable def exAtKnots : List ℝ :=
  0 :: cumsum (List.zipWith (fun (p : ℝ × ℝ) (q : ℝ × ℝ) => exIntegral p.1 p.2 q.1 m.meanReversion q.2)
    (m.paddedKnots.zip m.volJumps) (m.jumpValuesVol.zip m.varianceAtKnots.dropLast)) false

/-- The sum of L901-904. -/
noncomputable def exAt (t : ℝ) : ℝ :=
  let index := searchLeft m.volJumps t
  exIntegral (m.vn.getD index 0) t (m.volatility t) m.meanReversion (m.varianceAtKnots.getD index 0) + m.exAtKnots.getD index 0

/-- `_conditional_mean_x` L876-907, from one time of the grid to the next. -/
noncomputable def conditionalMean (t t' : ℝ) : ℝ := (m.exAt t' - m.exAt t) * Real.exp (-m.meanReversion * t')

/-- `_conditional_variance_x` L925-949, from one time of the grid to the next. -/
noncomputable def conditionalVariance (t t' : ℝ) : ℝ := (m.varianceAt t' - m.varianceAt t) * Real.exp (-2 * m.meanReversion * t')

/-- The body of the sampling loop L738-767, one path: the next state `x` for the normal draw `z`. -/
noncomputable def nextState (t t' x z : ℝ) : ℝ :=
  let vol := Real.sqrt (max (m.conditionalVariance t t') 0)
  let vol := if vol > 0 then vol else 0
  Real.exp (-m.meanReversion * (t' - t)) * x + m.conditionalMean t t' + vol * z

/-- The states along the grid `t :: ts` from the state `x`, L769-772. -/
noncomputable def states (t x : ℝ) : List ℝ → List ℝ → List ℝ
  | t' :: ts, z :: zs => x :: states t' (m.nextState t t' x z) ts zs
  | _, _ => [x]

/-- The times of the grid, `_prepare_grid` L1004-1014 without a supplied grid. The mean reversion has no jumps. -/
noncomputable def grid (times : List ℝ) : List ℝ := ([0] ++ times ++ m.volJumps).insertionSort (· ≤ ·)

/-- The positions of the requested times in the grid, L1014. -/
noncomputable def gridIndices (times : List ℝ) : List Nat := times.map (searchLeft (m.grid times))

/-- The mask L1026-1029. -/
noncomputable def keepMask (times : List ℝ) : List Bool := (List.range (m.grid times).length).map (fun i => (m.gridIndices times).contains i)

end HullWhite

/-- The recording of samples L716-772: `TensorArray.write` at `written_count`, which is raised by the mask, while it is below the
number of requested times. Entries never written are `none`. -/
def recordLoop {A : Type} (requested : Nat) : List (A × Bool) → Nat → List (Option A) → List (Option A)
  | [], _, written => written
  | (state, keep) :: rest, count, written =>
    if count < requested then recordLoop requested rest (count + if keep then 1 else 0) (written.set count (some state)) else written

namespace HullWhite
variable (m : HullWhite)

/-- `_sample_paths` L641-781 for one path: rates at the requested times. `draws` are the normal draws of the path. The initial state is
always written (L729), whatever the count. -/
noncomputable def samplePath (times draws : List ℝ) : List (Option ℝ) :=
  let grid := m.grid times
  let xs := m.states (grid.headD 0) 0 grid.tail draws
  let rates := List.zipWith (fun x t => x + m.instantForwardRate t) xs grid
  recordLoop times.length (rates.zip (m.keepMask times)) 0 (List.replicate times.length none)

/-- `_drift_fn` L292-305. -/
noncomputable def driftFn (t x : ℝ) : ℝ :=
  deriv m.instantForwardRate t + m.meanReversion * m.instantForwardRate t +
    (m.volatility t ^ 2 / 2 / m.meanReversion * (1 - Real.exp (-2 * m.meanReversion * t)) - m.meanReversion * x)

/-- `_bond_reconstitution` L783-814 as called by `discount_bond_price` L594-635. -/
noncomputable def discountBondPrice (shortRate t maturity : ℝ) : ℝ :=
  let x := shortRate - m.instantForwardRate t
  let p0t := Real.exp (-m.discountRate t * t)
  let p0 := Real.exp (-m.discountRate maturity * maturity) / p0t
  let g := (1 - Real.exp (-m.meanReversion * (maturity - t))) / m.meanReversion
  p0 * Real.exp (-(x * g) - 0.5 * (m.computeYt t * g ^ 2))

/-- `_bond_option_variance`, `zero_coupon_bond_option.py` L253-306. -/
noncomputable def bondOptionVariance (expiry maturity : ℝ) : ℝ :=
  m.varianceAt expiry * (Real.exp (-m.meanReversion * expiry) - Real.exp (-m.meanReversion * maturity)) ^ 2 / m.meanReversion ^ 2

/-- `_analytic_valuation`, `zero_coupon_bond_option.py` L212-249. -/
noncomputable def bondOptionPrice (strike expiry maturity : ℝ) (isCall : Bool) : ℝ :=
  let discountExpiry := Real.exp (-m.discountRate expiry * expiry)
  let variance := m.bondOptionVariance expiry maturity
  let discountMaturity := Real.exp (-m.discountRate maturity * maturity)
  let forward := discountMaturity / discountExpiry
  let sqrtVariance := Real.sqrt variance
  let d1 := (Real.log (forward / strike) + 0.5 * variance) / sqrtVariance
  let d2 := d1 - Real.sqrt variance
  let call := discountMaturity * ncdf d1 - strike * discountExpiry * ncdf d2
  let put := strike * discountExpiry * ncdf (-d2) - discountMaturity * ncdf (-d1)
  let intrinsic := if isCall then max (forward - strike) 0 else max (strike - forward) 0
  if maturity < expiry then 0
  else if sqrtVariance > 0 then (if isCall then call else put)
  else intrinsic

/-- `cap_floor_price`, `cap_floor.py` L29-234, analytic pricing, one cap with caplets `(strike, expiry, maturity, daycount fraction)`. -/
noncomputable def capFloorPrice (notional : ℝ) (isCap : Bool) (caplets : List (ℝ × ℝ × ℝ × ℝ)) : ℝ :=
  (caplets.map (fun (c : ℝ × ℝ × ℝ × ℝ) =>
    let (strike, expiry, maturity, daycount) := c
    let bondStrike := 1 / (1 + daycount * strike)
    let price := m.bondOptionPrice bondStrike expiry maturity (!isCap)
    notional * (1 + daycount * strike) * (if expiry < 0 then 0 else price))).sum

/-- The function whose root is the break-even rate, `swaption.py` L796-803 with the coefficients of L956-960. -/
noncomputable def jamshidianFunction (expiry : ℝ) (payments : List (ℝ × ℝ × ℝ)) (shortRate : ℝ) : ℝ :=
  let coefficients := payments.map (fun p => p.2.1 * p.2.2)
  let jamshidian := coefficients.dropLast.map (fun c => -c) ++ [-1 - coefficients.getLastD 0]
  (List.zipWith (fun c p => c * m.discountBondPrice shortRate expiry p) jamshidian (payments.map Prod.fst)).sum + 1

/-- `_analytic_valuation`, `swaption.py` L937-984, for one swaption with payments `(time, daycount fraction, coupon)`. The break-even
rate is the result of Brent's method (L810-811), here an argument. -/
noncomputable def swaptionPrice (expiry notional : ℝ) (isPayer : Bool) (payments : List (ℝ × ℝ × ℝ)) (breakEven : ℝ) : ℝ :=
  let coefficients := payments.map (fun p => p.2.1 * p.2.2)
  let strikes := payments.map (fun p => m.discountBondPrice breakEven expiry p.1)
  let prices := List.zipWith (fun strike (p : ℝ × ℝ × ℝ) => m.bondOptionPrice strike expiry p.1 (!isPayer)) strikes payments
  notional * ((List.zipWith (fun a b => a * b) prices coefficients).sum + prices.getLastD 0)

/-- `_jamshidian_decomposition`, `swaption.py` L747-815, and `_analytic_valuation` for a batch of swaptions `(expiry, notional, payer, payments)`:
Brent's method on the bracket `[-1, 1]` with the default tolerances and number of steps; the default relative tolerance depends on the type of the
numbers and is an argument. -/
noncomputable def swaptionPrices (relTol : ℝ) (swaptions : List (ℝ × ℝ × Bool × List (ℝ × ℝ × ℝ))) : List ℝ :=
  let roots := brentq stopAll 100 (swaptions.map (fun s => (⟨m.jamshidianFunction s.1 s.2.2.2, 100, 2e-7, relTol, 2e-7⟩, -1, 1)))
  List.zipWith (fun s root => m.swaptionPrice s.1 s.2.1 s.2.2.1 s.2.2.2 root.estimatedRoot) swaptions roots

end HullWhite

end Model
