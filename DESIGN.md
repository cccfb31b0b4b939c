# Formal model of tf-quant-finance: design

## 1. What is here

* `properties.jsonl` – the properties in English, C01, C02, ...
* `lean/Verif/Model/*.lean` – the model: one Lean definition per python function (or per closely tied
  group), each with a comment giving the file and lines in `/repo` it mirrors and the simplifications made.
* `lean/Verif/Spec/*.lean`, and `namespace Spec` at the head of some Props files – small independent specifications
  (what a reader would call the meaning of the English statement), written without the model's helpers.
* `lean/Verif/Lemmas/*.lean` – helper lemmas.
* `lean/Verif/Props/*.lean` – the property theorems, each named `C<nn>_...`, with concrete `example`s next to them
  that meet the hypotheses.  A name ending in `_partial` says that a hypothesis beyond the English statement was
  needed; the comment says which, and section 4 lists the theorem that shows the hypothesis cannot be dropped.
* `THEOREMS.md` – every property theorem with its comment (generated by `tools/regen.py`).
* `MANIFEST.json` – property → theorems and status (generated by `tools/regen.py` from the Props files and
  `tools/claims.json`).  `lean/Verif/Axioms.lean` (generated) prints the axioms of every property theorem.
* `seeded/LOG.jsonl` – experiments with wrong programs (section 5).

## 2. Trusted base

* Lean 4.33.0's kernel, and Mathlib's definitions that occur in the statements (integers, lists, rationals,
  reals, `Real.exp`, `Real.log`, interval integrals, `HasDerivAt`, the standard Gaussian measure, ...). The property
  theorems depend on at most `propext`, `Classical.choice`, `Quot.sound`. No axioms are added; there is no `sorry`,
  `admit`, `native_decide` or `bv_decide`.
* That the model mirrors the python.  The code was read, never run; each definition cites the lines it mirrors.
  The model is shallow and total; python exceptions and TF assertion failures are values (`Except`/`Option`).
* The specifications.  Most are self-evident (successor of a date, counting, integrals, expectations).  One is not: the
  density of the log-price of paths that have not touched a barrier (`Spec/Barrier.lean`) is the density given by
  the reflection principle; that this density is the law of the killed Brownian motion is textbook material which is
  not proved here.

### Modelling conventions

* int32/int64 tensors are `Int`/`Nat` (no overflow). Floor division and modulo by a positive number are Lean's
  `Int` `/` and `%` (they agree for positive divisors).
* Float tensors are elements of an arbitrary linearly ordered field (executable on `Rat`), or `Real` where
  exp/log/sqrt/erf occur.  Rounding, infinities and NaN are not modelled, except where a property is about them: there a
  division is partial (`none` for division by zero: C29, C35, C36).  `tf.math.divide_no_nan` is Lean's `/` (zero for
  division by zero).  Consequences of rounding are reported where they are structural (C20, `pad_tensors`).
* Vectorised element-wise operations are modelled for one element (one batch row); batches are modelled where elements
  interact (schedules' common length, padding, Newton's and Brent's stopping rule, segments).
* TF graph/eager mode, dtypes, shapes/broadcasting, name scopes and gradients are not modelled.  For C40 the Jacobian
  of one loop body, which TF's tape computes, is assumed to be the derivative of the body.
* TF primitives (`searchsorted`, `gather`, `cumsum`, `scatter_nd`, `where`, `boolean_mask`, `while_loop`) are
  modelled by their documented meaning; `tf.linalg.tridiagonal_solve` by the algorithm of Thomas without pivoting, for
  which solvability and correctness are proved for the matrices that occur.
* The line search of TensorFlow Probability used by C87 is any function that meets `SearchContract`: it returns a point of
  the line, and reports convergence and no failure if it is told to do nothing.
* Random numbers are parameters: statements hold for every value the generator could produce.
* `log2` used for numbers of digits is exact in the model (the code computes some of them in floating point).

## 3. Per property: what is modelled, how it is proved

"full" = the English statement is proved for the model without further hypotheses than those it contains itself.

| id | model | status and method |
|----|-------|-------------------|
| C01 | `datetime/date_utils.py` conversions over `Int` | full. Spec: successor of a date and leap rule. Era decomposition, `omega` per month |
| C02 | weekday, day of year | full. From the successor theorem |
| C03 | `DateTensor.__add__/__sub__` for months/years | full. Arithmetic on `12*y+m`, validity of the clamped date |
| C04 | day/week arithmetic with error value | full |
| C05 | `is_end_of_month`, `to_end_of_month` | full |
| C06 | comparisons through ordinals | full. The ordinal is strictly monotone in the lexicographic order |
| C07 | constructors with validation | full |
| C08 | leap counters | full. Induction along the days against a counting spec |
| C09 | both calendars' tables and mappers | full for distinct holidays (bounded) and for sorted distinct holidays with a mask (unbounded); outside of that the code is wrong, see section 4 |
| C10, C11 | rolling, both calendars | FOLLOWING, PRECEDING, NONE full. MODIFIED conventions partial: only the month *number* is compared (section 4). Rank/select theory of decidable sets of days |
| C12, C13 | adding and counting business days | full under the hypotheses of C09 |
| C14 | both calendars | full: both refine the same specification |
| C15 | `PeriodicSchedule` for a batch | full as a description of what is returned; the degenerate batch (start = end everywhere) is a deviation |
| C16 | `BusinessDaySchedule` | returned schedules are right; totality for the unbounded calendar and for single rows; batches may fail (deviation) |
| C17 | `datetime/daycounts.py` over an ordered field | full for Actual/360, Actual/365, 30/360, Actual/Actual; two deviations from the documentation |
| C18, C19 | `math/segment_ops.py`, `diff_ops.py`, `rates/analytics/forwards.py` | full. Induction over the list, field algebra |
| C20 | `math/pad.py` | full in exact arithmetic; sentinel absorption in machine arithmetic is a deviation |
| C21 | `math/interpolation/linear` | full, with and without `optimize_for_tpu` |
| C22, C23 | `math/piecewise.py` | full. Spec of the integral: Mathlib's interval integral |
| C24 | `math/integration/simpson.py` | full. Spec: Mathlib's interval integral |
| C25 | `math/qmc/sobol.py`, `digital_net.py`, `random_ops/sobol` | full, both implementations, and they agree. Linear algebra over bits: unit triangular maps are bijections |
| C26 | `random_ops/halton` | full, randomised too |
| C27 | `digital_net.py` scrambling, shift, tent transform | full for nets; the tent transform reaches 1 (deviation from `[0, 1)`) |
| C28 | `root_search/brent.py` over an ordered field | full. Loop invariants, and termination with an iteration bound |
| C29 | `root_search/newton.py` | full. Loop invariant, batch = map; not-finite values are one value that behaves like NaN |
| C30 | `black_scholes/crr_binomial_tree.py` | all but "American ≥ exercise value", which is false (section 4) |
| C31 | `vanilla_prices.option_price` over `Real` | full, expectations as integrals against the Gaussian measure |
| C32 | `binary_price`, `asset_or_nothing_price` | partial: `binary_price` ignores dividends (section 4) |
| C33 | `barrier_price` with its mask matrix | zero rebate full; rebates partial (section 4) |
| C34 | `variance_swaps.py` | full |
| C35 | `hagan_west/monotone_convex.py`, partial division | partial: NaN and a jump in two of the cases (section 4) |
| C36 | `constant_fwd_interpolation.py` | full for positive reference times; time zero gives 0/0 |
| C37 | `swap.py`, `cashflows.py` | interest rate swaps full; equity leg partial (section 4) |
| C38 | `interpolation/cubic` | natural/default boundary full: the interpolant *is* the C² spline. Other boundaries partial (section 4) |
| C39 | `models/utils.prepare_grid` | partial for time steps (tolerance chains), full for the other two ways except a long time step |
| C40 | `math/custom_loops.py` | full |
| C41 | `math/qmc/lattice_rule.py` | full |
| C42 | `implied_vol_newton_root.py` with `root_search/newton.py` and `option_price` | existence, uniqueness, meaning of `converged` full; vega only without discounting (section 4). Derivatives and limits of the price in the standard deviation |
| C43 | `implied_vol_approximation.py` | full. The quadratic is the twice squared equation; its positive root makes both square roots real; the threshold picks the right signs (uses factor ≥ 1/2) |
| C44 | `rates/analytics/cashflows.py`: `pv_from_yields`, `yields_from_pv` | full, for flows that pay something in the future and nothing back. Convexity via the tangent inequality of exp, monotone bounded iterates |
| C45 | `math/pde/steppers`: `parabolic_equation_stepper.py`, `weighted_implicit_explicit.py` | one equation, grids with at least four points, Robin coefficients of the same sign. Every row of the matrix with its boundary corrections is computed as a function of the grid index and compared with the derivatives of interpolating parabolas. Default boundary: partial, see section 4 |
| C46 | same functions | full for Dirichlet conditions and coefficients without inner part. Signs of the matrix entries, maximum over the finite grid, diagonal dominance for the tridiagonal solver |
| C47 | `math/pde/fd_solvers.py` | full, any step function and state. Exact numbers: rounding in the accumulated time is not modelled |
| C48 | `extrapolation.py`, `composite_stepper.py`, `oscillation_damped_crank_nicolson.py`, `weighted_implicit_explicit.py` | full, on eigenvectors. Uniqueness of the solution of the tridiagonal system, Taylor bound of exp, composition with C47 |
| C49 | `math/integration/gauss_legendre.py`, `gauss_constants.py` | full, for all polynomials of the stated degree. All moments of all tables are checked by the kernel in integer arithmetic; linearity and change of variables do the rest |
| C50 | `gauss_kronrod.py`, `adaptive_update.py` | partition and local tolerance full where the estimate is positive; negative estimates and the maximal depth are deviations |
| C51 | `models/hull_white/vector_hull_white.py`, `one_factor.py` | full for one factor with constant mean reversion and piecewise constant volatility, both sampling branches with jumps. Correlated vectors are C112 |
| C52 | `vector_hull_white.py` bond prices and drift | full except `drift_fn` for volatility with jumps (deviation) |
| C53 | `hull_white/zero_coupon_bond_option.py` | full for positive variance; no variance is a deviation |
| C54 | `hull_white/cap_floor.py` | full for positive variance |
| C55 | `hull_white/swaption.py` | batches with Brent's method (C28) on the fixed bracket [-1, 1]: error at most the discounted notional times the value of the swap at the rate found; positive variance |
| C56 | `models/utils.py`, `hjm/*_util.py`, `hull_white/swaption.py` | running sums full; the first step of the discount factor and the receiver Bermudan swaption are deviations |
| C57 | models/longstaff_schwartz/lsm.py, experimental/lsm_algorithm/lsm_v2.py, lsm.py | one batch element; payoffs, basis and discount factors are functions of sample and index; `pinv` any function with `A (pinv A) A = A`; an empty set of pricing paths gives 0 in the model and NaN in the code |
| C58 | models/euler_sampling.py, models/milstein_sampling.py, models/utils.py | one path, draws are a parameter; the loop with watched parameters returns what C40 says |
| C59 | models/milstein_sampling.py | one step; derivatives of the volatility are those of the automatic differentiation |
| C60 | models/geometric_brownian_motion/*.py | one batch element, one path, draws are a parameter; the Cholesky factor is any matrix L with L Lᵀ = correlation |
| C61 | models/heston/heston_model.py | one path, draws are a parameter, erf is the error function; `expected_total_variance` for constant parameters |
| C62 | models/joined_ito_process.py, models/generic_ito_process.py L812-903 | one state or grid point; Cholesky factor is a parameter with its contract |
| C63 | models/cir/cir_model.py | one path; Poisson and gamma draws are parameters with their laws |
| C64 | math/pde/steppers/multidim_parabolic_equation_stepper.py, math/pde/steppers/douglas_adi.py | no batch; tensors are functions of the grid index; constant step per dimension; at least four points; solvable lines are a hypothesis (proved for diagonal dominance and for backward heat equations) |
| C65 | experimental/instruments/cashflow_stream.py `FixedCashflowStream` | curves are functions of the date; at least one stream has a regular period (otherwise see the deviation); setting up with an irregular last coupon needs months, years or a single stream |
| C66 | experimental/instruments/cashflow_stream.py `FloatingCashflowStream` | partial: no basis or no past coupon, reference period as long as the coupon period, no fixing or a single stream or a single coupon; the deviations are stated in general |
| C67 | experimental/instruments/interest_rate_swap.py, bond.py, floating_rate_note.py, forward_rate_agreement.py, eurodollar_futures.py | partial: par rate without past fixed payments, bonds which have not matured |
| C68 | `Model/Instruments.lean`, `Spec/Overnight.lean`, `Props/Overnight.lean` | first and last day of the reference period are business days and the period has at least three days (see section 4 for the other cases) |
| C69 | `Verif/Props/CapFloor.lean`, `Verif/Props/Swaptions.lean` | Partial: common notional in a batch, volatilities in `pricing_context`, fixing only for one contract, positive strikes and forward rates. Cap-floor and payer-receiver parity, bounds. |
| C70 | `Verif/Props/RateCurve.lean` | Continuous compounding, linear interpolation (positivity and forward rates: any interpolation). Periodic compounding is wrong in the code. |
| C71 | `Verif/Props/BrownianBridge.lean` | Both functions, real numbers. For two barriers the consistency in time is not proved. |
| C72 | `Verif/Props/Svensson.lean` | Whole module, real numbers; NaN at the time zero. |
| C73 | `Verif/Props/Svi.lean` | `parameterizations.py`, one smile; the calibration is not modelled. |
| C74 | `Verif/Props/RealizedVolatility.lean` | Whole function for one path. |
| C75 | `Verif/Props/AsianPrices.lean` | Whole function, one element of the batch, real numbers. |
| C76 | `black_scholes/approximations/american_option.py` `bjerksund_stensland` and helpers L353-781 | one option over the reals, positive volatility; NaN is `none`; the bivariate distribution by the 20-point rule of the code |
| C77 | `black_scholes/approximations/american_option.py` `adesi_whaley` and helpers L37-350 | one option over the reals, positive volatility; the root search is the model of `newton.py`, its gradient the exact derivative |
| C78 | `models/sabr/approximations/implied_volatility.py` L33-240, `european_options.py` L24-161 | one option over the reals, positive shifted forward and strike |
| C79 | `models/sabr/approximations/calibration.py` L57-584 | one batch element over the reals; optimizer and target volatilities are arbitrary functions, infinite positions `none` |
| C80 | `math/pde/grids.py` | lists as tensors of rank 1, one batch element for extra points; `tf.linspace` exact, `tf.sort` insertion sort |
| C81 | `math/interpolation/interpolation_2d/interpolation_2d.py` | one point, one batch element; uses the models of `cubic_interpolation.py` and `linear_interpolation.py`. `C38_unique` (the natural spline is unique) is new for it |
| C82 | `models/heston/approximations/european_option.py` L30-288, `math/integration/integrate.py` L38-86 | one option over the reals and complex numbers; mean reversion and volatility of variance positive (with `volvol = 0` the code divides zero by zero); that the model has a law with this characteristic function is a hypothesis, its defining equation is proved |
| C83 | `models/heston/approximations/calibration.py` L56-579 | one batch element over the reals; the optimizer is an arbitrary function, infinite positions `none` |
| C84 | `rates/hagan_west/bond_curve.py` L79-580 | over the reals; `none` for discount factors that are not all numbers; a factor of exactly zero is treated as not a number |
| C85 | `rates/swap_curve_bootstrap.py` L50-700 | over the reals, one batch element; any interpolator; `none` for discount factors that are not all numbers |
| C86 | `rates/swap_curve_fit.py` L48-640 | over the reals, one batch element; the optimizer is any function of the objective; gradients are not modelled |
| C87 | `math/optimizer/conjugate_gradient.py` L47-560 | over the reals, one batch dimension; the line search of TensorFlow Probability is any function that meets `SearchContract`; numbers of evaluations and values that are not finite are not modelled |
| C88 | `experimental/pricing_platform/framework/market_data/rate_curve.py`, `market_data_impl.py` L163-257, `market_data/utils.py`, `rate_instruments/cashflow_streams.py` L822-996 | over the reals, one row at a time; NaN is `none`; protocol buffers are enumerations |
| C89 | `experimental/pricing_platform/framework/rate_instruments/cashflow_streams.py` L150-923 | over an ordered field, one row at a time; a curve is a function of the date; the conversion of periods given as tuples (which fails) is left out |
| C90 | `experimental/pricing_platform/framework/rate_instruments/interest_rate_swap/proto_utils.py` L207-344, L363-376, L429-599, `interest_rate_swap_impl.py` L200-507, `rate_instruments/utils.py` L21-22 | over a field, one row at a time; protocol buffers are structures; the hash is replaced by its key, so collisions are left out |
| C91 | `experimental/pricing_platform/framework/rate_instruments/forward_rate_agreement/forward_rate_agreement_impl.py` L110-270, `proto_utils.py` | as C90 |
| C92 | `experimental/pricing_platform/framework/rate_instruments/swaption/swaption_impl.py` L153-340, `swaption/proto_utils.py`, `interest_rate_swap/proto_utils.py` L326-334, L490-536 | as C90; the root of the Hull-White pricer is a parameter |
| C93 | `models/hjm/quasi_gaussian_hjm.py`, `models/hjm/gaussian_hjm.py` (`_vol_fn`, `_drift_fn`, `_bond_reconstitution`, `_get_valid_sqrt_matrix`, `state_y`, `discount_bond_price`, discount factors of `_sample_paths`) | one model and path at a time over the reals, any number of factors; automatic derivative = derivative; eigenvalues, eigenvectors and Cholesky factor are given matrices with their defining equations |
| C94 | `models/hjm/zero_coupon_bond_option_util.py`, `cap_floor.py`, `swaption_util.py`, `swaption_pricing.py` (Monte Carlo in full; of the finite difference method the time grid, time steps, payoff and point of reading) | one model, one dimension of the last axis; the sampler is any family of paths; the difference scheme itself is not part of this property |
| C95 | `experimental/local_volatility/local_volatility_model.py`: both Dupire formulas, the precomputed version, drift and volatility, moneyness, choice of the sampling grid | gradients are derivatives; the surface is an arbitrary function; interpolation of quotes is not modelled |
| C96 | `models/hull_white/calibration.py` (both functions), `models/hjm/calibration.py` | the optimizer and the instrument values in the model are arbitrary functions; gradients, convergence flag and number of iterations not modelled; batches only as shapes |
| C97 | `experimental/svi/calibration.py` | one smile over the reals; the optimizer is an arbitrary function |
| C98 | `models/sabr/sabr_model.py` | one path over the reals, constant parameters; the root finder is an arbitrary function; that the scheme converges to the SABR model is not proved |
| C99 | `experimental/american_option_pricing/{common,exercise_boundary,andersen_lake}.py` | one option per call over the reals, machine epsilon a parameter; integrals in the specification, quadrature rules in the model; the error of the quadrature is a hypothesis of the bound |
| C100 | `experimental/local_stochastic_volatility/{lsv_variance_model,local_stochastic_volatility_model}.py` | one sample over the reals; the PDE solver is a parameter of the loop (its stencils are those of C64) and the local volatility a parameter |
| C101 | `experimental/instruments/cms_swap.py` | one contract over the reals; par rates and annuities of the underlying swaps are parameters (C65, C66); gradients are derivatives, the gradient at rate zero is NaN; the exact replication is for a law with support between the bounds of the integrals, the error of the quadrature is not treated |
| C102 | `models/heston/approximations/asian_prices.py` | one option over the real and complex numbers; principal roots and logarithms; a vanishing root gives NaN; the backward equation holds where `f` stays off the negative axis; that a solution is the transform of the law is not proved, it is a hypothesis of the price theorem; the error of the quadrature is not treated |
| C103 | `math/random_ops/multivariate_normal.py`, `uniform.py`, `stateless.py` | tensors are shapes with functions of indices; the generators and the Cholesky factor are parameters; `erfinv` is the inverse of the error function, infinite at the ends, which are not treated |
| C104 | `models/legacy/brownian_motion.py`, `brownian_motion_utils.py`, `ito_process.py` | Tensors with shapes. The derivation of coefficients from integrated ones is left out, since the constructor refuses it. Generators and `tf.linalg.cholesky` are parameters. The Euler scheme is modelled for one path; the types of the tensors are left out (the result tensor of the scheme is always `float32`). |
| C105 | `utils/shape_utils.py` | Static and dynamic shapes are both lists of numbers. The arguments are tensors, as the code reads the shape of the first one before any conversion. |
| C106 | `utils/tf_functions.py` | Dictionaries are lists of items with distinct keys; a dataclass is the dictionary of its fields. |
| C107 | `math/qmc/utils.py` | One element at a time. Logarithms are exact; the cast of the number of results to `float32` is modelled. Shifts outside the width are left out. |
| C108 | `datetime/tensor_wrapper.py`, `periods/period_tensors.py`, the shapes of `date_tensor.py` | Tensors with shapes. The operations of TensorFlow are modelled as documented; slices have no step. Types are fixed, so that the check of the wrapper types has no counterpart. |
| C109 | `math/gradient.py`, `math/jacobian.py` | A tensor is a function of its indices. Reverse mode differentiation of TensorFlow is taken to be exact. Tensors that are not connected have gradient zero. |
| C110 | `experimental/pricing_platform/framework/equity_instruments`, `market_data/volatility_surface.py`, `market_data_impl.py` L259-311 | One option at a time, except for the lookup of market data. The samples of the geometric Brownian motion with volatility one are given by the Brownian motion. The padding of volatility surfaces of different sizes and the calendar, which is not used, are left out. |
| C111 | `models/hull_white/swaption.py` L555-720, L940-1141 | Bond prices and short rates on paths or on the grid, and the step of the finite difference scheme, are given. The notional and the shapes are not broadcast. Sorting, uniqueness, index searches and the sparse tensors are modelled as they are. |
| C112 | `models/hull_white/vector_hull_white.py` | full for the branch without Euler steps, one path at a time; the root of the correlation matrix and the draws are given, the latter by their first two moments |
| C113 | `models/utils.py` L20-206, `models/milstein_sampling.py` L276-299, L612-617 | full on top of C103; axes are not negative and shapes are static |
| C114 | `models/longstaff_schwartz/lsm.py`, `models/longstaff_schwartz/payoff_utils.py`, `experimental/lsm_algorithm/payoff.py` | all tensors with their batch dimension and broadcasting; `pinv` any function with `A (pinv A) A = A`; builds on C57 for a single option |
| C115 | `experimental/finite_difference/methods.py` L23-147, L197-223 | full without the data frames of errors; `np.argpartition` is any choice of neighbours, its bound on `kth` is kept; solving equations is the inverse matrix |
| C116 | `math/pde/fd_solvers.py` `solve_backward`, `math/pde/steppers/parabolic_equation_stepper.py`, `weighted_implicit_explicit.py` | one space dimension, Dirichlet conditions, coefficients outside the derivatives, non-positive zeroth coefficient, real arithmetic; built on C45, C46 and C47 |
| C117 | `black_scholes/crr_binomial_tree.py` `option_price_binomial`, `black_scholes/vanilla_prices.py` `option_price` | one option, positive expiry and volatility, real arithmetic; built on C30 and C31, the limit through characteristic functions |
| C118 | `models/geometric_brownian_motion/univariate_geometric_brownian_motion.py` `sample_paths`, `black_scholes/vanilla_prices.py` `option_price` | one batch element, draws are random vectors with the stated law, real arithmetic; built on C60 and C31, the limit is the strong law of large numbers |
| C119 | `math/integration/simpson.py`, `gauss_legendre.py`, `gauss_kronrod.py`, `models/heston/approximations/european_option.py` | real arithmetic; built on C24, C49, C50 and C82; the adaptive rule under the condition of C50 that no interval is dropped |
| C120 | `math/qmc/sobol.py`, `math/qmc/digital_net.py`, `math/random_ops/sobol/sobol_impl.py` | built on the models of C25 and C27; the table is a parameter, coprimality of its polynomials is a hypothesis and is checked in the kernel for the first 31 coordinates of the data file |
| C121 | `math/random_ops/halton/halton_impl.py` | built on the model of C26; bases, numbers of digits, permutations and corrections are parameters; the convergence theorem assumes as many digits as the largest index needs |
| C122 | `math/interpolation/linear`, `math/interpolation/cubic`, `math/interpolation/interpolation_2d` | built on the models of C21, C38 and C81; real arithmetic, strictly increasing knots |
| C123 | `math/pde/steppers/douglas_adi.py`, `math/pde/fd_solvers.py` | built on the models of C47 and C64; constant coefficients without mixed, first and zeroth order terms; prescribed values on all faces |
| C124 | the `validate_args` branches of `math/random_ops`, `math/qmc`, `math/interpolation`, `math/root_search/brent.py`, `rates/hagan_west`, `models/euler_sampling.py`, `models/sabr`, `models/hull_white/vector_hull_white.py`, `black_scholes/implied_vol*.py`, `black_scholes/variance_swaps.py` | conditions with messages in the order of the code; the first that fails raises; shapes as lists of numbers |
| C125 | `math/random_ops/multivariate_normal.py`, `models/utils.py` | bounded and exponentially growing functions of the normal quantiles of Sobol and Halton points, the draws of `generate_mc_normal_draws`, values of geometric Brownian motion, European options; the data file has 32 columns, so the points of `sobol_impl.py` are those of the sequence for indices below 2^32 |
| C126 | `math/root_search/brent.py` | the whole loop over a batch with the default stopping policy; exact arithmetic |
| C127 | `math/root_search/newton.py` | the whole loop over a batch; exact real arithmetic, both tolerances given |
| C128 | `black_scholes/variance_swaps.py` | `fair_strike` with strikes starting at the reference; exact real arithmetic; implied volatilities of a law given by the lognormal expectation |
| C129 | `experimental/instruments/cms_swap.py` | the replication of one coupon over the reals, for the number of points going to infinity; rates of at least 1e-6, positive expiry and volatility |
| C130 | `datetime/date_tensor.py`, `datetime/*_holiday_calendar.py` | Python values as a small type of formats; three tensors of one shape; `tf.random.uniform` as u * maxval in exact arithmetic |
| C131 | `models/hull_white/zero_coupon_bond_option.py`, `cap_floor.py` without analytic pricing, with `options_price_from_samples` and `sample_discount_curve_paths` | one factor with constant mean reversion; real arithmetic; draws are independent standard normal vectors; two limits: first paths, then time step |
| C132 | `models/hull_white/swaption.py` L263-311 with `hjm/swaption_util.py` and `sample_discount_curve_paths` | one factor with constant mean reversion; real arithmetic; draws are independent standard normal vectors; two limits: first paths, then time step; entries of the rates that are never written are zero |
| C133 | `models/euler_sampling.py`, `models/utils.py` `prepare_grid`, `multivariate_geometric_brownian_motion.py` | one path at a time; real arithmetic; draws are independent standard normal vectors; two limits: first paths, then time steps |
| C134 | `models/milstein_sampling.py` L596-672, `models/euler_sampling.py`, `univariate_geometric_brownian_motion.py` | one path at a time; real arithmetic; draws are independent standard normal numbers; the gradient of the volatility is the derivative; two limits: first paths, then time steps |
| C135 | `black_scholes/vanilla_prices.py` L767-948 | one swaption; real arithmetic; schedules enter through discount factors only, as in the code |
| C136 | `models/generic_ito_process.py`, `models/euler_sampling.py`, `models/milstein_sampling.py` (one dimension) | one path at a time; real arithmetic; independent standard normal draws; solutions of the backward equation are given with their derivatives; two limits: first paths, then time steps |
| C137 | `experimental/local_volatility/local_volatility_model.py` L441-541 | one path; exact normal draws; the local volatility is an arbitrary measurable function with finite values |
| C138 | `models/longstaff_schwartz/lsm.py`, `experimental/lsm_algorithm/` | independent paths with one law; no ties between payoff and fit in the limit; real arithmetic |
| C139 | `models/longstaff_schwartz/lsm.py`, `univariate_geometric_brownian_motion.py` | one asset; discount factors do not depend on the path; independent normal draws; real arithmetic |
| C140 | `models/longstaff_schwartz/lsm.py`, `univariate_geometric_brownian_motion.py` | one asset; discount factors do not depend on the path; independent normal draws; real arithmetic |
| C141 | `black_scholes/crr_binomial_tree.py` `option_price_binomial`, `models/longstaff_schwartz/lsm.py` | one option, positive expiry and volatility, real arithmetic; the payoff of an exercise is discounted by one step in the code, which does not change the limit |
| C142 | `black_scholes/crr_binomial_tree.py` `option_price_binomial` | one option, positive expiry and volatility, real arithmetic; the mirror image of American options holds in the limit only (section 4) |
| C143 | `experimental/io.py` `ArrayDictWriter`, `ArrayDictReader`, `_make_example`, `_make_feature` | formats of protocol buffers and record files modelled from their publications; check sum and encoding of one array are parameters; records shorter than 2^64 bytes |
| C144 | `math/pde/steppers/crank_nicolson.py`, `weighted_implicit_explicit.py`, `parabolic_equation_stepper.py`, `fd_solvers.py` `solve_backward` with a number of steps | Dirichlet conditions at both ends, coefficients without inner derivatives, cells with `B h <= 2 al` for the error bound; stability does not need that |
| C145 | `math/pde/steppers/explicit.py`, `weighted_implicit_explicit.py`, `math/pde/boundary_conditions.py`, `fd_solvers.py` `solve_backward` | equation with constant second order coefficient on uniform grids for the modes; wrappers for any step |
| C146 | `black_scholes/implied_vol_newton_root.py`, `math/root_search/newton.py` | exact arithmetic; discount factor at most 1; lognormal starts between inflection and implied volatility |
| C147 | `black_scholes/implied_vol_lib.py`, `implied_vol_newton_root.py`, `math/root_search/newton.py` | one option, exact arithmetic; relative tolerance times the bound of the vega at most one half |
| C148 | `math/pde/steppers/oscillation_damped_crank_nicolson.py`, `composite_stepper.py`, `extrapolation.py`, `fd_solvers.py` `solve_backward` | equation with constant second order coefficient on uniform grids with zero boundary values |
| C149 | `datetime/holiday_calendar_factory.py`, constructors of `bounded_holiday_calendar.py` and `unbounded_holiday_calendar.py` | the type of an argument is a constructor in the model; shapes of tensors are known; increasing holidays from the year 3 on |
| C150 | `examples/demos/option_pricing_basic`: `downloader/app/main.py`, paths and sizes of `pricer/app/main.py`, `data_generator/data_generation.py` | the file system and the store are maps from paths to contents, directories, network and queues are not modelled; the random draws are arguments |
| C151 | `examples/demos/option_pricing_basic`: `pricer/app/pricers.py` `_price`, `data_generator/data_generation.py` `generate_portfolio` | one option over the reals on top of C31; the date of today and the draws are arguments; expired options are left out |

## 4. Disagreements between code and property

Each of these is a theorem about the model with a concrete witness or for a whole class of inputs; the lines cited in the
model say where in the code to look.

| where | what happens | theorem |
|-------|--------------|---------|
| bounded calendar | a holiday listed twice counts as a business day (`scatter_nd` adds up) | `C09_bounded_repeated_holiday_is_business_day` |
| unbounded calendar | holidays without weekend mask: no day is a business day | `C09_unbounded_no_mask_no_business_days` |
| unbounded calendar | unsorted holidays are not found | `C09_unbounded_unsorted_holidays_missed` |
| unbounded calendar | 0001-01-01 is always a holiday | `C09_unbounded_fake_holiday` |
| both calendars | MODIFIED conventions compare month numbers only, and can move by a year | `C10_bounded_long_gap_leaves_month`, `C11_long_gap_leaves_month` |
| bounded calendar | MODIFIED conventions always fail if the calendar starts in year 1 | `C10_bounded_modified_year_one_fails` |
| `PeriodicSchedule` | start = end in all rows: empty schedule | `C15_degenerate_schedule_is_empty` |
| `BusinessDaySchedule` | a batch fails near the end of a bounded calendar though every row alone is fine | `C16_bounded_batch_fails` |
| `actual_365_actual` | not antisymmetric | `C17_actual_365_actual_not_antisymmetric` |
| `actual_actual_isda` | counts the start date and not the end date, documented the other way round | `C17_actual_actual_counts_start_date` |
| `pad_tensors` | when `min - 1 = min` in floating point, genuine minima are replaced by the pad value | `C20_sentinel_absorbed` |
| tent transform | reaches 1 | `C27_tent_reaches_one` |
| CRR tree | the exercise value is discounted with the continuation value: American put below its exercise value | `C30_american_below_exercise` |
| `binary_price` | dividends ignored when spots are given | `C32_binary_ignores_dividends` |
| `barrier_price` | exponent `b` lacks a square root: knock-out rebate depends on the unit of time | `C33_time_unit_rebate` |
| `barrier_price` | down-and-in put, strike above barrier, has the rebate columns of a knock-out | `C33_down_in_put_rebate` |
| `barrier_price` | barrier already crossed: price not positive instead of zero | `C33_crossed` |
| monotone convex | forward at left knot = discrete forward, right one differs: 0/0 on the whole interval (e.g. forwards 1%, 1%, 2%) | `C35_flat_start_nan` |
| monotone convex | forward at right knot = discrete forward, left one differs: forward not continuous at the left knot | `C35_jump` |
| constant forward | reference time 0 (as in the documented example): 0/0 at and before time 0 | `C36_zero_time` |
| equity swap leg | dividends not multiplied with the notional | `C37_equity_dividends_not_scaled` |
| cubic spline | first derivative/clamped: the right hand side is zeroed where the *slope* is zero instead of where the step is zero: kink | `C38_kink` |
| cubic spline | flat last segment: prescribed right derivative ignored | `C38_flat_last_segment` |
| `prepare_grid` | chains of times within the tolerance collapse to the first | `C39_chain` |
| `prepare_grid` | time step above the last time: unsorted grid | `C39_num_times_unsorted` |
| implied volatility | vega divided by the discount factor though the objective is undiscounted: not the derivative, convergence only linear | `C42_vega_discounted`, `C42_linear_rate` |
| finite difference step | default boundary condition divides by the second grid step instead of the first (by the last but one instead of the last): wrong derivative on non-uniform grids (`_apply_default_lower_boundary` L381-387, `_apply_default_upper_boundary` L421-427) | `C45_default_lower_spacing` |
| `solve_backward` | end time limited below by 0: for a negative start time one step forward in time to 0, whatever the time step | `C47_negative_start` |
| `math/integration/adaptive_update.py` L66-67 | the relative error is divided by the estimate, not its absolute value: where the estimate is negative every tolerance is met and nothing is refined | `C50_negative` and example |
| `math/integration/gauss_kronrod.py` | when `max_depth` is reached the intervals that are still bad are left out of the sum (with `max_depth = 1` the result is 0) instead of being added with their estimate | `C50_depth` and example |
| `models/hull_white/vector_hull_white.py` `drift_fn` | the convexity term of the drift uses the current volatility as if it had been constant since time 0; after a jump of the volatility the drift (and the finite difference prices that use it) does not fit the initial curve | `C52_drift_jump` |
| `models/hull_white/zero_coupon_bond_option.py` | without variance the payoff of the forward bond price is returned without discounting to today | `C53_no_variance` and example |
| `models/hjm/zero_coupon_bond_option_util.py` L101-106, `hjm/swaption_util.py` L126, `hull_white/swaption.py` L634-636 | the first time step of the discount factor is 0, so nothing is discounted from today to the first simulation time; if `time_step` is not below the longest expiry nothing is discounted at all | `C56_first_step`, `C56_never_discounted` and example |
| `models/hull_white/swaption.py` L562 | `is_payer_swaption = True` replaces the argument: Bermudan receiver swaptions are priced as payers | `C56_bermudan_receiver` and example |
| models/euler_sampling.py L519, milstein_sampling.py L602 | coefficients are taken at the end of each step, documented is the start | `C58_end_of_step` |
| models/euler_sampling.py L424, L535 | two requested times next to the same point of a supplied grid: the later sample is the state at another grid point | `C58_same_point` |
| models/milstein_sampling.py L555-562 | the correction of the drift lacks the factor 1/2: with several states the mean of each step is too low by b b' dt / 2 | `C59_diagonal`, `C59_diagonal_mean` |
| models/milstein_sampling.py L517 | the symmetric part of the multiple integrals is dt dW_i dW_j instead of dW_i dW_j | `C59_symmetric` |
| models/milstein_sampling.py L544-550 | the derivatives of the volatility are contracted over the Wiener index instead of the state | `C59_contraction` |
| models/geometric_brownian_motion/univariate_geometric_brownian_motion.py L489, L647, multivariate_geometric_brownian_motion.py L453, L623 | `fd_solver_backward` and `fd_solver_forward` use attributes `_drift_fn` and `_volatility_fn` that are never set, so they raise | none, seen by reading |
| models/heston/heston_model.py L341 | parameters are evaluated half of the shortest step after each grid point; when a requested time or a grid point is a jump of a parameter the shortest step is zero and the step after the jump uses the parameters from before the jump | `C61_old_parameters` |
| models/heston/heston_model.py L445 | the loop starts with count 0 instead of `written_count`; with a supplied grid and requested time zero the samples are shifted by one and the last is never written | `C61_given_grid` |
| models/cir/cir_model.py L258-278 | with sigma = 0 the state never changes, instead of following dx = (theta - k x) dt | `C63_no_volatility` |
| cashflow_stream.py L54-62 | if the first coupon date of every stream is its end date (one irregular coupon), the stream has no coupons and the price is 0 | `C65_single_coupon_deviation` |
| cashflow_stream.py L46 | with a first coupon date, the penultimate coupon date is ignored | `C65_penultimate_ignored_deviation` |
| cashflow_stream.py L438-448 | coupons paid before the valuation date still count with `multiplier * basis` | `C66_past_basis_deviation` |
| cashflow_stream.py L430-432 | the forward rate of the reference period is computed with the year fraction of the coupon period: quarterly coupons on the six month rate pay twice the rate | `C66_reference_period_deviation` |
| cashflow_stream.py L480-500 | streams starting after the 28th of a month: the reference period of a coupon may end before the coupon, so a plain stream is not worth `D(start) - D(end)` | `C66_month_end_deviation` |
| cashflow_stream.py L424-429 | a scalar fixing is repeated once per coupon, not per coupon and stream: batches of several streams with several coupons fail | `C66_fixing_batch_deviation` |
| interest_rate_swap.py L288-305 | `annuity` and `par_rate` ignore the valuation date and count past fixed payments; a swap at its par rate is then not worth 0 | `C67_par_rate_deviation` |
| bond.py L170-181, floating_rate_note.py L168-179 | the principal of a bond which has matured still counts | `C67_matured_bond_deviation` |
| `overnight_index_linked_futures.py` L214-224 | a reference period of two days has a single reset: the periodic schedule from the second day to itself is empty, and the rate of the first day accrues over both days | `C68_two_days_deviation` |
| `overnight_index_linked_futures.py` L214-231 | if the last day of the reference period is a holiday, the last reset is rolled past the end of the period and the rate of a day outside the period accrues over a negative number of days | `C68_holiday_at_end_deviation` |
| `cap_floor.py` L146-149, L232-248 | One notional per contract cannot be used in a batch with several caplets (the list is not repeated per caplet); neither can a common scalar strike. | `C69_notionals_deviation`, `C69_scalar_strike_deviation` |
| `cap_floor.py` L148 `notional or 1.0` | A notional of zero is priced as one. | `C69_zero_notional_deviation` |
| `cap_floor.py` L224-227, `swaption.py` L188-192 | Without `pricing_context` an attribute is read which does not exist. | `C69_market_volatility_deviation`, `C69_swaption_volatility_deviation` |
| `cap_floor.py` L218-220 | A payment on the valuation date is dropped, although the cashflow streams count it. | `C69_payment_today_deviation` |
| `swaption.py` L177 `notional[-1]` | All swaptions of a batch are multiplied by the notional of the last swap. | `C69_swaption_notional_deviation` |
| `rate_curve.py` L80-85 | The conversion of periodically compounded rates has the rate in place of the time in the exponent. | `C70_compounding_deviation` |
| `rate_curve.py` L159-182 | The rates of a curve made from a discounting function are all zero. | `C70_from_discounts_rate_deviation` |
| `nelson_seigel_svensson_interpolation.py` L122-123 | At the time zero the code divides zero by zero (the limit is `beta_0 + beta_1`). | `C72_zero_deviation` |
| `american_option.py` L615, L699, L616 | puts with discount rate zero (the default): `r / (r - b)` and `beta / (beta - 1)` divide by zero and the price is NaN | `C76_put_zero_rate_nan` |
| `american_option.py` L703 | for `b t + 2 sigma sqrt(t) < 0` the boundary is below the strike: negative prices, for example -5 for a put with strike 95, spot 100, rate and volatility 10%, 5 years | `C76_negative_prices`, `C76_negative_put` |
| `american_option.py` L348-350 | `divide_no_nan(4 m, k)` is 0 for rate zero instead of its limit `8 / (sigma^2 t)`: the exponent, and with it the premium, jumps at rate zero | `C77_zero_rate_deviates` |
| `american_option.py` L261-269 | a root search that ends in NaN returns the exercise value, which may be negative (flagged by `failed`) | `C77_failed_search` |
| `american_option.py` L714-718 | the documentation of `_cbnd` says `P(x > dh, y > dk)`; the code computes `P(x <= dh, y <= dk)` (which is what its callers need) | `C76_cbnd`, `C76_cbnd_cases` |
| `implied_volatility.py` L178-216 | the expansion in the expiry can make the volatility negative for documented arguments (forward and strike 1, alpha 1, beta 1, volvol 0, expiry 48: normal volatility -1); the option price is then the intrinsic value | `C78_negative_volatility` |
| `calibration.py` L562-584 | starting values on a bound pass the check of `validate_args` (`volvol = 0`, `beta = 0` are documented) but give an infinite starting position | `C79_round_trip`, `C79_zero_start` |
| `grids.py` L342-345, L461-466 | an extra point that is already a grid point is added a second time: a gap of zero, by which the finite difference schemes divide | `C80_repeated_point`, `C80_extended` |
| `interpolation_2d.py` L31-34 | the documentation says that the values are interpolated along x by a cubic spline; they are interpolated linearly (as the next sentence presumes) | `C81_between` |
| `heston/approximations/calibration.py` L557-579 | starting values on a bound (initial variance 0, correlation -1 with the default bounds) pass the check of `validate_args` but give an infinite starting position | `C83_bound_start` |
| `bond_curve.py` L450-452 | where the interpolation gives no number (see C35), the construction fails although an exact curve exists and is used as the start (three bonds, discount factors 1, 1, 1/2) | `C84_irregular_start`, `C84_exact_start_fails` |
| `bond_curve.py` L445-476 | a negative discount factor found in the last permitted iteration is returned with `failed` false and a rate that is not a number | `C84_unreported_failure` |
| `swap_curve_bootstrap.py` L450 | `pv_settlement_times` are documented as the times of the prices but deleted | `C85_settlement_ignored` |
| `swap_curve_bootstrap.py` L472-543 | `failed` is never set: prices that no curve reaches give no numbers and `failed` false | `C85_never_failed`, `C85_unreported_failure` |
| `swap_curve_bootstrap.py` L524-528 | the last floating and the last fixed payment are taken at the same time; legs that end apart converge to a curve that does not reprice | `C85_legs_apart` |
| `swap_curve_bootstrap.py` L518-522 | `segment_sum` has as many entries as the last swap with two payments; swaps with one fixed payment are rejected or take the sums of another swap | `C85_single_payments_rejected`, `C85_broadcast` |
| `swap_curve_bootstrap.py` L353-355 | with a discount curve for the floating leg only, the fixed leg uses that curve, not the curve being built as documented | `C85_fixed_discount_default` |
| `conjugate_gradient.py` L526 | uses the flags from before the quadratic step, so that a member whose quadratic step succeeded gets another step if another member's did not | `C87_batch_interaction` |
| `conjugate_gradient.py` L426-438 | the flag of a converged member is computed from a step that is not taken, so it can be lost while other members go on | `C87_lost` |
| `conjugate_gradient.py` L380-408, L428 | a member whose line search failed has the flag cleared at the next iteration of a batch and moves by an untested step | `C87_failed_forgotten` |
| `conjugate_gradient.py` L313 | the first test uses the Euclidean norm, the documentation says the supremum norm | `C87_first_test` |
| `cashflow_streams.py` L866-867 | the padded dates are overwritten by stacking the dates without padding, which fails for curves with different numbers of nodes | `C88_padding_lost` |
| `cashflow_streams.py` L868-877 | the batch of curves is built without their day count convention, so times are Actual/365 | `C88_daycount_lost` |
| `rate_curve.py` L244-262 | a start date with a maturity time is accepted by the documentation but fails | `C88_mixed_fails` |
| `market_data/utils.py` L101-147 | a period of quarters has no counterpart in the library and fails | `C88_quarter_fails` |
| `cashflow_streams.py` L686-728 | coupons paid before the valuation date have rate zero but their spread is still added | `C89_past_spread` |
| `cashflow_streams.py` L911-914, L726 | the past fixing is multiplied by the year fraction and then again in the cashflow | `C89_double_accrual` |
| `cashflow_streams.py` L546-553 | with one coupon the first and the last accrual end are both appended, and broadcasting counts the coupon twice | `C89_single_coupon` |
| `cashflow_streams.py` L546-553, L815-819 | the end is appended twice to generated schedules, so the short last coupon accrues for a whole reset period | `C89_stub` |
| `cashflow_streams.py` L803-819 | with the end of month rule the last regular date can lie after the end | `C89_end_of_month` |
| `cashflow_streams.py` L783-801 | a first coupon date replaces the start, so the accrual before it is lost | `C89_first_coupon_date` |
| `cashflow_streams.py` L803-812 | `end_date or penultimate_coupon_date` ignores the penultimate date | `C89_penultimate_ignored` |
| `cashflow_streams.py` L203-219 | the schedule function is only called inside the branch for a penultimate date | `C89_schedule_fn` |
| `cashflow_streams.py` L788-801 | without adjustment a start on a weekend is refused | `C89_weekend_start` |
| `rate_instruments/interest_rate_swap/proto_utils.py` L594-599, `forward_rate_agreement/proto_utils.py` L277-281 | a period of n years becomes n months (the multiplier should be 12) | `C90_years` |
| `interest_rate_swap_impl.py` L503 | the annuity reads the attribute `currency` of the discount curve type, which is a list for swaps made from coupon specifications: annuity and par rate fail | `C90_annuity_fails` |
| `interest_rate_swap_impl.py` L413 | with a curve type given, `curve_types` is read before it is bound, so there is no delta | `C90_delta_curve` |
| `interest_rate_swap_impl.py` L503-507 | the annuity counts payments before the valuation date, the price does not | `C90_annuity_past` |
| `forward_rate_agreement_impl.py` L127-129, L195-196 | `short_position` is documented as lending at the fixed rate but gains when the fixed rate falls | `C91_sign` |
| `forward_rate_agreement_impl.py` L225-226 | the end is moved to the end of the month after it has been rolled to a business day, so it can be a day of the weekend | `C91_end_of_month` |
| `swaption_impl.py` L318-323 with `interest_rate_swap/proto_utils.py` L446-453 | a receiver swaption made from a protocol buffer is priced as a short payer swaption | `C92_receiver` |
| `models/hjm/gaussian_hjm.py` L305-360 `state_y` | the last jump before t is taken from the jump times of the column factor, the sum of whole pieces up to the index of the row factor; for volatilities with different jump times the matrix is wrong and not symmetric | `C93_jumps` |
| `models/hjm/quasi_gaussian_hjm.py` L551-564 | eigenvalues below 1e-5 are raised to 1e-5 without renormalisation, so the simulated correlation differs from the given one | `C93_sqrt_perfect` |
| `models/hjm/swaption_util.py` L87-93, L150 | given `times` that do not contain an expiry: bond prices and discount factors are those of the next later time | `C94_times` |
| `models/hjm/swaption_pricing.py` L342-396 | swaptions with expiry in the past are not set to zero, as documented at L253-254 | `C94_past` |
| `models/hjm/swaption_pricing.py` L529-536 | with an even number of grid points the price is read at the first point above the state zero | `C94_fd_even` |
| `models/hjm/swaption_pricing.py` L557-569 | without `time_step_finite_difference` and `num_time_steps_finite_difference` the time step stays `None` and the grid fails, where 100 steps are documented | `C94_fd_default` |
| `experimental/local_volatility/local_volatility_model.py` L136-138, L299-300 | `d1 * time` in the denominator where Dupire's formula has `d1 * sqrt(time)`; wrong local volatility (also the default of `from_market_data`) for every time other than 1 wherever the smile has a slope | `C95_time_deviates` |
| `experimental/local_volatility/local_volatility_model.py` L120-123, L280-283, L632-650 | `d1` and the moneyness use the instantaneous rate times the time; wrong unless the curve is flat | `C95_d1`, `C95_curve_deviates`, `C95_moneyness` |
| `experimental/local_volatility/local_volatility_model.py` L226-232 | the precomputed version uses at a grid time the row of the grid time before it | `C95_precomputed_stale`, `C95_precomputed_deviates` |
| `models/hull_white/calibration.py` L339, L720; `models/hjm/calibration.py` L437 | notional `None` (the default, documented as 1) fails | `C96_hw_fails` |
| `models/hull_white/calibration.py` L390-391, L755-756 | a mean reversion with jumps, documented as supported, is rebuilt without its jumps and always fails | `C96_hw_fails` |
| `models/hull_white/calibration.py` L376, L735; `models/hjm/calibration.py` L498 | if the largest target is zero the loss is `0 / 0` everywhere | `C96_zero_targets` |
| `models/hjm/calibration.py` L511-523 | batches of models fail: always with the correlation (default), and without it for every batch but one of exactly two models | `C96_batches` |
| `models/hjm/calibration.py` L535, L597 | positions of angles are clipped to [-25, 25] in the loss, not in the result | `C96_clip` |
| `models/sabr/sabr_model.py` L469 | `0.5 * (1 + erf(z))` of a standard normal draw is `Φ(√2 z)`, which is not uniform (the division by `√2` is missing); absorption is too likely when its probability is below one half | `C98_uniform_law`, `C98_uniform_deviates`, `C98_absorption_deviates` |
| `models/sabr/sabr_model.py` L205-210 | the Euler scheme absorbs at the first value at or below zero, which can be negative (below minus the shift), and stops the volatility as well | `C98_negative`, `C98_volatility_stops` |
| `models/sabr/sabr_model.py` L225-231, L497 | a volatility of volatility of zero is accepted, and then every forward of the unbiased scheme is not a number | `C98_volvol_deviates` |
| `models/sabr/sabr_model.py` L460 | draws of shape `[num_samples, 3]` are reshaped to `[3, num_samples]`: a path does not get the draws of one sample, which breaks the structure of low-discrepancy points | `C98_draws`, `C98_draws_mixed` |
| `models/sabr/sabr_model.py` L396-398, L418 | `num_time_steps` is unbound without precomputed draws | `C98_needs_draws` |
| `models/sabr/sabr_model.py` L516-527 | for `beta = 0` (normal model) the unbiased scheme gives no negative forward | `C98_nonneg` |
| `models/sabr/sabr_model.py` L566 | the gradient of the noncentral chi-square function at noncentrality zero is not a number | `C98_gradient_zero` |
| `exercise_boundary.py` L319-321 | for a negative dividend rate the starting boundary `k min(1, r / q)` is negative, though the limit is the strike | `C99_initial_deviates` |
| `exercise_boundary.py` L341, `common.py` L41 | with a negative dividend rate (documented as allowed) the denominator of the first iteration is negative, and an ordinary put (vol 20 %, rate 5 %, dividend rate -2 %, default settings) raises the assertion error | `C99_negative_dividend`, `C99_negative_dividend_fails` |
| `andersen_lake.py` L304-321 | the price of a call without dividends is not larger than the European price, and smaller if the integration rule accepts a positive estimate | `C99_call_deviates` |
| `common.py` L14-19 | single precision arguments (documented as allowed) fail, since `z` is cast to double precision | `C99_types` |
| `local_stochastic_volatility_model.py` L156 | the Cholesky factor is scaled by columns, so with a correlation the variance is driven by the diffusion of the spot and the covariance is wrong unless both diffusions are equal | `C100_correlation_deviates` |
| `local_stochastic_volatility_model.py` L132 | without `dtype` (documented default) the constructor raises an attribute error | `C100_defaults_deviate` |
| `local_stochastic_volatility_model.py` L609-610 | `from_market_data` and `from_volatility_surface` fail with the documented default `None` of the rates | `C100_defaults_deviate` |
| `local_stochastic_volatility_model.py` L744 | the leverage function is assigned to a local name, so the equation is always solved with leverage one, and the densities do not depend on the local volatility | `C100_density_ignores_leverage`, `C100_evolution_deviates` |
| `local_stochastic_volatility_model.py` L667-687, L726 | the coefficients at variance `y i` and log spot `x j` are those of variance `y j` | `C100_coefficients_deviate` |
| `local_stochastic_volatility_model.py` L676, L726 | the order of the coefficients is variance, spot, but that of the grids is spot, variance: derivatives in the variance use the step of the spot | `C100_steps_deviate` |
| cms_swap.py L182-186 | coupons paid before the valuation date still count with `multiplier * basis` | `C101_past_basis_deviates` |
| cms_swap.py L207-210, L357-361 | with a convexity model the price is NaN once a coupon has ended, since its rate is set to zero and the gradient there is NaN | `C101_past_coupon_nan` |
| cms_swap.py L193-215 | a rate that is already fixed is changed by the convexity adjustment (negative time to the fixing) | `C101_fixed_rate_deviates` |
| cms_swap.py L342-349 | a tenor or frequency in days or weeks counts as zero years | `C101_term_years` |
| asian_prices.py (Heston) L424-431, L376 | without past fixings and with `mean_reversion = rho * volvol` the root is zero and the price is NaN | `C102_forward_deviates` |
| asian_prices.py (Heston) L549-555 | the principal logarithm of `f` is on the wrong branch when a sampling interval is long, and the transform is wrong by a factor | `C102_branch_deviates` |
| multivariate_normal.py L446 | the batch is taken from the mean alone: one mean with a batch of covariances is neither refused nor broadcast, the result has a wrong shape or there is an error | `C103_broadcast_deviates` |
| uniform.py L104-114 | `STATELESS_ANTITHETIC` is not refused as `PSEUDO_ANTITHETIC` is, Halton points are returned | `C103_uniform_deviates` |
| `brownian_motion_utils.py` L199-202 | Without a volatility the volatility function returns a matrix of ones, while the covariance is the identity: for a dimension above one the two do not belong together. | `C104_default_deviates` |
| `ito_process.py` L327-330 | With stateless or quasi random numbers each step of the Euler scheme draws the same numbers, so that the steps are not independent: the standard deviation grows with the sum of the roots of the steps. | `C104_stateless_deviates` |
| `brownian_motion.py` L331-335 | With quasi random numbers all times use the same coordinates of successive points: with `2 ^ q` Halton points in one dimension the second increment of a path is a function of the first. | `C104_quasi_deviates` |
| `ito_process.py` L364-392 | At the single time zero the Euler scheme returns zeros and not the initial state. | `C104_zero_time_deviates` |
| `shape_utils.py` L216-221 | An event rank of zero slices with `[:-0]` and `[-0:]`: the batch shape is empty and the event shape is the whole shape, so that a scalar event is not broadcast. | `C105_event_rank_deviates` |
| `sobol.py` L100-102, `digital_net.py` L296-298 | The number of results is cast to `float32` before its logarithm is taken: for `2 ^ 24 + 1` results one digit is missing and the last point repeats the first one. | `C107_digits_deviates` |
| `math/jacobian.py` L19-108 | The function may return a tensor of any shape according to the documentation, but `batch_jacobian` adds the derivatives over the rows of the batch: for a function that mixes the rows the result is no jacobian. | `C109_jacobian_deviates` |
| `american_option_impl.py` L289-298 with `market_data_impl.py` L264, L286 | The sorted currencies and the sorted equities of a batch are joined pair by pair. With more equities than currencies no price is computed; otherwise options can get the market data of another currency. | `C110_market_fails`, `C110_market_deviates` |
| `american_option/proto_utils.py` L139-156 | The arguments made by `create_constructor_args` have every currency and every equity once; the constructor refuses them if these are not equally many. | `C110_arguments_deviates` |
| `market_data/volatility_surface.py` L143 | The interpolator is documented to take strikes and expiry times but is called with the times first. | `C110_interpolator_deviates` |
| `models/hull_white/swaption.py` L572-573, L612-613, L994 | The longest exercise time is the last of the unique times in the order of their occurrence. If the times of a batch do not end with their largest, the price of an entry by simulation depends on the other entries, and the finite differences start too early with the payoff of a later time. | `C111_order_deviates`, `C111_fd_order_deviates` |
| `models/hull_white/swaption.py` L1105-1110 | The boundary value of a payer swaption at the highest short rate is the value of the swap at the lowest short rate, and zero between exercise times. | `C111_upper_deviates` |
| `models/hull_white/swaption.py` L1012-1015, L1048, L1069 | An exercise time less than the tolerance after another grid point is dropped; the exercise then takes place at the next grid point. | `C111_fd_tolerance_deviates` |
| `models/hull_white/vector_hull_white.py` L748-758 | The correlation is put on the normal draws of a step, each multiplied by the deviation of its factor. With different mean reversions the rates of two factors are correlated more strongly than in the model. | `C112_covariance_deviates` |
| `models/hull_white/vector_hull_white.py` L700-703, L1004-1014 | The correlation of a step is taken half of the smallest step after its beginning. When two volatilities jump at the same time this time occurs twice in the grid, the smallest step is zero and every jump of the correlation takes effect one step late. | `C112_late_correlation_deviates` |
| `models/hull_white/vector_hull_white.py` L1052 | Whether the mean reversion jumps is decided by the first dimension of its jumps, which for a batch is the number of factors; a constant mean reversion given in this way is sampled by Euler steps. | `C112_batch_mean_reversion_deviates` |
| `models/utils.py` L201-206 | along an axis with a single entry the new tensor is returned as it is; if it has to be broadcast the result does not have the shape of the tensor | `C113_update_shape_deviates` |
| `models/longstaff_schwartz/lsm.py` L250-254 | discount factors of rank 2 have a branch of their own, but stay of rank 2 and fail in `tf.pad` | `C114_rank_two_fails` |
| `experimental/finite_difference/methods.py` L143-145 | `np.argpartition(norms, k)` needs an index `k` below the number of points, so that exactly as many points as unknowns fail although they are enough | `C115_nearest_fails` |
| `experimental/finite_difference/methods.py` L33, L221-223 | the number of values is computed in 64 bits and wraps round: 1000 points on each of 22 axes pass the limit of ten million | `C115_size_deviates` |
| `math/random_ops/sobol/sobol_impl.py` L95-97 | with `validate_args` the default `skip=0` is rejected with the message that it must be non-negative | `C124_skip_deviates` |
| `math/qmc/lattice_rule.py` | `validate_args` accepts a dimension that is not positive | `C124_lattice_deviates` |
| `math/qmc/digital_net.py` L305-353 | `validate_args` accepts negative `sequence_indices` | `C124_indices_deviates` |
| `rates/hagan_west/monotone_convex.py` L176-181 | `validate_args` is documented to check that the times are bounded by the interval end points, but only signs are checked | `C124_times_deviates` |
| `black_scholes/implied_vol_approximation.py` L147-188 | the check "Expiries positive" accepts zero, where no volatility gives the price | `C124_expiry_deviates` |
| `black_scholes/implied_vol_newton_root.py` L138-185 | `validate_args` checks nothing if starting points are given or in the normal model | `C124_newton_deviates` |
| `black_scholes/variance_swaps.py` L236-241 | lengths of strikes and volatilities are compared but the result is not asserted: two volatilities for any number of strikes are accepted and the first is used for all | `C124_lengths_deviates` |
| `math/random_ops/multivariate_normal.py` L420, `halton_impl.py` L300-318 | a randomized Halton point can be zero, for which the quantile is minus infinity: the uniform correction is drawn from `[0, 1)` and the permuted digits can all be zero; the average over the paths is then not a number or infinite | C125_randomized_deviates |
| cms_swap.py L228-229 | in the normal model rates below 1e-6 are possible, but the integral over puts stops there: with a rising affine weight the adjusted rate is too small for every large number of points | `C129_low_strikes_deviates` |
| `date_tensor.py` L471-473 | When no format fits, the handler adds an exception to a string, so `TypeError` is raised instead of the documented `ValueError` | `C130_failure_deviates` |
| `date_tensor.py` L464-465 | A sequence of numbers is read as ordinals, but three numbers are read as year, month and day (ambiguity) | `C130_numbers` |
| `date_tensor.py` L748-759 | `random_dates` with an end not after the start returns dates outside of the (empty) range without an error | `C130_random_reversed` |
| `models/hull_white/swaption.py` L284-288 | The expiries and the multiples of the time step are sorted, but repetitions are not removed (the Bermudan version does). If an expiry other than the longest is a multiple of the time step, the sampled rates are shifted, the rate at the longest expiry is never written and its swaption is priced with a rate of zero; expiries 1 and 2 with step 1/2 are enough. | `C132_repeated_times_deviates` |
| `models/milstein_sampling.py` `_milstein_nd` | For two or more independent geometric Brownian motions the sampled values do not converge to the process: because of the missing factor one half (C59) each step has the mean of a process whose mean parameter is lower by half of the squared volatility. With volatility 1 the mean at time 1 is at most 0.61 instead of 1 on every grid with steps up to 2. | `C134_milstein_many_mean`, `C134_milstein_many_fails` |
| `black_scholes/vanilla_prices.py` `swaption_price` | The documentation gives the notional the default 1, but with the default `None` the conversion to a tensor (L928) raises an error. | `C135_default_notional_fails` |
| CRR tree | mirror images of American options differ in price, because the exercise value is discounted by a step | `C142_american_deviates` |
| `experimental/io.py` `_make_feature` | the argument `array_encoder` is ignored, line 191 calls `encode_array` | `C143_encoder_ignored`, `C143_encoder_deviates` |
| `math/pde/steppers/weighted_implicit_explicit.py` `weighted_implicit_explicit_step` | documented as stable for `theta >= 0.5`, but `theta` is the weight of the explicit part and the scheme is stable exactly for `theta <= 0.5` | `C145_stable_iff`, `C145_documented_deviates` |
| `datetime/holiday_calendar_factory.py` `_tensor_is_not_empty` | `num_elements` is not called, so that holidays given as a tensor raise a TypeError | `C149_tensor_deviates` |
| `datetime/bounded_holiday_calendar.py` `__init__` | `weekend_mask or …` raises an error for a mask given as a tensor or array, the documented type, so that it works for unbounded calendars only | `C149_mask_tensor_deviates` |
| `datetime/holiday_calendar_factory.py` `create_holiday_calendar` | an empty `DateTensor` counts as non-empty and raises an error, while an empty array gives an unbounded calendar | `C149_empty_deviates` |
| `datetime/holiday_calendar_factory.py` `create_holiday_calendar` | without a mask an empty list or array of holidays makes every day a holiday, but with both years every day is a business day | `C149_no_mask_deviates` |
| `examples/demos/option_pricing_basic` `_local_path_from_gcs_path` | a path with a third slash, `gs:///p`, is written to `/p` outside of the directory | `C150_local_deviates` |
| `examples/demos/option_pricing_basic` `pricer/app/main.py` L77-78 | portfolios of the same name in different directories or buckets overwrite each other's results | `C150_results_deviates` |
| `examples/demos/option_pricing_basic` `pricer/app/main.py` L40-53 | variables of the environment are strings, and the comparison with 0 raises a TypeError for every value | `C150_environment_deviates` |

Smaller observations made while reading, not theorems: `prepare_grid` with `num_time_steps` returns one point more than
documented; `swaption_price` with the default `notional=None` multiplies by `None`; `option_price` with spots, discount
factors and expiry 0 divides 0 by 0; `fair_strike`'s length check is not an assertion; `replicating_weights` decides the
direction of the strikes once for the whole batch; `equity_dividends or 0` fails for arrays; a mask without working day
divides by zero in the unbounded calendar;
`diff` with order 0 misbehaves; the random digital shift is drawn from `[2^(D-1), 2^D)` only; `pad_tensors` with fewer
pad values than tensors silently drops tensors; Brent's `converged` reports the function tolerance only.

## 5. Wrong programs

`tools/seed.py` applies a realistic bug to a definition of the model in a scratch copy outside `/verif`, rebuilds
everything that depends on it and logs which theorems no longer check (`seeded/LOG.jsonl`). A theorem that fails there
says that its proof no longer goes through for the wrong program; since proofs follow the statements closely this is
evidence, not a proof, that the statement has become false. When all theorems survived a bug that falsifies the English
claim, the theorems were strengthened and the bug was tried again (the log shows both attempts). The log was rerun as a whole
after a mistake in the tool (patches were applied to text outside of the named definition) had been found and fixed.

## 6. Note on `/repo`

`/repo` is read as text. Once, early on, a python helper script was started with the package directory as
its working directory, and python picked up the repository's `types` package instead of its own, which left one
`__pycache__` directory in `/repo`. It was removed at once; nothing else in `/repo` was touched, and helper scripts have since
been started in isolated mode from elsewhere. No code of the repository is used in any result.
