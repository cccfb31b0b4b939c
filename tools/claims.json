{
 "C09": {
  "status": "proved",
  "note": "Bounded calendar: duplicate-free holidays. Unbounded calendar: mask given or no holidays, sorted duplicate-free holidays, dates from 0001-01-08. The excluded inputs give wrong answers; concrete witnesses are proved."
 },
 "C10": {
  "status": "partial",
  "note": "MODIFIED conventions need a calendar starting after year 1 and no gap of 300 days without business day; both exclusions are proved to be real deviations of the code."
 },
 "C11": {
  "status": "partial",
  "note": "Dates from 0001-01-08; MODIFIED conventions need no gap of 300 days without business day (deviation proved)."
 },
 "C30": {
  "status": "partial",
  "note": "Expectation, parity, bounds, American >= European, American call without dividends = European are proved. 'American >= exercise value' is false for positive rates (the code discounts the exercise value; negation proved); proved for rates <= 0 and, in general, for the exercise value discounted over one step."
 },
 "C29": {
  "status": "proved",
  "note": "Values that are not finite are collapsed to one value that behaves like NaN; element-wise functions."
 },
 "C28": {
  "status": "proved",
  "note": "Real arithmetic, finite values. converged reports only the function tolerance; the position tolerance governs stopping (C28_terminates)."
 },
 "C32": {
  "status": "partial",
  "note": "binary_price ignores dividend rates when spots are given (negation proved, C32_binary_ignores_dividends); its expectation and the decomposition are proved for forwards or zero dividends. Asset-or-nothing results hold without this restriction."
 },
 "C33": {
  "status": "partial",
  "note": "Zero rebate: in + out = vanilla, knock-out = expectation over surviving paths (reflection principle density), bounds, time-unit invariance. Rebates: knock-in proved except the down-and-in put with strike above the barrier, whose table row is wrong (C33_down_in_put_rebate); the knock-out rebate depends on the unit of time (C33_time_unit_rebate); spots beyond the barrier give prices <= 0 (C33_crossed)."
 },
 "C36": {
  "status": "proved",
  "note": "Positive reference times as stated. The documented example has a first reference time of zero, for which the code divides zero by zero (C36_zero_time)."
 },
 "C37": {
  "status": "partial",
  "note": "Interest rate swaps: complete. Equity leg: homogeneous in the notional only without dividends; the code does not multiply dividends with the notional (negation proved)."
 },
 "C34": {
  "status": "proved",
  "note": "Exact arithmetic; ascending strikes for calls and descending strikes for puts, as documented."
 },
 "C39": {
  "status": "partial",
  "note": "Proved for the three ways to build the grid. For time step grids the claim needs that closeness within the tolerance is transitive on the points (implied by separation of more than twice the tolerance, C39_separated); without it the claim is false (C39_chain). A time step above the last time makes a grid with a given number of points unsorted (C39_num_times_unsorted)."
 },
 "C40": {
  "status": "proved",
  "note": "One batch element. The Jacobian of one step, computed by TensorFlow's tape, is assumed to be the derivative of the body."
 },
 "C35": {
  "status": "partial",
  "note": "Proved on every interval where the code gives numbers: forward at the left knot different from the discrete forward, or forward at the right knot equal to it. In the remaining case the result is not a number on the whole interval (C35_flat_start_nan), and the forward jumps at a knot when the next interval has its right knot forward equal to the discrete one (C35_jump)."
 },
 "C38": {
  "status": "partial",
  "note": "Natural and default boundary proved in full. For clamped and prescribed first derivatives the code zeroes the right hand side of rows whose left segment is flat, so the claim is proved for data where flat segments are followed by flat ones only; otherwise it is false (C38_kink, C38_flat_last_segment). tf.linalg.tridiagonal_solve is modelled by the algorithm of Thomas."
 },
 "C42": {
  "status": "partial",
  "note": "Everything but 'vega is the derivative of the objective', which is false for discount factors other than 1: the code divides vega by the discount factor although the objective is undiscounted (C42_vega_discounted, C42_linear_rate)."
 },
 "C45": {
  "status": "partial",
  "note": "Full at the inner points and for Dirichlet, Neumann and Robin conditions. The default condition is right only if the two grid steps next to the boundary are equal (C45_default_partial); otherwise the code divides by the wrong step (C45_default_lower_spacing)."
 },
 "C49": {
  "status": "proved",
  "note": "Up to the decimals of the table: 1e-24 (Legendre), 1e-20 (Kronrod)."
 },
 "C50": {
  "status": "partial",
  "note": "Negative estimates are never refined and intervals left at the maximal depth are dropped; both deviations proved."
 },
 "C51": {
  "status": "proved",
  "note": "one factor"
 },
 "C52": {
  "status": "partial",
  "note": "drift_fn only for constant volatility"
 },
 "C53": {
  "status": "partial",
  "note": "positive variance"
 },
 "C54": {
  "status": "partial",
  "note": "positive variance"
 },
 "C55": {
  "status": "partial",
  "note": "positive variance (without variance the bond options deviate, C53_no_variance); the rate of the root finder enters with its tolerance (C55_tolerance, C55_batch)"
 },
 "C56": {
  "status": "partial",
  "note": "first step and receiver flag are deviations"
 },
 "C57": {
  "status": "proved",
  "note": "Hypotheses: the pseudo inverse satisfies A pinv(A) A = A, discount factors are not zero, there is at least one exercise time and they are indices into the path."
 },
 "C58": {
  "status": "partial",
  "note": "The samples belong to the requested times; the coefficients are those at the end of the step instead of the start."
 },
 "C59": {
  "status": "partial",
  "note": "True in one dimension and for volatilities that do not depend on the state. Otherwise the code deviates; the deviations are proved."
 },
 "C60": {
  "status": "proved",
  "note": "The finite difference methods of the classes are not modelled."
 },
 "C61": {
  "status": "partial",
  "note": "C61_parameters_partial needs a grid without repeated points (C61_old_parameters otherwise); C61_times is for the grid made by the code (C61_given_grid is the deviation for a supplied grid)."
 },
 "C62": {
  "status": "proved",
  "note": ""
 },
 "C63": {
  "status": "partial",
  "note": "C63_exact_law_partial needs sigma non-zero; C63_no_volatility is the deviation for sigma = 0."
 },
 "C64": {
  "status": "proved",
  "note": ""
 },
 "C65": {
  "status": "proved",
  "note": ""
 },
 "C66": {
  "status": "partial",
  "note": "Holds without basis (or past coupons), when reference periods are as long as coupon periods and without fixings in batches; otherwise the code deviates, see the deviation theorems."
 },
 "C67": {
  "status": "partial",
  "note": "The par rate is proved before the first fixed payment and bonds before maturity; otherwise the code deviates."
 },
 "C68": {
  "status": "partial",
  "note": "Reference periods of at least three days that begin and end on a business day. Shorter periods and periods ending on a holiday violate the property (deviation theorems)."
 },
 "C69": {
  "status": "partial",
  "note": "The value is proved for batches with a common notional, volatilities supplied in pricing_context, positive strikes and forward rates, and a fixing only for a single contract; the deviation theorems show what the code does otherwise."
 },
 "C70": {
  "status": "partial",
  "note": "Proved for continuously compounded rates; C70_compounding_deviation proves that the conversion of periodically compounded rates is wrong."
 },
 "C71": {
  "status": "proved",
  "note": ""
 },
 "C72": {
  "status": "proved",
  "note": "For times > 0; at zero the code gives NaN (C72_zero_deviation)."
 },
 "C73": {
  "status": "proved",
  "note": ""
 },
 "C74": {
  "status": "proved",
  "note": ""
 },
 "C75": {
  "status": "proved",
  "note": ""
 },
 "C76": {
  "status": "partial",
  "note": "Proved: boundary, phi, the 1993 value, value matching in the 2002 value, the bivariate distribution function up to the quadrature error, homogeneity, symmetry, European and expiry cases. Deviations proved: NaN for puts with rate zero, negative prices when b t + 2 sigma sqrt(t) < 0. Not proved: the Black-Scholes equation for psi (only value matching), which holds only up to the quadrature error."
 },
 "C77": {
  "status": "partial",
  "note": "Proved for nonzero rates; deviation proved for the rate zero and for searches ending in NaN."
 },
 "C78": {
  "status": "partial",
  "note": "all stated parts proved; the deviation (negative volatilities) is proved as such"
 },
 "C79": {
  "status": "partial",
  "note": "all stated parts proved; the deviation (starting values on a bound) is proved as such"
 },
 "C80": {
  "status": "partial",
  "note": "all stated parts proved; the deviation (repeated points) is proved as such"
 },
 "C81": {
  "status": "proved",
  "note": "over the reals"
 },
 "C82": {
  "status": "proved",
  "note": "the existence of the law of the model is a hypothesis of the statements on prices"
 },
 "C83": {
  "status": "partial",
  "note": "all stated parts proved; the deviation (starting values on a bound) is proved as such"
 },
 "C84": {
  "status": "partial",
  "note": "repricing bound, fixed points and exact start for curves on which the interpolation gives numbers; the deviations are proved as such"
 },
 "C85": {
  "status": "partial",
  "note": "repricing bound, fixed points and exact start for legs that end together and swaps with two payments in each leg; the deviations are proved as such"
 },
 "C86": {
  "status": "proved",
  "note": ""
 },
 "C87": {
  "status": "partial",
  "note": "consistency, truthfulness, descent and finite termination on quadratic objectives proved; members of a batch are not independent, which is proved as a deviation"
 },
 "C88": {
  "status": "partial",
  "note": "all clauses proved; batches of curves only for equal numbers of nodes, one interpolation and Actual/365, the other cases are proved as deviations"
 },
 "C89": {
  "status": "partial",
  "note": "valuation formulas, telescoping, schedules and fixings proved; several deviations of the code from the documented behaviour are proved"
 },
 "C90": {
  "status": "partial",
  "note": "deviations: C90_years, C90_annuity_fails, C90_delta_curve, C90_annuity_past; C90_annuity_partial is for a single discount curve type"
 },
 "C91": {
  "status": "partial",
  "note": "deviations: C91_sign, C91_end_of_month (the end of month rules); dates are proved for all rules without end of month that adjust"
 },
 "C92": {
  "status": "partial",
  "note": "deviation: C92_receiver"
 },
 "C93": {
  "status": "partial",
  "note": "Proved: pricing equation of bond prices for both models, ends, short rate, symmetry of sampled states, closed form of y as covariance for common jumps, discount factors, root of the correlation matrix. Partial because of the two deviations (different jump times, small eigenvalues), proved as C93_jumps and C93_sqrt_perfect."
 },
 "C94": {
  "status": "partial",
  "note": "deviations: C94_times, C94_past, C94_fd_even, C94_fd_default, and C56_first_step for the discount factors"
 },
 "C95": {
  "status": "partial",
  "note": "deviations: C95_time_deviates, C95_curve_deviates, C95_moneyness, C95_precomputed_stale"
 },
 "C96": {
  "status": "partial",
  "note": "deviations: C96_hw_fails, C96_zero_targets, C96_batches, C96_clip"
 },
 "C97": {
  "status": "proved",
  "note": ""
 },
 "C98": {
  "status": "partial",
  "note": "deviations: C98_uniform_deviates, C98_absorption_deviates, C98_negative, C98_volatility_stops, C98_volvol_deviates, C98_draws_mixed, C98_needs_draws"
 },
 "C99": {
  "status": "partial",
  "note": "Deviations: negative dividend rates fail, calls without dividends are priced below the European price, single precision fails."
 },
 "C100": {
  "status": "partial",
  "note": "Deviations: correlation on the wrong side, leverage never updated in the equation, coefficients and steps of wrong grid points, defaults that fail."
 },
 "C101": {
  "status": "partial",
  "note": "Coupon sum holds without a basis and without convexity model for past coupons; deviations proved. C101_replication_exact is for a law with bounded support and exact integrals; the general case is C129."
 },
 "C102": {
  "status": "partial",
  "note": "The transform solves the equation where f stays off the negative real axis (C102_transform_partial, C102_single_partial); off it the code is wrong (C102_branch_deviates). Forward, value at zero, inversion, parity and past fixings are proved without this."
 },
 "C103": {
  "status": "proved",
  "note": ""
 },
 "C104": {
  "status": "proved",
  "note": "Exact sampling with pseudo random numbers and the Euler scheme are proved as stated; the quasi random and stateless generators, the default volatility function and time zero deviate, as shown by the theorems with suffix _deviates."
 },
 "C105": {
  "status": "proved",
  "note": "Proved for positive event ranks; the rank zero deviates, as shown by C105_event_rank_deviates."
 },
 "C106": {
  "status": "proved",
  "note": "Proved as stated."
 },
 "C107": {
  "status": "proved",
  "note": "Proved as stated for up to 2^24 results; beyond, the number of digits deviates, as shown by C107_digits_deviates."
 },
 "C108": {
  "status": "proved",
  "note": "Proved as stated."
 },
 "C109": {
  "status": "proved",
  "note": "Proved as stated."
 },
 "C110": {
  "status": "partial",
  "note": "Market data are right if currencies and equities have the same order when sorted (C110_market_partial). Otherwise they are not (C110_market_fails, C110_market_deviates). The rest is proved as stated."
 },
 "C111": {
  "status": "partial",
  "note": "That the price does not depend on the other entries is false (C111_order_deviates, C111_fd_order_deviates); C111_price_partial and C111_fd_final_partial assume that the last unique time is the largest. The tolerance and the upper boundary are deviations as well. Receiver swaptions are C56 and C111_receiver_deviates. The rest is proved as stated."
 },
 "C112": {
  "status": "partial",
  "note": "The covariance is false in general (C112_covariance_deviates, C112_late_correlation_deviates); C112_covariance_partial proves it for equal mean reversions and grids without repeated points. Mean, variance, curves, volatility function and inputs are proved as stated."
 },
 "C113": {
  "status": "partial",
  "note": "The shape of the result is false for axes with a single entry and a new tensor that has to be broadcast (C113_update_shape_deviates); everything else is proved as stated."
 },
 "C114": {
  "status": "proved",
  "note": "Proved as stated. Discount factors of rank 2, which the documentation does not allow but the code has a branch for, always fail (C114_rank_two_fails)."
 },
 "C115": {
  "status": "partial",
  "note": "The limit on the size of the grid is false beyond 64 bits (C115_size_deviates, C115_size_partial), and exactly enough points fail in the search for neighbours (C115_nearest_fails); everything else is proved as stated."
 },
 "C122": {
  "status": "partial",
  "note": "Linear, natural and two-dimensional interpolation as stated. For prescribed first derivatives flat segments must not be followed by others, because of the deviation C38_kink."
 },
 "C124": {
  "status": "partial",
  "note": "Exact sets of accepted arguments for every function named; the functions with deviations in section 4 accept others than documented."
 },
 "C129": {
  "status": "partial",
  "note": "All stated parts are proved; in the normal model the missing low strikes make the replication deviate (C129_low_strikes_deviates)."
 },
 "C130": {
  "status": "partial",
  "note": "All parts proved except the type of the error, which is false (C130_failure_deviates)."
 },
 "C132": {
  "status": "partial",
  "note": "Proved if no expiry is a multiple of the time step below the longest expiry; otherwise false (C132_repeated_times_deviates)."
 },
 "C134": {
  "status": "partial",
  "note": "Proved for the Euler sampler and for the Milstein sampler with one state; for several states false (C134_milstein_many_fails)."
 },
 "C135": {
  "status": "partial",
  "note": "Everything is proved except the default notional, for which there is an error (C135_default_notional_fails)."
 },
 "C149": {
  "status": "partial",
  "note": "proved for lists, arrays and DateTensors of holidays and masks in a list; tensors of holidays, and masks given as tensors for bounded calendars, raise errors (deviation theorems)"
 },
 "C150": {
  "status": "partial",
  "note": "paths with a leading slash leave the directory, results of portfolios with the same base name collide, and sizes from the environment raise an error (deviation theorems); the rest is proved"
 }
}