{"id": "C01", "title": "Ordinal and calendar date conversions are mutually inverse Gregorian conversions", "statement": "Converting a valid proleptic Gregorian date (year, month, day) to an ordinal and back returns the same date, converting any ordinal to a date gives a valid date and back gives the same ordinal, 0001-01-01 has ordinal 1, and the date of ordinal n+1 is the calendar successor of the date of ordinal n (day+1, or first of next month, or 1 January of next year, with the Gregorian leap rule).", "quantifier": "for every integer ordinal and every valid (year, month, day), with years of any size and sign", "why_tests_cant": "Tests compare a few thousand dates with python datetime; the conversion is a closed formula with eras, floor divisions and corrections whose failures sit at isolated dates.", "anchors": ["tf_quant_finance/datetime/date_utils.py:ordinal_to_year_month_day", "tf_quant_finance/datetime/date_utils.py:year_month_day_to_ordinal", "tf_quant_finance/datetime/date_utils.py:is_leap_year"]}
{"id": "C02", "title": "Day of week and day of year are calendar-correct", "statement": "day_of_week of 0001-01-01 is 0 (Monday) and it advances by one modulo seven with each following day, so equal weekdays differ by multiples of 7 days; day_of_year is the number of days since the last day of the previous year, between 1 and 365 (366 in leap years).", "quantifier": "for every valid date", "why_tests_cant": "A weekday or year-position formula can be wrong on a single month table entry or leap rule; the set of dates is unbounded.", "anchors": ["tf_quant_finance/datetime/date_tensor.py:DateTensor.day_of_week", "tf_quant_finance/datetime/date_tensor.py:DateTensor.day_of_year"]}
{"id": "C03", "title": "Adding months or years clamps to the end of the month and never does anything else", "statement": "date + n months (n any integer) lands exactly n calendar months away, has day equal to the smaller of the original day and the length of the target month, and is a valid date whose ordinal is consistent with its fields; adding years behaves as adding 12n months.", "quantifier": "for every valid date and every integer number of months/years (positive or negative) whose target is year >= 1 (and for the fields, every target)", "why_tests_cant": "There are unboundedly many (date, period) pairs; errors appear only for specific day/month/leap combinations or negative periods.", "anchors": ["tf_quant_finance/datetime/date_tensor.py:DateTensor.__add__", "tf_quant_finance/datetime/date_tensor.py:DateTensor.__sub__"]}
{"id": "C04", "title": "Day and week arithmetic is exact and invertible; going before 0001-01-01 is an error and never a wrong date", "statement": "date + n days is the n-th calendar successor (predecessor for negative n), weeks are 7 days, (date + n days) - n days is the date itself and days_until measures exactly n; a result before 0001-01-01 raises instead of returning a date.", "quantifier": "for every valid date and every integer n", "why_tests_cant": "Exactness over all offsets, across eras and signs, plus the boundary error, is not a finite set of cases.", "anchors": ["tf_quant_finance/datetime/date_tensor.py:DateTensor.__add__", "tf_quant_finance/datetime/date_tensor.py:DateTensor.__sub__", "tf_quant_finance/datetime/date_tensor.py:DateTensor.days_until", "tf_quant_finance/datetime/date_tensor.py:from_ordinals"]}
{"id": "C05", "title": "End of month queries agree with the calendar", "statement": "is_end_of_month is true exactly when the next calendar day is in a different month; to_end_of_month returns the unique end-of-month date in the same year and month, is idempotent and never moves backwards.", "quantifier": "for every valid date", "why_tests_cant": "Depends on all year/month combinations including centuries.", "anchors": ["tf_quant_finance/datetime/date_tensor.py:DateTensor.is_end_of_month", "tf_quant_finance/datetime/date_tensor.py:DateTensor.to_end_of_month"]}
{"id": "C06", "title": "Date comparison is chronological order", "statement": "The comparison operators on date tensors (by ordinal) coincide with lexicographic comparison of (year, month, day), and equality coincides with equality of the three fields.", "quantifier": "for every pair of valid dates", "why_tests_cant": "Order preservation of the ordinal encoding is a statement about all pairs of dates.", "anchors": ["tf_quant_finance/datetime/date_tensor.py:DateTensor.__lt__", "tf_quant_finance/datetime/date_tensor.py:DateTensor.__eq__", "tf_quant_finance/datetime/date_utils.py:year_month_day_to_ordinal"]}
{"id": "C07", "title": "Validated constructors accept exactly the valid dates and all constructors agree", "statement": "from_year_month_day with validation succeeds exactly when the triple is a Gregorian date with year >= 1 and then stores the same fields and the right ordinal; from_ordinals succeeds exactly for positive ordinals; a DateTensor converted to a tensor and back is unchanged; every accepted object satisfies the invariant that ordinal and fields describe the same day.", "quantifier": "for every integer triple and integer ordinal", "why_tests_cant": "Acceptance sets are infinite; a validator is wrong if it is wrong on one triple.", "anchors": ["tf_quant_finance/datetime/date_tensor.py:from_year_month_day", "tf_quant_finance/datetime/date_tensor.py:from_ordinals", "tf_quant_finance/datetime/date_tensor.py:from_tensor", "tf_quant_finance/datetime/date_tensor.py:DateTensor.to_tensor"]}
{"id": "C08", "title": "Leap day and leap year day counters count", "statement": "leap_days_between(start, end) is the number of February 29ths in [start, end), days_in_leap_years_between is the number of days in [start, end) belonging to leap years and together with the non-leap count it sums to the day difference.", "quantifier": "for every pair of valid dates with start <= end (and the antisymmetric extension otherwise)", "why_tests_cant": "Closed-form counting formulas versus actual counting over unbounded ranges.", "anchors": ["tf_quant_finance/datetime/date_utils.py:leap_days_between", "tf_quant_finance/datetime/date_utils.py:days_in_leap_years_between", "tf_quant_finance/datetime/date_utils.py:days_in_leap_and_nonleap_years_between"]}
{"id": "C09", "title": "Business day predicate is: not a weekend day and not a holiday", "statement": "For both holiday calendar implementations a date inside the calendar is reported as a business day exactly when its weekday is not masked as weekend and it is not in the supplied holidays.", "quantifier": "for every weekend mask, holiday list and date accepted by the calendar", "why_tests_cant": "Calendars are user data; the table construction (scatter, cumulative sums, weekday compression) must be right for all masks and holiday sets.", "anchors": ["tf_quant_finance/datetime/bounded_holiday_calendar.py:BoundedHolidayCalendar.is_business_day", "tf_quant_finance/datetime/unbounded_holiday_calendar.py:UnboundedHolidayCalendar.is_business_day", "tf_quant_finance/datetime/holiday_utils.py:business_day_mappers"]}
{"id": "C10", "title": "Rolling finds the nearest business day in the promised direction (bounded calendar)", "statement": "FOLLOWING returns the first business day on or after the date, PRECEDING the last on or before, MODIFIED_FOLLOWING the following one unless it falls in another month in which case the preceding one, MODIFIED_PRECEDING symmetrically, NONE the date itself; business days are fixed points and a date that cannot be rolled inside the calendar bounds raises instead of yielding a wrong date.", "quantifier": "for every calendar (mask, holidays, bounds), date and convention", "why_tests_cant": "Nearest-day search is by precomputed tables; correctness is for all holiday patterns and gaps.", "anchors": ["tf_quant_finance/datetime/bounded_holiday_calendar.py:BoundedHolidayCalendar.roll_to_business_day", "tf_quant_finance/datetime/bounded_holiday_calendar.py:BoundedHolidayCalendar._compute_rolled_dates_table"]}
{"id": "C11", "title": "Rolling finds the nearest business day in the promised direction (unbounded calendar)", "statement": "Same statement as for the bounded calendar, for the arithmetic (table free) implementation, without bounds.", "quantifier": "for every weekend mask with at least one weekday, every sorted duplicate-free holiday list, every date and convention", "why_tests_cant": "The implementation inverts a counting function with a sorted search; its correctness is an order-theoretic fact about all holiday lists.", "anchors": ["tf_quant_finance/datetime/unbounded_holiday_calendar.py:UnboundedHolidayCalendar.roll_to_business_day", "tf_quant_finance/datetime/holiday_utils.py:business_day_mappers", "tf_quant_finance/datetime/holiday_utils.py:_week_day_mappers"]}
{"id": "C12", "title": "Adding n business days lands on the n-th business day after the rolled date", "statement": "add_business_days(d, n, conv) equals the business day b such that exactly n business days lie in [roll(d), b) (n negative: -n business days in [b, roll(d))); n = 0 gives roll(d); subtracting n undoes adding n from a business day.", "quantifier": "for every calendar, date, rolling convention and integer n (bounded calendar: with results inside bounds, otherwise error)", "why_tests_cant": "Counting through arbitrary holiday sets in both directions, unbounded n.", "anchors": ["tf_quant_finance/datetime/bounded_holiday_calendar.py:BoundedHolidayCalendar.add_business_days", "tf_quant_finance/datetime/unbounded_holiday_calendar.py:UnboundedHolidayCalendar.add_business_days"]}
{"id": "C13", "title": "business_days_between counts business days in [from, to)", "statement": "business_days_between(a, b) is the number of business days d with a <= d < b, and 0 when b <= a; hence it is additive over adjacent intervals.", "quantifier": "for every calendar and pair of dates", "why_tests_cant": "Cumulative tables and rank arithmetic versus counting, all holiday sets.", "anchors": ["tf_quant_finance/datetime/bounded_holiday_calendar.py:BoundedHolidayCalendar.business_days_between", "tf_quant_finance/datetime/unbounded_holiday_calendar.py:UnboundedHolidayCalendar.business_days_between"]}
{"id": "C14", "title": "The two holiday calendar implementations are observably equivalent", "statement": "For dates inside the bounds, the bounded (table) and unbounded (arithmetic) calendars built from the same weekend mask and holidays give the same answers for is_business_day, rolling, adding business days and counting business days.", "quantifier": "for every weekend mask with at least one weekday, every sorted duplicate free holiday list within the bounds and every date in bounds", "why_tests_cant": "Differential tests only sample; equivalence of two algorithms is universal.", "anchors": ["tf_quant_finance/datetime/bounded_holiday_calendar.py:BoundedHolidayCalendar", "tf_quant_finance/datetime/unbounded_holiday_calendar.py:UnboundedHolidayCalendar", "tf_quant_finance/datetime/holiday_calendar_factory.py:create_holiday_calendar"]}
{"id": "C15", "title": "Periodic schedules contain exactly the multiples of the tenor between start and end plus both ends", "statement": "A forward schedule is start, start + tenor, start + 2 tenor, ... while before end, and end; a backward schedule counts down from end; the dates are non-decreasing, nothing beyond the ends is included, both ends are included, no period multiple before the end is missed, and in a batch every row is correct and padded.", "quantifier": "for every start, end, positive tenor (days, weeks, months, years), direction and batch", "why_tests_cant": "The number of generated periods is computed by an a-priori estimate (minimum days per period); whether it is always enough is an unbounded question.", "anchors": ["tf_quant_finance/datetime/schedules.py:PeriodicSchedule.dates", "tf_quant_finance/datetime/schedules.py:_gen_periodic_schedule"]}
{"id": "C16", "title": "Business day schedules list exactly the business days between start and end", "statement": "BusinessDaySchedule returns all business days from the rolled start to the rolled end in increasing order with no omissions (backward schedules likewise).", "quantifier": "for every calendar, start and end", "why_tests_cant": "All holiday patterns and batch sizes.", "anchors": ["tf_quant_finance/datetime/schedules.py:BusinessDaySchedule.dates", "tf_quant_finance/datetime/schedules.py:_gen_business_days"]}
{"id": "C17", "title": "Day count fractions are additive, antisymmetric and consistent with the day difference", "statement": "actual/360 and actual/365 fixed are additive over adjacent intervals and equal days/360, days/365; actual/actual ISDA splits the period between leap and non-leap days and gives exactly 1 for every full calendar year; 30/360 gives n/12 between the same day (<= 28) n months apart.", "quantifier": "for all pairs/triples of valid dates", "why_tests_cant": "Identities over all date pairs.", "anchors": ["tf_quant_finance/datetime/daycounts.py:actual_360", "tf_quant_finance/datetime/daycounts.py:actual_365_fixed", "tf_quant_finance/datetime/daycounts.py:actual_actual_isda", "tf_quant_finance/datetime/daycounts.py:thirty_360_isda", "tf_quant_finance/datetime/daycounts.py:actual_365_actual"]}
{"id": "C18", "title": "Segmented difference and cumulative sum work segment by segment and are inverse to each other", "statement": "segment_diff and segment_cumsum never mix values of different segments: each equals the concatenation of the plain operation over each segment; non-exclusive first differences of the cumulative sum give back the input and conversely.", "quantifier": "for every value list and every sorted segment id list of the same length", "why_tests_cant": "The vectorised implementations use global cumsum and masks; correctness must hold for every segmentation.", "anchors": ["tf_quant_finance/math/segment_ops.py:segment_diff", "tf_quant_finance/math/segment_ops.py:segment_cumsum", "tf_quant_finance/math/diff_ops.py:diff"]}
{"id": "C19", "title": "Yields and discrete forward rates convert back and forth without loss", "statement": "yields_from_forward_rates and forward_rates_from_yields are inverse to each other, and both compound consistently (yield * time is the sum of forward * interval), group by group.", "quantifier": "for every list of strictly increasing positive times per group and every rates", "why_tests_cant": "Universally quantified round trip including grouping.", "anchors": ["tf_quant_finance/rates/analytics/forwards.py:forward_rates_from_yields", "tf_quant_finance/rates/analytics/forwards.py:yields_from_forward_rates"]}
{"id": "C20", "title": "Padding makes all rows equal length and is invisible to the original entries", "statement": "pad_tensors extends every list to the longest length repeating its last element (default) or inserting the given value, keeping the original entries as a prefix.", "quantifier": "for every collection of rows of any lengths", "why_tests_cant": "The implementation uses a sentinel value trick; must work for all values.", "anchors": ["tf_quant_finance/math/pad.py:pad_tensors"]}
{"id": "C21", "title": "Linear interpolation passes through the knots, is exact on straight lines, stays within the neighbouring data and extrapolates as documented", "statement": "At a knot the interpolated value is the knot's ordinate; for data sampled from an affine function the interpolant equals it inside the range; between knots the value lies between the neighbouring ordinates; outside the range the value is the boundary ordinate plus the given slope times the distance (flat by default).", "quantifier": "for every strictly increasing knot list, ordinates and query", "why_tests_cant": "Continuum of queries and arbitrary knot lists.", "anchors": ["tf_quant_finance/math/interpolation/linear/linear_interpolation.py:interpolate"]}
{"id": "C22", "title": "Piecewise constant functions evaluate to the left-continuous value of the right piece", "statement": "find_interval_index and the piecewise constant evaluation return the value of the unique piece containing the argument (left-continuous or right-continuous according to the flag), constant outside the jump range.", "quantifier": "for every strictly increasing jump list, value list and argument", "why_tests_cant": "All jump lists and boundary coincidences.", "anchors": ["tf_quant_finance/math/piecewise.py:PiecewiseConstantFunc", "tf_quant_finance/math/piecewise.py:find_interval_index"]}
{"id": "C23", "title": "Integration of piecewise constant functions is the integral", "statement": "integrate(x1, x2) equals the definite integral of the piecewise constant function, hence is additive in adjacent intervals and zero on empty ones.", "quantifier": "for every jump list, values, and x1 <= x2", "why_tests_cant": "Continuum of limits and all relative positions of limits with respect to jumps.", "anchors": ["tf_quant_finance/math/piecewise.py:PiecewiseConstantFunc.integrate", "tf_quant_finance/math/piecewise.py:_piecewise_constant_integrate"]}
{"id": "C24", "title": "Simpson rule is exact on cubic polynomials", "statement": "Composite Simpson integration returns the exact integral of every polynomial of degree at most three, for every admissible number of points, and is linear in the integrand.", "quantifier": "for all limits, all cubic polynomials, all odd numbers of points >= 3", "why_tests_cant": "Weights for all sizes.", "anchors": ["tf_quant_finance/math/integration/simpson.py:simpson"]}
{"id": "C25", "title": "Sobol points are equidistributed in every coordinate", "statement": "In every dimension, the first 2^m points (in index order) of the Sobol sequence hit every dyadic interval [k/2^m, (k+1)/2^m) exactly once (up to the documented zero point), and all points lie in [0,1).", "quantifier": "for every dimension with a primitive polynomial/direction numbers table with odd m_i < 2^i, every m, and every aligned block of indices", "why_tests_cant": "Stratification is a statement about all m and all blocks.", "anchors": ["tf_quant_finance/math/random_ops/sobol/sobol_impl.py:sample", "tf_quant_finance/math/qmc/sobol.py:sobol_sample", "tf_quant_finance/math/qmc/digital_net.py:digital_net_sample"]}
{"id": "C26", "title": "Halton points are equidistributed in every coordinate", "statement": "In a coordinate with base b every block of b^m consecutive aligned indices has exactly one point in each interval [k/b^m,(k+1)/b^m); points lie in [0,1); randomisation by digit permutation preserves this.", "quantifier": "for every base >= 2, m, block", "why_tests_cant": "All bases, block sizes, permutations.", "anchors": ["tf_quant_finance/math/random_ops/halton/halton_impl.py:sample"]}
{"id": "C27", "title": "Digital shift and matrix scrambling keep digital nets equidistributed", "statement": "Applying a digital shift or left-multiplying generating matrices by a lower triangular unit diagonal scramble keeps the one-dimensional stratification of the net, and all samples stay in [0,1).", "quantifier": "for every shift, scrambling matrix, net whose matrices are invertible", "why_tests_cant": "Random shifts; all of them must preserve the net.", "anchors": ["tf_quant_finance/math/qmc/digital_net.py:digital_net_sample", "tf_quant_finance/math/qmc/digital_net.py:scramble_generating_matrices", "tf_quant_finance/math/qmc/digital_net.py:random_digital_shift"]}
{"id": "C28", "title": "Brent root search never leaves the bracket, never lies about convergence and reports consistent values", "statement": "Starting from a sign-changing bracket, the returned estimate lies in the initial interval, the reported objective value is the function at the estimate, at most max_iterations iterations are made, the function changes sign on the maintained bracket, and converged implies |f(root)| <= tolerance or bracket width within position tolerance.", "quantifier": "for every function, bracket and tolerance", "why_tests_cant": "Every real function is a possible input; loop invariant.", "anchors": ["tf_quant_finance/math/root_search/brent.py:brentq"]}
{"id": "C29", "title": "Newton root finder: converged flags are truthful and batch members do not interact", "statement": "If an element is reported converged the Newton step at the returned point is within the tolerance, the iteration count never exceeds the maximum, and each batch element's result is what it would be alone.", "quantifier": "for every function, starting point and batch", "why_tests_cant": "Fixed-point/invariant claims about every execution.", "anchors": ["tf_quant_finance/math/root_search/newton.py:root_finder"]}
{"id": "C30", "title": "Binomial tree prices: European put-call parity, American dominates European and exercise value", "statement": "The CRR tree satisfies discrete put-call parity exactly, American prices are at least European prices, and an American option is never worth less than its immediate exercise value.", "quantifier": "for every spot, strike, positive volatility, rates and number of steps", "why_tests_cant": "All tree sizes and parameters.", "anchors": ["tf_quant_finance/black_scholes/crr_binomial_tree.py:option_price_binomial"]}
{"id": "C31", "title": "Black-Scholes prices satisfy put-call parity and no-arbitrage bounds, and equal the discounted expectation of the payoff", "statement": "call - put = discount * (forward - strike); call lies between discounted intrinsic value and discounted forward; the price equals discount times the expectation of the payoff under the lognormal (normal) law.", "quantifier": "for every forward, strike, volatility, expiry, discount factor", "why_tests_cant": "Continuum of parameters.", "anchors": ["tf_quant_finance/black_scholes/vanilla_prices.py:option_price"]}
{"id": "C32", "title": "A vanilla option is an asset-or-nothing minus strike times a cash-or-nothing option", "statement": "option_price(call) = asset_or_nothing(call) - strike * binary(call), and binary call + binary put = discount factor, asset call + asset put = discounted forward, also when spots and dividends are supplied.", "quantifier": "for every parameter set and both supply modes (forwards or spots)", "why_tests_cant": "Continuum of parameters; mode combinations.", "anchors": ["tf_quant_finance/black_scholes/vanilla_prices.py:binary_price", "tf_quant_finance/black_scholes/vanilla_prices.py:asset_or_nothing_price", "tf_quant_finance/black_scholes/vanilla_prices.py:option_price"]}
{"id": "C33", "title": "Knock-in plus knock-out equals vanilla", "statement": "With zero rebate the sum of the knock-in and knock-out barrier prices equals the vanilla price, for up/down and call/put in both strike/barrier orders; barrier prices do not depend on the unit of time.", "quantifier": "for every parameter set", "why_tests_cant": "Continuum of parameters, eight branches times strike/barrier order.", "anchors": ["tf_quant_finance/black_scholes/vanilla_prices.py:barrier_price"]}
{"id": "C34", "title": "Variance swap replicating weights replicate the log contract at the strikes", "statement": "The portfolio of puts and calls given by replicating_weights has payoff at every strike equal to the log-contract payoff 2*(x/S - 1 - log(x/S))-type target (up to the documented ends).", "quantifier": "for every strictly monotone strike list and reference", "why_tests_cant": "Induction over list of any length.", "anchors": ["tf_quant_finance/black_scholes/variance_swaps.py:replicating_weights"]}
{"id": "C35", "title": "Monotone convex interpolation reproduces the input curve", "statement": "Interpolating forwards preserves the average forward on every interval (so yields at knot times are reproduced), the instantaneous forward is continuous at the knots and is the derivative of yield times time; the result is a number for every valid input.", "quantifier": "for every strictly increasing times and discrete forwards", "why_tests_cant": "Case analysis over four regions for all real inputs.", "anchors": ["tf_quant_finance/rates/hagan_west/monotone_convex.py:interpolate", "tf_quant_finance/rates/hagan_west/monotone_convex.py:interpolate_yields"]}
{"id": "C36", "title": "Constant-forward interpolation reproduces knot yields and is piecewise linear in yield*time", "statement": "The interpolated yield equals the reference yield at reference times, times*yield is linear between references, extrapolation is flat.", "quantifier": "for every strictly increasing positive reference times", "why_tests_cant": "Continuum.", "anchors": ["tf_quant_finance/rates/constant_fwd/constant_fwd_interpolation.py:interpolate"]}
{"id": "C37", "title": "Swaps: par rate makes the swap worthless, receiver = -payer, linear in notional", "statement": "Pricing an interest rate swap at the rate returned by ir_swap_par_rate_and_annuity gives zero value; exchanging legs flips the sign; prices are additive and homogeneous.", "quantifier": "for every schedule and curve", "why_tests_cant": "All schedules.", "anchors": ["tf_quant_finance/rates/analytics/swap.py:ir_swap_price", "tf_quant_finance/rates/analytics/swap.py:ir_swap_par_rate_and_annuity", "tf_quant_finance/rates/analytics/cashflows.py:present_value"]}
{"id": "C38", "title": "Cubic spline passes through its knots and has continuous first and second derivatives", "statement": "For natural, clamped and fixed-first-derivative boundaries, the interpolant equals the data at the knots, is twice continuously differentiable at interior knots and satisfies the boundary conditions.", "quantifier": "for every strictly increasing knots and data", "why_tests_cant": "Linear system assembly for all sizes and data.", "anchors": ["tf_quant_finance/math/interpolation/cubic/cubic_interpolation.py:build", "tf_quant_finance/math/interpolation/cubic/cubic_interpolation.py:interpolate"]}
{"id": "C39", "title": "Simulation time grids contain every requested time", "statement": "prepare_grid returns a sorted grid in which every requested time is present (within the tolerance) at the reported index, and the recording mask marks exactly the reported indices.", "quantifier": "for every sorted times list, step and tolerance", "why_tests_cant": "Deduplication and index adjustment interplay for all lists.", "anchors": ["tf_quant_finance/models/utils.py:prepare_grid"]}
{"id": "C40", "title": "Custom loops compute the iterated state and the exact chain-rule Jacobian", "statement": "for_loop returns the state after the requested number(s) of iterations of the body, one entry per requested count, and the accumulated Jacobian is the product of the step Jacobians (state part and parameter part).", "quantifier": "for every body, state, increasing list of iteration counts", "why_tests_cant": "Loop invariant over unbounded number of iterations.", "anchors": ["tf_quant_finance/math/custom_loops.py:for_loop"]}
{"id": "C41", "title": "Rank-1 lattice rules stratify every coordinate and integrate waves exactly", "statement": "The samples are the points n z / N (plus the shift) modulo 1; they lie in [0,1); a coordinate whose generator is coprime to N has exactly one point in each interval [k/N,(k+1)/N) for every shift; the average of exp(2 pi i h.x) over the points is 1 if N divides h.z and 0 otherwise.", "quantifier": "for every generating vector, number of points, shift and frequency", "why_tests_cant": "Number theoretic statement about all generators, sizes and shifts.", "anchors": ["tf_quant_finance/math/qmc/lattice_rule.py:lattice_rule_sample"]}
{"id": "C42", "title": "Implied volatility is the unique inverse of the option price in the volatility", "statement": "For valid option arguments (exactly one of spot and forward, positive expiry and discount factor, positive forward and strike in the lognormal model) option_price is strictly increasing in the volatility, a price strictly within the no-arbitrage bounds is attained by exactly one positive volatility and no other price is attained. The objective handed to Newton's method in implied_vol vanishes exactly at that volatility, the vega handed to it is the derivative of the objective, and a volatility that is reported as converged reprices the option up to the tolerance times vega.", "quantifier": "all prices, strikes, forwards or spots, expiries, discount factors, calls and puts, lognormal and normal model, all initial volatilities, tolerances and iteration limits, all batches", "why_tests_cant": "Tests invert a few prices; existence, uniqueness and the meaning of the converged flag are statements about a continuum of arguments, and a wrong scale of vega only slows convergence down.", "anchors": ["tf_quant_finance/black_scholes/implied_vol_newton_root.py:implied_vol", "tf_quant_finance/black_scholes/implied_vol_newton_root.py:_make_black_lognormal_objective_and_vega_func", "tf_quant_finance/black_scholes/implied_vol_newton_root.py:_make_bachelier_objective_and_vega_func", "tf_quant_finance/black_scholes/vanilla_prices.py:option_price"]}
{"id": "C43", "title": "The fast implied volatility approximation exactly inverts Black's formula with Polya's distribution function", "statement": "For a lognormal option with valid arguments whose price lies strictly within the no-arbitrage bounds, implied_vol with FAST_APPROX returns a positive volatility, and Black's formula in which the normal distribution function is replaced by Polya's approximation 1/2 + sign(x)/2 sqrt(1 - exp(-p x^2)) reproduces the given price exactly at this volatility.", "quantifier": "all prices within the bounds, strikes, forwards or spots, expiries, discount factors, calls and puts, all polya factors p >= 1/2 (the default is 2/pi)", "why_tests_cant": "The algorithm squares an equation twice and chooses the branch by comparing the price with a threshold; that the branch is right for every moneyness and price is a statement about a continuum, tests compare with the true implied volatility only up to the large approximation error.", "anchors": ["tf_quant_finance/black_scholes/implied_vol_approximation.py:implied_vol", "tf_quant_finance/black_scholes/implied_vol_approximation.py:_approx_implied_vol_polya", "tf_quant_finance/black_scholes/implied_vol_approximation.py:_get_quadratic_coeffs"]}
{"id": "C44", "title": "Yields from present values are found by Newton's method without overshooting and invert the present values", "statement": "pv_from_yields gives for each group the sum of its cashflows discounted at the yield of the group. If the cashflows are not negative, not in the past and something is paid in the future, the present value is strictly decreasing in the yield so the yield is unique. yields_from_pv returns for all groups the Newton iterate after the same number of steps; after at least one step the yield is at most the true yield; when it stops before the iteration limit every last step is within the tolerance and the repricing error is at most the tolerance times the dollar duration. Starting from the present values of given yields, the yields are recovered in the limit of many iterations, for every positive or negative yield.", "quantifier": "all cashflows, times, groups, present values, yields, tolerances and iteration limits", "why_tests_cant": "Global convergence of Newton's method from zero for every bond and every yield cannot be sampled; tests round trip a few bonds.", "anchors": ["tf_quant_finance/rates/analytics/cashflows.py:pv_from_yields", "tf_quant_finance/rates/analytics/cashflows.py:yields_from_pv"]}
{"id": "C45", "title": "A finite difference step solves the difference equation with exact parabola derivatives and the boundary conditions", "statement": "On every increasing grid with at least four points, uniform or not, a step of the weighted scheme (implicit, explicit, Crank-Nicolson) of the one dimensional parabolic solver returns values that satisfy the Dirichlet, Neumann or Robin conditions at the new time. Old and new values, completed by boundary values for the mid time, satisfy (w - v) / dt = theta L v + (1 - theta) L w at every inner point, where L takes its derivatives from the parabolas through three neighbouring points and uses the coefficients at the mid time. Grid functions that satisfy these equations are reproduced exactly. Where no condition is given (default), the equation without second derivative holds at the boundary with a one-sided difference.", "quantifier": "all grids, values, coefficients (inner and outer), boundary conditions, weights and time steps", "why_tests_cant": "Tests compare with a few analytical solutions up to discretization errors, mostly on uniform grids; a wrong weight on a non-uniform grid is hidden by the tolerance.", "anchors": ["tf_quant_finance/math/pde/steppers/parabolic_equation_stepper.py:parabolic_equation_step", "tf_quant_finance/math/pde/steppers/parabolic_equation_stepper.py:_construct_space_discretized_eqn_params", "tf_quant_finance/math/pde/steppers/parabolic_equation_stepper.py:_apply_robin_boundary_conditions", "tf_quant_finance/math/pde/steppers/parabolic_equation_stepper.py:_apply_default_boundary", "tf_quant_finance/math/pde/steppers/weighted_implicit_explicit.py:weighted_implicit_explicit_scheme"]}
{"id": "C46", "title": "Discrete maximum and comparison principle of a finite difference step", "statement": "If the drift is small compared to the diffusion on the grid, the zeroth order coefficient is not positive and the explicit part of the step is small enough, then a backward step with Dirichlet conditions does not fail, keeps all values between any bounds of the old values and boundary values (which discounting does not violate), and is monotone in the values and the boundary values.", "quantifier": "all grids, values, coefficients, boundary values, weights and time steps under the conditions", "why_tests_cant": "Absence of spurious oscillations for all data is an inequality over all inputs; tests look at a few price profiles.", "anchors": ["tf_quant_finance/math/pde/steppers/parabolic_equation_stepper.py:parabolic_equation_step", "tf_quant_finance/math/pde/steppers/weighted_implicit_explicit.py:weighted_implicit_explicit_scheme"]}
{"id": "C47", "title": "The finite difference solvers step exactly from the start to the end time", "statement": "With a constant time step the backward solver performs ceil((start - end) / dt) steps starting at start, start - dt, ..., all of length dt but the last one, which ends at the end time; with a number of steps it performs that many equal steps; forward likewise. The final time is the end time and the step counter is advanced by the number of steps; transformations are applied after each step at the new time. With a callable step the end time is never passed. If the end is on the wrong side of the start nothing happens.", "quantifier": "all start and end times, time steps, numbers of steps, step functions, values and transformations", "why_tests_cant": "The off-by-one and last-step behaviour depends on whether dt divides the interval; tests use a few intervals.", "anchors": ["tf_quant_finance/math/pde/fd_solvers.py:solve_backward", "tf_quant_finance/math/pde/fd_solvers.py:solve_forward", "tf_quant_finance/math/pde/fd_solvers.py:_solve", "tf_quant_finance/math/pde/fd_solvers.py:_get_time_steps_info", "tf_quant_finance/math/pde/fd_solvers.py:_time_direction_backward_fn"]}
{"id": "C48", "title": "Crank-Nicolson, extrapolation and their composition converge with second order, and extrapolation damps stiff components", "statement": "On an eigenvector of the space discretization each scheme acts as a rational function of z = lambda dt: (1 + theta z) / (1 - (1 - theta) z) for the weighted scheme and 2 / (1 - z/2)^2 - 1 / (1 - z) for extrapolation. For theta <= 1/2 and for extrapolation the factor is at most one in size for all z <= 0; the extrapolation factor tends to 0 and the Crank-Nicolson factor to -1 as z goes to minus infinity. Crank-Nicolson, extrapolation and the oscillation damped composition are within |z|^3 of exp(z), and the solver with n equal steps gives the exact solution up to (lambda T)^3 / n^2.", "quantifier": "all tridiagonal systems, eigenvectors and eigenvalues, times, numbers of steps and numbers of initial extrapolation steps", "why_tests_cant": "An order of convergence and unconditional stability are statements about all step sizes.", "anchors": ["tf_quant_finance/math/pde/steppers/weighted_implicit_explicit.py:weighted_implicit_explicit_scheme", "tf_quant_finance/math/pde/steppers/extrapolation.py:extrapolation_scheme", "tf_quant_finance/math/pde/steppers/composite_stepper.py:composite_scheme_step", "tf_quant_finance/math/pde/steppers/oscillation_damped_crank_nicolson.py:oscillation_damped_crank_nicolson_step"]}
{"id": "C49", "title": "Gaussian quadrature tables integrate polynomials of full degree", "statement": "For every supported number of points n and all polynomials p of degree below 2n and all limits a, b, gauss_legendre(p, a, b, n) equals the integral of p over [a, b] up to 10^-24 times half the length times the sum of the absolute coefficients of p after the affine change of variables to [-1, 1] (that is, up to the decimals of the table). The Kronrod rule with n = 2m+1 points does so for degree at most 3m+1 with 10^-20. All weights are positive.", "quantifier": "all table sizes, all real polynomials of the stated degree, all real limits", "why_tests_cant": "Tests integrate a few functions with a tolerance far above the precision of the table; a wrong digit in one of some 400 constants, or a permuted node, changes results by less than the tolerance.", "anchors": ["tf_quant_finance/math/integration/gauss_legendre.py", "tf_quant_finance/math/integration/gauss_constants.py", "tf_quant_finance/math/integration/gauss_kronrod.py"]}
{"id": "C50", "title": "Adaptive Gauss-Kronrod sums estimates over a partition", "statement": "The adaptive integral of f over [a, b] is the sum of the Kronrod estimates on accepted intervals; accepted intervals and the intervals left over at the maximal depth are a partition of [a, b] by bisection; on accepted intervals with positive estimate the difference to the Legendre estimate is at most tolerance times the estimate; if some level below the maximal depth is accepted entirely, nothing is left over and local errors e(u-l) add to at most e(b-a).", "quantifier": "all integrands, limits a <= b, tolerances, depths and table sizes", "why_tests_cant": "Tests use positive integrands with default depth, so the sign of the relative error and the dropped intervals are not exercised.", "anchors": ["tf_quant_finance/math/integration/gauss_kronrod.py", "tf_quant_finance/math/integration/adaptive_update.py"]}
{"id": "C51", "title": "Hull-White paths have the exact moments of the model", "statement": "For a mean reversion k not 0 and a piecewise constant volatility with increasing non-negative jump times, one step of the sampler from time s to t has the conditional mean and variance of the exact solution of the Hull-White equation: variance = integral from s to t of exp(-2k(t-u)) sigma(u)^2 du, mean = exp(-k(t-s)) x + f(t) - exp(-k(t-s)) f(s) + convexity terms; the samples returned for requested times are the states of the recursion over the union of requested times and volatility jumps, at exactly the requested times.", "quantifier": "all mean reversions, volatilities, initial curves, sorted requested times and normal draws", "why_tests_cant": "Tests compare sample means and variances of a few settings up to Monte Carlo error; a wrong piece of the volatility at one jump or a shifted index changes results by less than the error.", "anchors": ["tf_quant_finance/models/hull_white/one_factor.py", "tf_quant_finance/models/hull_white/vector_hull_white.py"]}
{"id": "C52", "title": "Hull-White bond prices fit the curve and satisfy the pricing equation", "statement": "discount_bond_price(r, t, T) equals the discount factor of the initial curve at t = 0 and r = f(0); is 1 at t = T; is strictly decreasing in r for T after t; its expectation under the model, discounted by the initial curve, gives back the initial curve; and between volatility jumps it satisfies the pricing partial differential equation of the Hull-White model with its exact drift. drift_fn is that drift if the volatility is constant.", "quantifier": "all curves (differentiable where needed), mean reversions, piecewise constant volatilities, rates and times", "why_tests_cant": "Tests compare bond prices at a few points; the partial differential equation and the fit to the curve are statements for all times and all curves.", "anchors": ["tf_quant_finance/models/hull_white/vector_hull_white.py", "tf_quant_finance/models/hull_white/one_factor.py"]}
{"id": "C53", "title": "Hull-White bond options are discounted expected payoffs", "statement": "The analytic price of a European call (put) on a zero coupon bond equals the discount factor to expiry times the expectation of the payoff of the model's own bond price, the short rate at expiry being normal with the forward rate as mean and the exact variance; put-call parity holds.", "quantifier": "all positive strikes, expiries before maturities, curves, mean reversions and volatilities with positive variance", "why_tests_cant": "Tests compare with stored numbers or Monte Carlo for a few options.", "anchors": ["tf_quant_finance/models/hull_white/zero_coupon_bond_option.py"]}
{"id": "C54", "title": "Hull-White caps and floors are sums of expected caplet payoffs", "statement": "The analytic price of a cap (floor) is the sum over its periods of notional times the discounted expectation of the payoff daycount times the positive part of the difference of rate and strike, paid at the end of the period; caplets that start before 0 are 0; cap minus floor is the value of the swap.", "quantifier": "all lists of caplets with positive daycount fractions and 1 + daycount * strike positive, all notionals", "why_tests_cant": "Tests compare a few caps with stored numbers.", "anchors": ["tf_quant_finance/models/hull_white/cap_floor.py"]}
{"id": "C55", "title": "Jamshidian's decomposition prices swaptions", "statement": "There is exactly one short rate at which the fixed leg is worth the floating leg; if the strikes are the bond prices for that rate, the sum of bond options is notional times the discounted expectation of the positive part of the value of the swap (payer) or of its negative (receiver); payer minus receiver is the forward swap.", "quantifier": "all non-empty lists of payments after expiry with non-negative coupons, all curves, mean reversions and volatilities", "why_tests_cant": "Tests compare single swaptions with stored numbers; the decomposition depends on all bonds being monotone in the rate, an argument for all payments and rates.", "anchors": ["tf_quant_finance/models/hull_white/swaption.py"]}
{"id": "C56", "title": "Discount factors of simulated short rate paths", "statement": "cumsum_using_matvec and cumprod_using_matvec are running sums and products; the discount factor of a path at simulation time t_i is exp of minus the sum of r_j (t_j - t_(j-1)) over all steps from 0 to t_i; and the value of exercising a Bermudan swaption depends on is_payer_swaption.", "quantifier": "all lists of times and rates", "why_tests_cant": "Tests price with small rates and short first steps and accept Monte Carlo error; they do not see a missing step.", "anchors": ["tf_quant_finance/models/utils.py", "tf_quant_finance/models/hjm/zero_coupon_bond_option_util.py", "tf_quant_finance/models/hjm/swaption_util.py", "tf_quant_finance/models/hull_white/swaption.py"]}
{"id": "C57", "title": "Least squares Monte Carlo prices follow an exercise policy fitted by least squares", "statement": "The price returned by least_square_mc is the mean over the pricing paths of the discounted payoff at the exercise index of a policy with these properties: at the last exercise time everything left is exercised; at an earlier time a path is exercised exactly if its payoff exceeds the positive part of the least squares regression, over the in-the-money calibration paths, of the discounted payoff of continuing under the same policy. The two experimental versions return the same price. The polynomial basis contains each monomial with exponents up to the degree exactly once.", "quantifier": "all paths, payoffs, basis functions, discount factors other than zero, exercise times and numbers of calibration paths", "why_tests_cant": "Tests compare prices with a few stored numbers up to Monte Carlo error; a regression over the wrong paths or a wrong discount factor changes the policy and the price only slightly.", "anchors": ["tf_quant_finance/models/longstaff_schwartz/lsm.py", "tf_quant_finance/experimental/lsm_algorithm/lsm_v2.py", "tf_quant_finance/experimental/lsm_algorithm/lsm.py"]}
{"id": "C58", "title": "Path samplers return the states of the scheme at the requested times", "statement": "euler_sampling.sample and milstein_sampling.sample return, for each requested time, the state of the scheme at the grid point that belongs to it (equal to it for a given number of steps, at most the tolerance before it for a given time step), for the while loop and for the loop with watched parameters alike; and the Euler states satisfy X(n+1) = X(n) + a(t(n), X(n)) dt + b(t(n), X(n)) sqrt(dt) z(n).", "quantifier": "all drifts, volatilities, dimensions, initial states, normal draws, and increasing requested times", "why_tests_cant": "Tests check sample means up to Monte Carlo error for a few processes, most of them without time dependent coefficients; a shift by one grid point or the wrong time in the coefficients is within the error.", "anchors": ["tf_quant_finance/models/euler_sampling.py", "tf_quant_finance/models/milstein_sampling.py", "tf_quant_finance/models/utils.py"]}
{"id": "C59", "title": "The Milstein step is that of the literature", "statement": "One step of milstein_sampling is X + (a - 1/2 sum_j L^j b^j) dt + sum_j b^j dW_j + sum_(j1,j2) L^(j1) b^(j2) J(j1,j2) with L^j = sum_i b^(i,j) d/dx_i and multiple Stratonovich integrals J with J(i,j) + J(j,i) = dW_i dW_j; in one dimension X + a dt + b dW + 1/2 b b' (dW^2 - dt).", "quantifier": "all coefficients, derivatives, states, time steps and normal draws", "why_tests_cant": "The only test with more than one dimension compares the mean and standard deviation over all components, for initial values 0.1 and 0.2, with those of the Euler scheme to within 0.05; the identity holds for all coefficients and states.", "anchors": ["tf_quant_finance/models/milstein_sampling.py"]}
{"id": "C60", "title": "Geometric Brownian motion is sampled with its exact law", "statement": "GeometricBrownianMotion.sample_paths and MultivariateGeometricBrownianMotion.sample_paths return values whose logarithms at the requested times are the exact means (integral of drift rate minus half of the squared volatility) plus combinations of the normal draws whose covariances are the integrals of the volatilities times correlation, jointly for all times; the mean growth between times is the exponential of the integral of the drift rate; values are positive.", "quantifier": "all constant or piecewise constant drift rates and volatilities, correlation matrices with a Cholesky factor, sorted times, initial values and draws", "why_tests_cant": "Tests compare sample means, variances and correlations of a few settings up to Monte Carlo error.", "anchors": ["tf_quant_finance/models/geometric_brownian_motion/univariate_geometric_brownian_motion.py", "tf_quant_finance/models/geometric_brownian_motion/multivariate_geometric_brownian_motion.py"]}
{"id": "C61", "title": "The Heston sampler matches the moments of the variance and records the requested times", "statement": "In HestonModel.sample_paths every step draws a non-negative variance whose mean and variance are exactly those of the square root process, in both branches of the quadratic-exponential scheme; the log spot moves by the integrated equation with trapezoidal rule for the variance; each step uses the parameters in force during the step; the samples are the states at the requested times. The volatility matrix has the covariance of the model and expected_total_variance is the integral of the mean variance.", "quantifier": "all positive mean reversions and long run variances, non-zero volatilities of variance, correlations, piecewise constant parameters, times and draws", "why_tests_cant": "Tests compare prices from samples with references up to Monte Carlo error, and never request a time that is a jump of the parameters or time zero with a supplied grid.", "anchors": ["tf_quant_finance/models/heston/heston_model.py"]}
{"id": "C62", "title": "Joined Ito processes have the documented covariance and the solvers get the equations of the process", "statement": "In JoinedItoProcess every component process keeps its drift as a function of its own coordinates, and the covariance of two coordinates is that of the component volatilities driven by Brownian motions with the block diagonal correlation matrix of corr_structure; a component whose own motions are uncorrelated keeps its covariance. The coefficients that fd_solver_backward passes to the solver are those of the generator of the sampled process with minus the discount rate, and the equation of fd_solver_forward is its adjoint.", "quantifier": "all lists of processes of any dimensions, all correlation structures of the same total dimension with a Cholesky factor, all times, states and volatility matrices", "why_tests_cant": "Tests estimate correlations of samples for one join of two processes and solve equations for a few processes with known solutions, within error bounds.", "anchors": ["tf_quant_finance/models/joined_ito_process.py", "tf_quant_finance/models/generic_ito_process.py", "tf_quant_finance/models/utils.py"]}
{"id": "C63", "title": "The Cox-Ingersoll-Ross sampler draws from the exact law", "statement": "In CirModel.sample_paths each step draws the next state from the exact transition law of dX = (theta - k X) dt + sigma sqrt(X) dW given the previous state: the expectation of exp(-l X) solves Kolmogorov's equation with the right initial value for every l >= 0. Several steps have the law of one step, mean and variance are those of the process, samples are non-negative and in the order of the requested times, and stateless seeds are never used twice.", "quantifier": "all positive theta, all mean reversions (also zero and negative), all non-zero sigma, all non-negative states, all positive time steps, all l >= 0", "why_tests_cant": "Tests compare sample means and variances of a few parameter sets within Monte Carlo error.", "anchors": ["tf_quant_finance/models/cir/cir_model.py"]}
{"id": "C64", "title": "A Douglas ADI step solves the difference equations of the multidimensional PDE", "statement": "A step of multidim_parabolic_equation_step with douglas_adi_scheme(theta) is an explicit Euler step with the whole spatial operator (central differences, mixed derivatives by four points, one-sided differences on default boundaries) followed by one implicit correction per dimension with weight theta, where the values on the boundaries are those that the boundary conditions at the time in question give. The conditions at the new time hold after the step; steady states are preserved exactly for every step size and weight; in one dimension the step is the weighted scheme; the differences are exact for polynomials of degree two; theta outside of [0, 1] is rejected; a backward heat equation can always be solved.", "quantifier": "all numbers of dimensions, all grid sizes of at least four points, all coefficients (present or absent, inner and outer) and Robin, Dirichlet, Neumann or default conditions depending on time and place, all weights and time steps for which the lines can be solved", "why_tests_cant": "Tests solve a few equations with known solutions on fixed grids within error bounds; a wrong sign at an edge or a condition at the wrong time can hide below the discretization error.", "anchors": ["tf_quant_finance/math/pde/steppers/multidim_parabolic_equation_stepper.py", "tf_quant_finance/math/pde/steppers/douglas_adi.py"]}
{"id": "C65", "title": "A stream of fixed coupons is priced as the present value of its own coupons", "statement": "For every batch of fixed coupon streams, the price of each stream is the sum over its own coupon periods of notional * rate * year fraction * discount factor at the payment date, counting the payments that are not before the valuation date. The coupon dates are those obtained from the start date forwards (or around an irregular first or last coupon), independently of the other streams of the batch and of the padding of the schedules. Setting up a stream with valid dates succeeds.", "quantifier": "all batches of any size, all dates from year 1, all periods in days, weeks, months and years, with or without an irregular first or last coupon, all three day counts, all notionals, rates and curves", "why_tests_cant": "Tests price a handful of streams with equal numbers of coupons; padding of shorter streams, stubs and payments on the valuation date are combinations that samples do not cover.", "anchors": ["tf_quant_finance/experimental/instruments/cashflow_stream.py"]}
{"id": "C66", "title": "A stream of floating coupons is priced with its own fixings and forward rates", "statement": "For every batch of floating coupon streams, the price of each stream is the present value of the coupons not before the valuation date, where a coupon pays multiplier * (rate + basis) over its period, with the fixing if its period has started and the forward rate of its reference period otherwise. On a single curve a plain stream before its start is worth notional * (D(start) - D(end)). A batch with a fixing can be priced.", "quantifier": "all batches of any size, all dates from year 1, all coupon periods and reference terms, with or without an irregular first or last coupon, all notionals, bases, multipliers and curves", "why_tests_cant": "Tests use one or two swaps whose reference term equals the coupon period, without basis, valued at the start.", "anchors": ["tf_quant_finance/experimental/instruments/cashflow_stream.py", "tf_quant_finance/experimental/instruments/rates_common.py"]}
{"id": "C67", "title": "Swaps, bonds, notes, rate agreements and Eurodollar futures are worth what their cashflows are worth", "statement": "The price of a swap is the value received minus the value paid, so the two sides have opposite values; the annuity is the value of unit coupons; a swap at its par rate is worth zero; on a single curve before its start a swap is worth notional * (D(start) - D(end)) minus the fixed coupons. A bond is worth its coupons and principal that are not in the past; a plain floating rate note is worth its notional at the start date; a forward rate agreement on a single curve is worth notional * (D(start) - (1 + rate * tau) * D(end)); a Eurodollar future is priced at 100 * notional * (1 - forward rate).", "quantifier": "all batches, dates, rates, notionals, day counts and curves", "why_tests_cant": "Tests compare a few contracts with stored numbers at one valuation date.", "anchors": ["tf_quant_finance/experimental/instruments/interest_rate_swap.py", "tf_quant_finance/experimental/instruments/bond.py", "tf_quant_finance/experimental/instruments/floating_rate_note.py", "tf_quant_finance/experimental/instruments/forward_rate_agreement.py", "tf_quant_finance/experimental/instruments/eurodollar_futures.py"]}
{"id": "C68", "title": "Futures on overnight rates settle on the rates of the business days of the reference period", "statement": "The price is 100 * (1 - R), where R compounds (or averages) the overnight rate of every business day of the reference period, each rate accruing up to the next business day or the end of the period. The accrual periods add up to the reference period: with equal overnight rates the averaging future settles at this rate, without holidays the compounding future settles at the simple rate of the whole period, and if no rate is negative the compounding future is not worth more than the averaging one.", "quantifier": "all reference periods, all calendars that roll forward, all day counts and curves", "why_tests_cant": "Tests price one or two contracts with stored numbers; holidays inside the period, at its end, and very short periods are not sampled.", "anchors": ["tf_quant_finance/experimental/instruments/overnight_index_linked_futures.py"]}
{"id": "C69", "title": "Caps, floors and swaptions are worth the discounted lognormal expectation of their payoffs", "statement": "CapAndFloor.price gives, for every contract of a batch, the sum over its periods with payment after the valuation date of notional times year fraction times discount factor times the value of the caplet or floorlet, which is the payoff at the fixing when the period has started, and otherwise the expectation of the payoff for a lognormal rate with mean equal to the forward rate. A cap minus a floor is the swap of the rate against the strike; the value is not below the intrinsic value. Swaption.price is the annuity times the lognormal expectation of the payoff of the swap rate, and a payer minus a receiver is the swap.", "quantifier": "all batches, dates, tenors, day counts, curves, strikes, volatilities and valuation dates", "why_tests_cant": "The identities hold for all notionals, fixings, curves and dates; tests price finitely many contracts.", "anchors": ["tf_quant_finance/experimental/instruments/cap_floor.py", "tf_quant_finance/experimental/instruments/swaption.py"]}
{"id": "C70", "title": "Rate curve: discount factors, interpolated rates and forward rates are consistent", "statement": "RateCurve discounts to each of its maturities with the rate supplied for it, discount factors are positive and one on the valuation date, interpolated rates stay within the bounds of the supplied ones, a flat curve is flat, and simple forward rates over consecutive periods compound to the ratio of the discount factors. Rates with periodic compounding are converted so that the discount factor of a maturity is (1 + r/n)^(-n t).", "quantifier": "all maturities in increasing order, rates, valuation dates, day counts and compounding frequencies", "why_tests_cant": "Consistency is an identity for all curves, times and compounding frequencies; tests evaluate finitely many.", "anchors": ["tf_quant_finance/experimental/instruments/rate_curve.py"]}
{"id": "C71", "title": "Brownian bridge no-touch probabilities", "statement": "brownian_bridge_single gives the ratio of the density of a Brownian motion killed at the barrier to the free density: it is the heat kernel minus its mirror image divided by the heat kernel. It is in (0, 1) for points on the same side, zero on the barrier, monotone, and consistent in time: splitting the bridge at an intermediate time and averaging the product of the two probabilities over the normal law of the position on the same side gives the probability of the whole. brownian_bridge_double is the truncated sum over the images in two barriers; it converges with an explicit error bound in n_cutoff, and the limit vanishes on both barriers.", "quantifier": "all start and end points, variances > 0, barriers and cutoffs", "why_tests_cant": "Tests compare a few numbers with reference values; identities over a continuum of intermediate positions and the error of the cutoff cannot be sampled.", "anchors": ["tf_quant_finance/black_scholes/brownian_bridge.py"]}
{"id": "C72", "title": "Nelson-Siegel-Svensson yields are means of the forward curve", "statement": "The interpolated yield at a time t > 0 is the mean over [0, t] of the instantaneous forward rate b0 + b1 e^(-s/tau1) + b2 (s/tau1) e^(-s/tau1) + b3 (s/tau2) e^(-s/tau2); it tends to b0 + b1 as t goes to 0 and to b0 as t goes to infinity.", "quantifier": "all parameters with nonzero (for the limits positive) decay times and all positive times", "why_tests_cant": "The mean is an integral identity for all parameters and times; the tests evaluate a few times for a few sets of parameters.", "anchors": ["tf_quant_finance/rates/nelson_seigel_svensson/nelson_seigel_svensson_interpolation.py"]}
{"id": "C73", "title": "Raw SVI smile", "statement": "The total variance of the raw SVI parameters is computed for exactly one way of giving the moneyness (log-moneyness, or forwards and strikes), is invariant under scaling of forward and strike, convex in the log-moneyness, has the minimum a + b sigma sqrt(1 - rho^2) and asymptotes with slopes b (rho + 1) and b (rho - 1); the implied volatility squared times the expiry is the total variance.", "quantifier": "all parameters with b >= 0 (for the minimum sigma >= 0 and rho^2 < 1), all moneyness and expiries > 0", "why_tests_cant": "The statements hold for all parameters and all strikes; tests evaluate finitely many.", "anchors": ["tf_quant_finance/experimental/svi/parameterizations.py"]}
{"id": "C74", "title": "Realized volatility", "statement": "realized_volatility gives the square root of the sum of squared log returns divided by the time steps, or the sum of absolute relative returns divided by the time steps, times the scaling factor; the scale the path is given in does not matter, nor does multiplying the path by a constant; n steps of constant growth g give sqrt(n) |log g| and n |g - 1|; the total log return is bounded by sqrt(n) times the statistic.", "quantifier": "all positive paths of any length, times and scaling factors", "why_tests_cant": "The identities hold for paths of every length and all values; tests use finitely many paths.", "anchors": ["tf_quant_finance/models/realized_volatility.py"]}
{"id": "C75", "title": "Geometric Asian options", "statement": "asian_option_price gives the discounted expected payoff of the geometric mean of the past fixings and of the prices at the sampling times, where the price is lognormal and driven by a Brownian motion (jointly normal values with covariance min(s, t)). With the expiry as the only sampling time it is the vanilla price; put-call parity holds with a forward at most the geometric mean of the forwards; exactly the unsupported arguments are refused.", "quantifier": "all admissible arguments, any number of sampling times in any order and of past fixings, every probability space carrying the Brownian motion", "why_tests_cant": "Tests compare with a few reference numbers; the expectation is over an n-dimensional normal law for every n.", "anchors": ["tf_quant_finance/black_scholes/asian_prices.py"]}
{"id": "C76", "title": "Bjerksund-Stensland values a call exercised at a flat boundary", "statement": "In bjerksund_stensland the exponent beta is a root of the characteristic polynomial and larger than one if the cost of carry b is below the rate r; the exercise boundary then exists, lies below that of the perpetual option, and is at least its limit at expiry exactly when b t + 2 sigma sqrt(t) >= 0. The function phi solves the Black-Scholes equation, vanishes at the boundary and tends to its payoff at expiry; hence the 1993 value is that of a call exercised when the spot first reaches the boundary, with value matching there. In the 2002 formula psi vanishes and values match at the second boundary. Prices are homogeneous in spot and strike, symmetric under exchange of put and call, European for calls with dividend rate <= 0, the payoff at expiry, and arguments are rejected exactly as documented. Deviations: every put with rate zero (the default) is not a number, and for long expiries with negative carry prices are negative.", "quantifier": "all real inputs with positive volatility, spot and strike; all expiries", "why_tests_cant": "The equation, boundary and limits are statements about all spots and times; sample prices do not show where the boundary drops below the strike.", "anchors": ["tf_quant_finance/black_scholes/approximations/american_option.py"]}
{"id": "C77", "title": "Barone-Adesi-Whaley: value matching, smooth pasting and bounds", "statement": "In adesi_whaley the exponent is the positive (call) or negative (put) root of the quadratic of the approximation, larger than one for calls with nonnegative dividend rate. At any critical price the value of holding exceeds the exercise value by the function whose root is searched and has exactly its slope; the premium solves the equation of the approximation. With nonnegative dividend rate the option is worth at least the European option, and at least the exercise value plus the remaining gap where it is held. A price reported as converged comes from a positive critical price whose gap is within the tolerance. Calls with dividend rate <= 0 are European; prices at expiry are payoffs; arguments are rejected exactly as documented. Deviation: at rate zero the exponent differs from its limit.", "quantifier": "all real inputs with positive volatility, strike, expiry and critical price, nonzero rate; all tolerances and iteration counts", "why_tests_cant": "Value matching, smooth pasting and the lower bounds hold on whole ranges of spots; tests compare a table of prices.", "anchors": ["tf_quant_finance/black_scholes/approximations/american_option.py"]}
{"id": "C78", "title": "SABR implied volatilities and prices are Hagan's formulas", "statement": "The lognormal and normal volatilities of implied_volatility equal Hagan's formulas (A.69) for the shifted forward and strike, with the factor zeta/xhat equal to zeta divided by the integral of 1/sqrt(1-2 rho y+y^2) where |zeta| exceeds the threshold, and within the threshold of it everywhere; the factor is positive and within |zeta| of 1. The volatilities scale with the units, depend on the shift only through forward and strike, are exact without volatility of volatility for beta 1 (lognormal) and beta 0 (normal), have the at-the-money values of the formula, and are symmetric under exchange of forward and strike with a change of sign of rho when rho*beta is zero. Their sign is that of the expansion in the expiry. Option prices are expectations of the payoff under the law with that volatility, and put-call parity holds. Deviation: the volatility can be negative for documented arguments, and the price is then the intrinsic value.", "quantifier": "all real alpha>0, beta, volvol, |rho|<1, positive shifted forward and strike, all expiries and thresholds >= 0", "why_tests_cant": "The identities and the error bound of the threshold hold on a continuum of parameters; tests compare a few volatilities.", "anchors": ["tf_quant_finance/models/sabr/approximations/implied_volatility.py", "tf_quant_finance/models/sabr/approximations/european_options.py"]}
{"id": "C79", "title": "SABR calibration stays within its bounds and starts where it should", "statement": "The transformation of a parameter is a strictly increasing bijection of the reals with the open interval between its bounds, and inverse to the transformation of starting values. Whatever the optimizer returns, calibrated parameters are strictly between their bounds and beta is unchanged unless it is calibrated; an optimizer returning its start returns the caller's parameters. The default alpha gives a volatility of ten per cent at the mean forward. Losses are nonnegative and zero exactly where all volatilities, or prices, match. With validate_args the call fails exactly if a starting value is outside its bounds. With the default bounds the result is always admissible. Deviation: a starting value on its bound, which validate_args accepts, gives an infinite start.", "quantifier": "all quotes, bounds, starting values, optimizers and targets", "why_tests_cant": "The optimizer is arbitrary; tests run one optimizer on a few quotes.", "anchors": ["tf_quant_finance/models/sabr/approximations/calibration.py"]}
{"id": "C80", "title": "Grids: spacing, ends and extra points", "statement": "uniform_grid gives on each axis the asked number of points from the minimum to the maximum with equal gaps, strictly increasing; log_uniform_grid gives positive points with equal ratios; rectangular_grid returns the given axes and rejects an empty list; shapes and, with validate_args, bounds and sizes are rejected exactly as documented. The grids with an extra point are on each axis the sorted list of that grid and the point; ends stay if the point is between them; the result is strictly increasing exactly if the point is not yet in the grid. Deviation: a point already in the grid is added a second time, giving a gap of zero.", "quantifier": "all dimensions, bounds, sizes >= 2 and extra points", "why_tests_cant": "Equal gaps for all bounds and sizes and the exact failure conditions are universal statements; tests use a few grids.", "anchors": ["tf_quant_finance/math/pde/grids.py"]}
{"id": "C81", "title": "Two-dimensional interpolation: natural splines in y, linear in x", "statement": "Interpolation2D takes the data at all knots; on the line of each x knot it is the natural cubic spline of the row, continued by constants; between x knots it is the linear interpolation of the two row splines and outside it equals the first or last row; functions a + b x + c y + d x y are reproduced inside the data.", "quantifier": "all increasing x data, rows of at least three increasing y knots (different for each row), all values and points", "why_tests_cant": "The statements hold at all points and for all data; tests compare a few interpolated values.", "anchors": ["tf_quant_finance/math/interpolation/interpolation_2d/interpolation_2d.py"]}
{"id": "C82", "title": "Heston option prices: characteristic function and Attari's formula", "statement": "The argument of the complex logarithm in char_fun never meets the branch cut, no denominator vanishes, and the exponents solve the Riccati equations of the Heston model with zero initial values, so exp(iux) times char_fun solves the backward Kolmogorov equation with terminal value exp(iux); char_fun is 1 at zero and bounded by 1. For every law of the log price with a first moment and mean forward whose characteristic function is char_fun, the integrand is integrable and forward - strike*(0.5 + integral/pi) is exactly the expectation of the call payoff; the part of the integral outside [lower, upper] is at most 1/upper + lower*(1+E|X-k|), and the returned price differs from the discounted expectation by at most strike*eps/pi*discount where eps is the error of the quadrature. Put-call parity holds exactly for every quadrature. Forward and discount factor are those of the arguments, and the call fails exactly for the documented combinations or if the integration fails.", "quantifier": "all mean reversions > 0, volvol > 0, |rho| <= 1, all real u, all expiries >= 0, all laws, strikes and forwards > 0", "why_tests_cant": "The branch cut and the differential equations concern a continuum of complex numbers; tests compare a few prices with reference values.", "anchors": ["tf_quant_finance/models/heston/approximations/european_option.py", "tf_quant_finance/math/integration/integrate.py"]}
{"id": "C83", "title": "Heston calibration stays within its bounds and prices the quotes", "statement": "Whatever the optimizer returns, each calibrated parameter lies strictly between its bounds; an optimizer returning its start returns the caller's parameters. The prices in the loss are those of the quoted options with the supplied market data; the loss is nonnegative and zero exactly where all prices match. The call fails exactly for the documented combinations of market data or, with validate_args, if a starting value is outside its bounds. With the default bounds the calibrated parameters satisfy the hypotheses under which the characteristic function is right and bounded. Deviation: a starting value on a bound, which validate_args accepts, gives an infinite start.", "quantifier": "all quotes, market data, bounds, starting values and optimizers", "why_tests_cant": "The optimizer is arbitrary; tests run one optimizer on a few quotes.", "anchors": ["tf_quant_finance/models/heston/approximations/calibration.py"]}
{"id": "C84", "title": "The bond curve reprices the bonds it is built from", "statement": "If bond_curve says that it has converged, there are positive discount factors at the expiries, each within the tolerance of the returned one, whose monotone convex curve gives every bond a value that differs from its price, discounted from settlement, by at most the tolerance times its last cashflow. One step leaves discount factors unchanged exactly if their curve reprices every bond; started at such a curve the construction returns it after one iteration. Zero-coupon bonds are priced exactly after at most two iterations whatever the start. A failed construction has not converged and returns neither rates nor factors; there are at most maximum_iterations steps, and fewer only with a flag. The call is rejected exactly for lists of different lengths, fewer than two bonds or, with validate_args, times that do not increase from settlement or a last cashflow that is not the largest. Deviations: the interpolation divides zero by zero on some curves, so that bonds with an exact curve fail even when started at it; a negative discount factor from the last permitted step is returned without the flag for failure.", "quantifier": "all lists of bonds in the order of their expiries, all starting rates, tolerances and numbers of iterations", "why_tests_cant": "The repricing bound is for any number of bonds, cashflows and iterations; tests check a few bonds.", "anchors": ["tf_quant_finance/rates/hagan_west/bond_curve.py"]}
{"id": "C85", "title": "The bootstrapped swap curve reprices the swaps it is built from", "statement": "If swap_curve_bootstrap says that it has converged, there are positive discount factors at the expiries, each within the tolerance of the returned one, whose interpolated curve gives every swap a value that differs from its price by at most the tolerance times the sensitivity of its value. One step leaves the discount factors unchanged exactly if the curve reprices every swap; started at such a curve the bootstrap returns it after one iteration. This holds for each way of discounting the legs and every interpolator that returns its samples. There are at most maximum_iterations steps and fewer only if it has converged. Deviations: settlement times are ignored; failure is never reported; legs that end at different times converge to a curve that does not reprice; swaps with one fixed payment are rejected, or take the sums of another swap; with only a floating discount curve the fixed leg uses that curve.", "quantifier": "all lists of swaps in the order of their expiries, interpolators, discount curves, starting rates, tolerances and numbers of iterations", "why_tests_cant": "The repricing bound is for any number of swaps, payments and iterations and any interpolator; tests check a few swaps.", "anchors": ["tf_quant_finance/rates/swap_curve_bootstrap.py", "tf_quant_finance/rates/swap_curve_common.py"]}
{"id": "C86", "title": "The objective of the fitted swap curve is zero exactly if every swap is repriced", "statement": "The objective that swap_curve_fit minimizes is the weighted sum of the squared differences between the value of each swap at its settlement time and its price. With positive weights it is not negative, and zero exactly if the curve reprices every swap; the default weights are positive and at most one. For prices as of now its zeros are exactly the curves that a step of the bootstrap leaves unchanged. Whatever the optimizer returns, the returned discount factors are those of the returned rates at the expiries. The call is rejected exactly if no starting rates are given.", "quantifier": "all lists of swaps, weights, interpolators, discount curves, starting rates and optimizers", "why_tests_cant": "The equivalence is for any number of swaps and any curve; tests run one optimizer on a few swaps.", "anchors": ["tf_quant_finance/rates/swap_curve_fit.py"]}
{"id": "C87", "title": "The conjugate gradient method descends, tells the truth and solves quadratic problems in finitely many steps", "statement": "Whatever line search is used, provided it returns a point of the line and does nothing if told so: the value and gradient that minimize returns are those at the position it returns; a member said to have converged has every component of its gradient within the tolerance, or has changed its position or value by no more than their tolerances; every direction descends, by at least three quarters of the square of the gradient; there are at most max_iterations iterations and fewer only if the condition for stopping holds. On a quadratic objective in n dimensions whose eigenvalues are within a factor of two divided by psi_1 and at most that number, the minimum is found to the tolerance in at most n iterations, without the line search. Deviations: the first step of a member depends on the other members; a converged member can lose its flag; a failed member moves on; the first test uses another norm than documented.", "quantifier": "all dimensions, objectives, starts, parameters, tolerances and line searches", "why_tests_cant": "Finite termination and descent are for all quadratic objectives, dimensions and line searches; tests minimize a few functions.", "anchors": ["tf_quant_finance/math/optimizer/conjugate_gradient.py"]}
{"id": "C88", "title": "Market data of the pricing platform: rate curves, fixings and curve selection", "statement": "A rate curve with increasing times gives back its discount factors at its nodes for every interpolation method, whether rates or discount factors are interpolated; its rates and factors are consistent, D = exp(-r t); the forward rate F between two dates satisfies (1 + tau F) D(end) = D(start); new nodes are accepted exactly if there is one per node. Day count conventions, business day rules and periods of the platform map to those of the library. A fixing is the one of the first fixing date on or after the date asked for, or the last. Curves are told apart by a signature that is injective on known currencies and rate indices; each row of a batch of curves with as many nodes gives, with Actual/365 and the interpolation of the last curve, the discount factors of its own curve. Deviations: curves with different numbers of nodes cannot be batched although they are padded; the day count convention of a curve is lost in a batch; dates and times cannot be mixed; quarters have no counterpart.", "quantifier": "all curves, dates, times, conventions, fixing tables, batches", "why_tests_cant": "Round trips at nodes and row independence are for all curves and batches; tests use finitely many curves.", "anchors": ["tf_quant_finance/experimental/pricing_platform/framework/market_data/rate_curve.py", "tf_quant_finance/experimental/pricing_platform/framework/market_data/market_data_impl.py", "tf_quant_finance/experimental/pricing_platform/framework/market_data/utils.py", "tf_quant_finance/experimental/pricing_platform/framework/rate_instruments/cashflow_streams.py"]}
{"id": "C89", "title": "Cashflow streams of the pricing platform", "statement": "A fixed stream is worth the sum over the coupons ending on or after the valuation date of notional times rate times year fraction times discount factor. The rate of a floating coupon is zero if it is paid before the valuation date, the forward rate over its accrual period if it has not begun, and the past fixing otherwise; the price is the discounted sum. A floating stream that has not begun, without spread, whose coupons accrue to their ends, discounted on its own curve, is worth notional times D(start) - D(end). Generated schedules are the rolled start, the regular dates and the rolled end, in order. In a batch with several curves each row gets the fixing of its own curve. Deviations: paid coupons still count with their spread; past fixings are multiplied by the year fraction twice; a stream of one coupon counts twice; the short last coupon of a generated schedule pays the interest of a full period; with the end of month rule the dates may go beyond the end and back; a first coupon date loses the accrual before it; a penultimate date is ignored; a schedule function is not called.", "quantifier": "all dates, notionals, rates, spreads, curves, conventions, batches", "why_tests_cant": "The valuation formulas and the telescoping hold for all schedules and curves; tests price a few streams with particular dates.", "anchors": ["tf_quant_finance/experimental/pricing_platform/framework/rate_instruments/cashflow_streams.py"]}
{"id": "C90", "title": "Interest rate swaps of the pricing platform: grouping, batching, price, annuity and delta", "statement": "Grouping puts every swap in exactly one group, the one of its key, in order. Making batches from protocol buffers never fails, and a batch has exactly the dates, names and leg terms of its swaps in order; a swap that pays floating and receives fixed is stored with exchanged legs and negated amounts, which does not change its price. The price is the receive leg minus the pay leg; a payer swap that has not begun, on one curve, is worth N(P(T0) - P(Tn)) - N R A with the annuity A, and the par rate makes it zero. There is no annuity without exactly one fixed leg. The delta is the price change divided by the shock, and bumped nodes fall with the bump and are unchanged for bump zero. Deviations: a period of years is stored as as many months; there is no annuity or par rate when the discount curves are a list, as they are for swaps made from coupon specifications; there is no delta for a given curve type; the annuity counts payments of the past.", "quantifier": "all lists of protocol buffers, legs, curves, dates, shocks", "why_tests_cant": "Grouping and order preservation are for all lists, the value formula for all schedules and curves; tests batch a few swaps and compare a few prices.", "anchors": ["tf_quant_finance/experimental/pricing_platform/framework/rate_instruments/interest_rate_swap/proto_utils.py", "tf_quant_finance/experimental/pricing_platform/framework/rate_instruments/interest_rate_swap/interest_rate_swap_impl.py", "tf_quant_finance/experimental/pricing_platform/framework/rate_instruments/utils.py"]}
{"id": "C91", "title": "Forward rate agreements of the pricing platform", "statement": "The price is notional times year fraction times (F - K) discounted, with F from (1 + tau F) P(end) = P(start); on one curve this is N(P(start) - (1 + tau K) P(end)) in the convention of the code, it is zero exactly for K = F, and an empty period is worth nothing. Long and short positions are opposite. For every rule without end of month the accrual period starts the settlement days after the fixing date moved by the rule, and ends on the start plus the term, moved by the rule. Batches from protocol buffers have exactly the terms of their agreements in order. Deviations: the position documented as lending at the fixed rate loses when the fixed rate rises; with an end of month rule the end can be a day of the weekend; terms of years become months.", "quantifier": "all dates, rates, notionals, curves, terms, lists of protocol buffers", "why_tests_cant": "The value formula, the fair rate and the date rules hold for all inputs; tests price a few agreements.", "anchors": ["tf_quant_finance/experimental/pricing_platform/framework/rate_instruments/forward_rate_agreement/forward_rate_agreement_impl.py", "tf_quant_finance/experimental/pricing_platform/framework/rate_instruments/forward_rate_agreement/proto_utils.py"]}
{"id": "C92", "title": "Swaptions of the pricing platform", "statement": "The Hull-White pricer gets the times of the expiry, the floating periods and the fixed payments in days from the valuation divided by 365, the year fractions of the legs, the fixed rate for each payment, the side and the notional of the paid leg: paying fixed is a payer swaption, paying floating a receiver swaption. The rate for the time of a date is read at that date; times are rounded to the nearest day, halves to the even one. Swaptions from protocol buffers: one instrument per key of the underlying swaps with the expiries, names and swaps of all its swaptions in order (the single batch taken is the only one). Deviation: a swaption to receive fixed made from a protocol buffer is priced as a short payer swaption, worth at most zero, while its value is at least zero.", "quantifier": "all swaps, dates, lists of protocol buffers, model parameters", "why_tests_cant": "Batching is a statement about all lists of contracts, the date round trip about all dates; tests price finitely many swaptions.", "anchors": ["tf_quant_finance/experimental/pricing_platform/framework/rate_instruments/swaption/swaption_impl.py", "tf_quant_finance/experimental/pricing_platform/framework/rate_instruments/swaption/proto_utils.py", "tf_quant_finance/experimental/pricing_platform/framework/rate_instruments/interest_rate_swap/proto_utils.py"]}
{"id": "C93", "title": "Heath-Jarrow-Morton models: bond prices without arbitrage, state covariance, discount factors", "statement": "The zero coupon bond price as function of the states x and y solves the pricing equation whose drift, diffusion and discount rate are those used by the sampler of the quasi-Gaussian model, for every volatility function, any number of factors, any correlation L L^T and differentiable discount curve. It is one at maturity, equals the ratio of initial curve prices for zero states, and its logarithmic maturity derivative at t is the short rate of the sampler. The matrices y of all sampled states stay symmetric. In the Gaussian model with piecewise constant volatilities the closed form of y is the covariance integral, moves with the drift of the base class between jumps, and bond prices as a function of x alone solve the pricing equation. Discount factors on a grid are exp of minus the sum of right-end (quasi-Gaussian) or left-end (Gaussian) rates times steps. The root of a correlation matrix with eigenvalues at least 1e-5 is exact. Deviations: smaller eigenvalues are raised to 1e-5, so perfectly correlated factors get variances 1+5e-6; factors whose volatilities have different jump times give a wrong and asymmetric matrix y.", "quantifier": "all states, times, parameters, volatility functions, curves, numbers of factors", "why_tests_cant": "No arbitrage is an identity of functions for all states and curves; tests compare simulated bond prices within a tolerance for finitely many parameters.", "anchors": ["tf_quant_finance/models/hjm/quasi_gaussian_hjm.py", "tf_quant_finance/models/hjm/gaussian_hjm.py"]}
{"id": "C94", "title": "Options in Heath-Jarrow-Morton models: bond options, caps and floors, swaptions", "statement": "The flat gather indices are in the order of the shape [samples, options, dim]. Every bond option of a batch is priced as the mean over paths of its own payoff at its own expiry and maturity, times the path's discount factor from the first sampled time. A cap or floor is the sum over periods that do not start in the past of notional times the mean of the discounted caplet value, the payoff of the simple rate over the period. A European swaption by simulation is the notional times the mean of the discounted payoff for bond prices of the path at the expiry; payer minus receiver is the mean discounted swap. The finite difference method has the same payoff, steps from each grid time to the one before, and for one expiry and a number of steps has a sorted time grid from zero containing the expiry; with an odd number of points the price is read at state zero. Deviations: nothing is discounted up to the first sampled time (C56); given times without the expiry silently use the next later time; swaptions that expired in the past are not set to zero; with an even number of points the price is read half a step off; without step size and number the documented default fails.", "quantifier": "all batches of options, paths, numbers of samples, grids", "why_tests_cant": "Index bookkeeping and payoff identities are for all batch sizes and paths; tests price finitely many options.", "anchors": ["tf_quant_finance/models/hjm/zero_coupon_bond_option_util.py", "tf_quant_finance/models/hjm/cap_floor.py", "tf_quant_finance/models/hjm/swaption_util.py", "tf_quant_finance/models/hjm/swaption_pricing.py"]}
{"id": "C95", "title": "Local volatility from an implied volatility surface", "statement": "The local volatility computed from prices makes the call prices satisfy Dupire's forward equation wherever they are convex in the strike and the calendar condition holds; in terms of the surface it is the square root of the positive part of Dupire's formula in implied volatilities for the forward of the discount curve. A flat surface is its own local volatility; a surface without strike dependence gives the time derivative of total variance. The asset grows at rate minus dividend yield and its correlations are those of the Cholesky factor. The precomputed model samples only on its own grid. Deviations: the formula in implied volatilities multiplies d1 by the time instead of its square root, so it is right only at time 1 or without strike slope; its d1 and the moneyness of quotes use the instantaneous rate as if it were the average rate, right exactly for a flat curve; the precomputed version uses at a grid time the volatilities of the grid time before.", "quantifier": "all smooth surfaces, discount curves, dividend yields, times and strikes", "why_tests_cant": "An identity between two formulas with derivatives of an arbitrary surface; tests use finitely many surfaces and tolerances.", "anchors": ["tf_quant_finance/experimental/local_volatility/local_volatility_model.py"]}
{"id": "C96", "title": "Calibration of Hull-White and Heath-Jarrow-Morton models", "statement": "Whatever the optimizer returns, mean reversions and volatilities lie strictly between their bounds, the Hull-White volatility keeps its jumps, and the hypersphere decomposition of any angles is a correlation matrix (positive semidefinite, unit diagonal, entries between -1 and 1). Conversely every choice of parameters between the bounds and every correlation matrix is the result of some position. The first position stands for the given parameters; the initial angles are between their bounds. The loss is not negative and zero exactly where the model gives the targets, and targets are scaled to between 0 and 1. Deviations: a missing notional fails where 1 is documented; a mean reversion with jumps always fails; if the largest target is zero the loss is never a number; batches of HJM models fail except batches of two without correlation; angles are clipped in the loss but not in the result.", "quantifier": "all optimizers, positions, numbers of factors, correlation matrices, targets, models", "why_tests_cant": "That angles give exactly the correlation matrices, and that results stay between the bounds for every optimizer, are statements over all real inputs; tests calibrate to finitely many instruments.", "anchors": ["tf_quant_finance/models/hull_white/calibration.py", "tf_quant_finance/models/hjm/calibration.py"]}
{"id": "C97", "title": "Calibration of a raw SVI smile", "statement": "Whatever the optimizer returns, the calibrated parameters have positive slope and width, correlation strictly between -1 and 1, and positive total variance at every strike; each valid smile is recovered exactly from its position and each position from its smile, so valid initial parameters are kept by an optimizer that does not move. The loss is not negative and zero exactly where all quoted volatilities are met. The heuristic start has its vertex at a quote of least total variance, correlation zero, width one half, and its level and slope are the least squares fit; where the fit is negative or undefined the start uses one.", "quantifier": "all optimizers, quotes, weights, forwards, expiries, initial parameters", "why_tests_cant": "Inverse maps on an unbounded parameter space, and optimality among all smiles; tests calibrate a few smiles.", "anchors": ["tf_quant_finance/experimental/svi/calibration.py"]}
{"id": "C98", "title": "Sampling of the SABR model", "statement": "Exactly the documented parameters are accepted. The Euler scheme has the covariance of the SABR model, is a martingale in forward and volatility and keeps absorbed paths. In the other scheme the volatility is sampled exactly (mean and composition of steps), the integrated variance lies between those of the two end volatilities, forwards are never negative and stay at zero after absorption, the quadratic of a normal draw has mean and variance of the noncentral chi-square distribution with the degrees of freedom of the model, both ways to the next forward invert the change of variable, the gradient of the truncated distribution function is its derivative and the truncation misses the distribution function by at most the Poisson probability of the terms left out. Every requested time is reached by steps of the given length and a shorter last one, and the prepared draws are enough.", "quantifier": "all parameters, states, draws, time steps and lists of requested times; all root finders", "why_tests_cant": "Tests compare sample means with Monte Carlo tolerance; the distribution, the error bound of the truncation and the number of draws hold for all inputs.", "anchors": ["tf_quant_finance/models/sabr/sabr_model.py", "SabrModel", "ncx2cdf_and_gradient"]}
{"id": "C99", "title": "American options by the method of Andersen and Lake", "statement": "The fixed point equation iterated for the exercise boundary is equivalent to value matching in Kim's integral representation, and when the loop reports convergence the mismatch is bounded by the tolerance and the errors of the quadratures. The starting boundary is the limit of the boundary at maturity. For rates that are not negative a price is always computed. Calls and puts satisfy the McDonald-Schroder symmetry. At expiry or without rates the price is the European price, and a put without dividends is worth at least the European put.", "quantifier": "all spots, strikes, rates, volatilities, expiries, boundaries, grids, tolerances and supported numbers of quadrature points", "why_tests_cant": "Tests compare a few prices with tabulated ones; they do not show that the fixed point is the equation of the exercise boundary, nor cover all signs of the rates, where the assertion on the denominator fails.", "anchors": ["tf_quant_finance/experimental/american_option_pricing/common.py", "tf_quant_finance/experimental/american_option_pricing/exercise_boundary.py", "tf_quant_finance/experimental/american_option_pricing/andersen_lake.py", "standard_normal_cdf", "boundary_numerator", "boundary_denominator", "exercise_boundary", "andersen_lake"]}
{"id": "C100", "title": "Local stochastic volatility", "statement": "The covariance of the increments is that of the model with the given correlation. The grid runs from the lower to the upper bounds and increases strictly. After each step the joint density is not negative and integrates to one; the conditional variance is a mean over the grid, and the leverage satisfies L^2 E[v|S] = sigma^2 at the grid points. The coefficients of the partial differential equation are those of the Fokker-Planck equation with the leverage of the step before, and the loop fills each entry of the leverage table once.", "quantifier": "all correlations, leverage functions, states, grids, densities, local volatilities, time steps and end times", "why_tests_cant": "The covariance and the place of each coefficient on the grid are identities for all grids and coefficients; tests compare finitely many results of simulations with a tolerance.", "anchors": ["tf_quant_finance/experimental/local_stochastic_volatility/lsv_variance_model.py", "tf_quant_finance/experimental/local_stochastic_volatility/local_stochastic_volatility_model.py", "LSVVarianceModel", "LocalStochasticVolatilityModel", "_leverage_function_using_pde", "_tavella_randell_nonuniform_grid", "_two_d_integration"]}
{"id": "C101", "title": "Constant maturity swaps", "statement": "The weight of the rate is the reciprocal of the annuity of the swap at a flat rate, discounted to the payment. The adjusted rates of the two simple convexity models are the exact means in the payment measure for an affine weight and a lognormal or normal rate. The replication adds the integrals of calls and puts with the weights of the exact replication formula. The price is the sum over the coupons of notional, day count, multiplier times adjusted rate plus basis, and discount factor; coupons that have ended are worth nothing and fixed coupons keep their rate.", "quantifier": "all swap terms, rates, volatilities, expiries, laws of the rate with bounded support, coupons and valuation dates", "why_tests_cant": "The valuation formulas hold for all schedules, curves, bases and valuation dates; tests compare finitely many prices.", "anchors": ["tf_quant_finance/experimental/instruments/cms_swap.py", "CMSCashflowStream", "CMSCashflowStream.price", "CMSCashflowStream._adjust_convexity", "_option_prices", "CMSCashflowStream._convexity_smile_replication", "CMSCashflowStream._fs", "CMSSwap"]}
{"id": "C102", "title": "Asian options in the model of Heston", "statement": "The transform of the logarithm of the geometric mean solves the backward equation of the model between the sampling times, has the right jumps at them and the right value at expiry; it is one at zero, at one it is the positive forward, and with one sampling at expiry it is the transform of the plain option. If it is the transform of a law, the pricing formula is the expected discounted payoff of call or put. Past fixings enter as they do in the payoff, put-call parity holds for every rule of integration, and wrong arguments are refused.", "quantifier": "all parameters of the model, strikes, sampling times, past fixings, rates, arguments of the transform, laws and numbers of points", "why_tests_cant": "The transform is a statement about a continuum of complex arguments and parameters, including the branch of the logarithm and vanishing roots; tests compare finitely many prices with a tolerance.", "anchors": ["tf_quant_finance/models/heston/approximations/asian_prices.py", "asian_option_price", "_AsianPricesHandler", "_AsianPricesHandler.f", "_AsianPricesHandler.f_tilde", "_AsianPricesHandler.a", "_AsianPricesHandler.z", "_AsianPricesHandler.omega_k", "_AsianPricesHandler.omega_tilde_k", "_AsianPricesHandler.phi", "_AsianPricesHandler.integrand"]}
{"id": "C103", "title": "Random draws have the requested shape, law and order", "statement": "A draw of normal vectors has the shape of the samples, the batch and the dimension, each vector is the mean plus the scale matrix times its own normal numbers and so has the normal law with the given mean and covariance, independent between samples. Antithetic partners add up to twice the mean. Draws from low discrepancy sequences use each point of the sequence exactly once, all coordinates of one vector from one point, through the normal quantile function. Uniform draws take the points in order. The stateless shuffle is a permutation, each with the same probability. Missing or contradictory arguments are refused.", "quantifier": "all shapes of samples and batches, dimensions, means, matrices, seeds, skips and generators", "why_tests_cant": "A law is not determined by its first moments, and that no point is used twice is a statement about all sizes; tests compare finitely many samples.", "anchors": ["tf_quant_finance/math/random_ops/multivariate_normal.py", "tf_quant_finance/math/random_ops/uniform.py", "tf_quant_finance/math/random_ops/stateless.py", "multivariate_normal", "_mvnormal_pseudo", "_mvnormal_pseudo_antithetic", "_mvnormal_quasi", "_process_mean_scale", "uniform", "_quasi_uniform", "stateless_random_shuffle"]}
{"id": "C104", "title": "The legacy Brownian motion has independent normal increments with the given drift and covariance", "statement": "BrownianMotion of models/legacy refuses a dimension below one and integrated coefficients without coefficients. With constant or missing coefficients its integrated drift over an interval is the drift times the length and its integrated covariance is the volatility times its transpose times the length, in the shape of the times with the dimensions appended. sample_paths starts from the initial state, and its increments are the drawn vectors; of independent standard normal numbers these are independent over paths and intervals and normal with these means and covariances. Where the integrated coefficients are not known, the Euler scheme runs on a sorted grid from zero that contains the requested times and has no gap above the grid step, and returns the states at the requested times in order; with constant coefficients the steps add up to the time.", "quantifier": "for all dimensions, coefficients, times, numbers of paths, initial states, generators, grid steps and numbers drawn", "why_tests_cant": "Independence of the increments, and that each grid contains all times for all steps, are statements about laws and all grids; tests compare sample moments of finitely many processes.", "anchors": ["tf_quant_finance/models/legacy/brownian_motion.py", "tf_quant_finance/models/legacy/brownian_motion_utils.py", "tf_quant_finance/models/legacy/ito_process.py", "BrownianMotion", "sample_paths", "_exact_sampling", "construct_drift_data", "construct_vol_data", "outer_multiply", "_covar_from_vol", "_ensure_matrix", "_prepare_grid", "_sample_paths"]}
{"id": "C105", "title": "Broadcasting to a common shape gives the least common shape and repeats the elements", "statement": "common_shape returns the least shape to which all arguments broadcast, and fails exactly when there is none. broadcast_tensors returns tensors of this shape in which each element is the element of the argument at the index it broadcasts from. broadcast_common_batch_shape does the same to the leading dimensions and leaves the trailing event dimensions as they are, and refuses event ranks of another number than the arguments.", "quantifier": "for all numbers of arguments, shapes, elements and positive event ranks", "why_tests_cant": "The tests try a few pairs of shapes. They cannot show minimality of the common shape nor that failure happens only for incompatible shapes.", "anchors": ["tf_quant_finance/utils/shape_utils.py", "get_shape", "common_shape", "broadcast_tensors", "broadcast_common_batch_shape"]}
{"id": "C106", "title": "The iteration over nested dictionaries yields each leaf once with its path", "statement": "iterate_nested yields exactly the pairs of the previous keys followed by the path of keys of a leaf, and this leaf; each path once, in depth first order, which is the lexicographic order of the positions of the keys. Empty dictionaries yield nothing.", "quantifier": "for all nested dictionaries of any depth and all previous keys", "why_tests_cant": "The tests iterate over a few small dictionaries; depth, width and empty dictionaries inside are unbounded.", "anchors": ["tf_quant_finance/utils/tf_functions.py", "iterate_nested", "_is_nested"]}
{"id": "C107", "title": "The helpers of the quasi random sequences are exact and keep the uniform law", "statement": "exp2 is the power of two cut at the largest number of the integer type, signed or unsigned. log2 inverts the power of two, and its ceiling is the least number of digits with which the results can be numbered. filter_tensor keeps a value exactly where the bit of the mask is set. tent_transform maps the unit interval to itself and preserves the uniform law on it, and in all coordinates on the unit cube.", "quantifier": "for all type sizes, values, masks, bit indices, dimensions and measurable sets", "why_tests_cant": "That the law is preserved is a statement about all points, and exactness about all sizes; tests evaluate finitely many vectors.", "anchors": ["tf_quant_finance/math/qmc/utils.py", "exp2", "log2", "tent_transform", "filter_tensor"]}
{"id": "C108", "title": "Operations on tensors of dates and periods move whole elements", "statement": "concat, stack, where, expand_dims, reshape, identity, broadcast_to, transpose, squeeze, boolean_mask and indexing of a DateTensor move year, month, day and ordinal together: of tensors in which the four agree they make one in which they agree, each date of which is the date of an argument that the same operation takes from plain tensors, and they fail where it fails. Of PeriodTensors the quantities are combined, and different period types are refused, also in sums and differences. Adding periods one after the other is adding their sum, for days and weeks, and for months and years if the day is at most 28.", "quantifier": "for all shapes, axes, permutations, masks, keys, dates and quantities", "why_tests_cant": "That the four tensors never come apart is a statement about all shapes and operations; tests try finitely many shapes.", "anchors": ["tf_quant_finance/datetime/tensor_wrapper.py", "tf_quant_finance/datetime/periods/period_tensors.py", "tf_quant_finance/datetime/date_tensor.py", "TensorWrapper", "PeriodTensor", "_apply_sequence_to_tensor_op", "_apply_op"]}
{"id": "C109", "title": "Forward gradients, gradients and jacobians are the derivatives", "statement": "fwd_gradient, which differentiates in reverse mode twice, gives the derivative of each value in the direction of the input gradients, by default the direction of ones; for a function of the entries one by one it gives the derivative in each entry, and applied twice the second derivative. gradients gives for each tensor the partial derivatives of the sum of the values weighted with the output gradients, value_and_gradient and make_val_and_grad_fn also the value. jacobian and value_and_jacobian give the jacobian of each row of the batch if the function acts on the rows one by one, and of a vector its jacobian.", "quantifier": "for all functions, arguments, directions and weights, of all sizes", "why_tests_cant": "The statements hold for all functions and points; tests differentiate finitely many functions.", "anchors": ["tf_quant_finance/math/gradient.py", "tf_quant_finance/math/jacobian.py", "fwd_gradient", "gradients", "value_and_gradient", "make_val_and_grad_fn", "jacobian", "value_and_jacobian"]}
{"id": "C110", "title": "American equity options of the pricing platform", "statement": "The samples of bs_lsm_price are those of the Black-Scholes model with the volatility of the option and the rate of its discount factor, and the discounted samples have mean one. The price is the mean over the paths of the discounted payoffs under an exercise policy fitted by least squares to these payoffs, and with the default basis and without separate calibration samples it is at least the value of immediate exercise. The holder has the price times the amount, the other side the opposite. A volatility surface turns dates into times, goes through its nodes, and refuses dates and times together. Every option gets the market data of its currency and equity. Protocol buffers are put into batches by their key, with all terms in order.", "quantifier": "for all options, Brownian motions, bases, volatility surfaces, market data and lists of protocol buffers", "why_tests_cant": "The statements hold for all lists of options, equities and currencies; tests price finitely many options.", "anchors": ["tf_quant_finance/experimental/pricing_platform/framework/equity_instruments/american_option/american_option_impl.py", "tf_quant_finance/experimental/pricing_platform/framework/equity_instruments/american_option/utils.py", "tf_quant_finance/experimental/pricing_platform/framework/equity_instruments/american_option/proto_utils.py", "tf_quant_finance/experimental/pricing_platform/framework/equity_instruments/utils.py", "tf_quant_finance/experimental/pricing_platform/framework/market_data/volatility_surface.py", "AmericanOption", "bs_lsm_price", "VolatilitySurface", "process_equities", "get_vol_surface", "from_protos"]}
{"id": "C111", "title": "Bermudan swaptions in the Hull-White model", "statement": "Every entry of a batch of Bermudan swaptions has, at its own exercise times, the payoff of the swap it exercises into with its own bond prices, and at the exercise times of the other entries no payoff. By simulation the price of an entry is the value of an exercise policy fitted by least squares to these payoffs. By finite differences the time grid has no repetitions, begins at zero, ends with the last exercise time and contains all exercise times; the solver visits its points one after the other from the end and takes at each the larger of the value and the payoff; the price is the notional times the value interpolated at the initial forward rate. The price does not depend on the other entries.", "quantifier": "for all batches of swaptions of any shape, simulated paths, bases, time steps, grids and schemes", "why_tests_cant": "The statements hold for all exercise times and batches; tests price finitely many swaptions with a tolerance.", "anchors": ["tf_quant_finance/models/hull_white/swaption.py", "bermudan_swaption_price", "_bermudan_swaption_fd", "_map_payoff_to_sim_times", "_prepare_indices_ijj", "_get_index", "_upper_boundary_fn", "_lower_boundary_fn", "_values_transform_fn", "_pde_time_step"]}
{"id": "C112", "title": "Correlated Hull-White factors", "statement": "For several factors with constant mean reversions, piecewise constant volatilities and a piecewise constant correlation matrix, the sampled short rate of each factor at each requested time has exactly the mean and the variance of the model, whatever jumps the other factors and the correlation have; the rates of two factors at two requested times have the covariance of the model; the sampled discount curves are the bond prices given the sampled rates; the volatility function of the process is a root of the instantaneous covariance; parameters with the wrong number of factors are rejected.", "quantifier": "for all numbers of factors, parameters, jumps, requested times, roots of the correlation matrix and uncorrelated unit draws", "why_tests_cant": "The tests compare sample means, variances and a correlation of two factors at one time with an absolute tolerance between 1e-4 and 1e-2, while the variances themselves are below 5e-4; the joint law holds for all dimensions, grids and parameters.", "anchors": ["tf_quant_finance/models/hull_white/vector_hull_white.py", "VectorHullWhiteModel", "_sample_paths", "_prepare_grid", "_compute_yt", "_conditional_mean_x", "_conditional_variance_x", "sample_discount_curve_paths", "_bond_reconstitution", "_vol_fn", "_input_type", "_get_parameters"]}
{"id": "C113", "title": "Draws for simulations and updates along an axis", "statement": "The draws for a simulation have the shape steps, batch, paths, draws. Pseudo random draws are those of the generator, each used once. With a sequence of low discrepancy every path of every batch has a point of its own whose coordinates are the draws of all its steps. With antithetic paths the second half of the paths has the negative draws of the first half in every step and batch; an odd number of paths is refused. The Milstein scheme uses its increments and its three sets of auxiliary draws without overlap. An update along an axis replaces the entries with the given index, and only those, and keeps the shape of the tensor.", "quantifier": "for all numbers of steps, paths and draws, batch shapes, generators, random types, tensors, axes and indices", "why_tests_cant": "The statements hold for all sizes, shapes and positions; tests look at finitely many.", "anchors": ["tf_quant_finance/models/utils.py", "generate_mc_normal_draws", "maybe_update_along_axis", "tf_quant_finance/models/milstein_sampling.py", "_sample", "_milstein_step"]}
{"id": "C114", "title": "Batches of American basket puts by regression Monte Carlo", "statement": "A batch of options is priced at once and every option gets the price that the method gives for it alone: with its strike, its paths (own paths or paths shared by all options), its discount factors (none, one for each exercise, or one for each sample, option and exercise) and a regression on all monomials of its centred coordinates. For basket puts each price is the mean over the pricing samples of the discounted payoff under an exercise policy of Longstaff and Schwartz of this option, and it lies between zero and the strike when discount factors are in (0, 1] and the basket is never negative.", "quantifier": "for all batch sizes, numbers of samples, times, dimensions and degrees, all strikes, paths and discount factors of compatible shapes", "why_tests_cant": "The statements hold for all batches, paths and payoffs; tests price finitely many options.", "anchors": ["tf_quant_finance/models/longstaff_schwartz/lsm.py", "least_square_mc", "make_polynomial_basis", "_expected_exercise_fn", "_lsm_loop_body", "tf_quant_finance/models/longstaff_schwartz/payoff_utils.py", "make_basket_put_payoff", "_put_valuer", "tf_quant_finance/experimental/lsm_algorithm/payoff.py"]}
{"id": "C115", "title": "Finite differences", "statement": "A shift of an array moves every entry by the offsets and fills the rest with NaN. Central differences are the quotients of the neighbours inside the grid and NaN at its ends, and exact for polynomials: of degree two along the axis for first derivatives, three for second derivatives, two in each axis for mixed derivatives. The derivatives up to order two are listed once each. The Taylor approximation gives value and derivatives up to order two of every quadratic function exactly whenever its equations can be solved, also with nearest neighbours on a grid without structure that has enough points. The uniform grid covers the unit cube, and grids of more than ten million values are refused. The function of Rosenbrock has its only zero at the point of ones and is positive elsewhere.", "quantifier": "for all dimensions, shapes, offsets, functions, steps, stencils, targets and points", "why_tests_cant": "Exactness for all quadratic functions and every stencil is beyond samples; tests compare finitely many approximations within a tolerance.", "anchors": ["tf_quant_finance/experimental/finite_difference/methods.py", "rosenbrock", "grid", "central", "triangular", "derivative_names", "taylor_approx", "non_uniform_approx_nearest", "shift", "_check_not_too_large"]}
{"id": "C116", "title": "Convergence of the finite difference solver", "statement": "Let V be a smooth solution of V_t + a V_xx + b V_x + c V = 0 and let its values be prescribed at the end of the time interval and at the boundaries. The solver with a weighted scheme under the stability conditions succeeds, and its values differ from V at all grid points by at most the error of the given values, plus the error of the boundary values in the middle of the steps, plus the length of the time interval times the truncation error. With the implicit scheme the error is at most a constant times dt + h^2 on uniform grids without a condition on the time step, with Crank-Nicolson a constant times dt^2 + h^2; the constant does not depend on the grid or the number of steps. On any grids, uniform or not, whose mesh size tends to zero the values of the implicit scheme converge to V.", "quantifier": "for all smooth solutions, coefficients, boundaries, grids, numbers of steps, time steps and weights", "why_tests_cant": "A rate, or a bound for every solution, is a statement about all grids and numbers of steps; tests compare finitely many solutions within a tolerance.", "anchors": ["tf_quant_finance/math/pde/fd_solvers.py", "solve_backward", "tf_quant_finance/math/pde/steppers/parabolic_equation_stepper.py", "parabolic_equation_step", "tf_quant_finance/math/pde/steppers/weighted_implicit_explicit.py", "weighted_implicit_explicit_scheme", "tf_quant_finance/math/pde/steppers/implicit.py", "tf_quant_finance/math/pde/steppers/crank_nicolson.py"]}
{"id": "C117", "title": "Binomial tree prices converge to Black-Scholes prices", "statement": "As the number of steps grows, the law of the share price in the tree of option_price_binomial converges weakly to the lognormal law behind option_price. The price of a European call or put in the tree therefore converges to the value option_price returns for the same volatility, strike, expiry, spot, rate and dividend rate. The same limit holds for an American call without dividends at a rate that is not negative, and every American price in the tree is eventually at least the Black-Scholes price less any margin.", "quantifier": "for all positive volatilities, strikes, expiries and spots, all rates and dividend rates, calls and puts", "why_tests_cant": "That two independent pricing functions have the same limit for every option is a statement about infinitely many trees; tests compare finitely many prices up to a tolerance.", "anchors": ["tf_quant_finance/black_scholes/crr_binomial_tree.py", "option_price_binomial", "tf_quant_finance/black_scholes/vanilla_prices.py", "option_price"]}
{"id": "C118", "title": "Monte Carlo prices from simulated paths converge to Black-Scholes prices", "statement": "Let paths of the univariate geometric Brownian motion be computed by sample_paths from independent standard normal draws, with constant or piecewise constant drift and volatility. The average over the paths of any integrable function of the value at a requested time converges almost surely to its expectation under the lognormal law, and for bounded functions the mean square error of n paths is at most the squared bound divided by n. In particular the average of the discounted payoffs of a European option converges almost surely to the value option_price returns for the forward price and the root mean square volatility; with constant parameters, for the spot, the rates and the volatility.", "quantifier": "for all probability spaces with such draws, all parameters, time grids, strikes, discount factors, calls and puts", "why_tests_cant": "A limit for all payoffs, and its rate, are statements about all numbers of paths; tests compare moments of finitely many paths with known values up to a tolerance.", "anchors": ["tf_quant_finance/models/geometric_brownian_motion/univariate_geometric_brownian_motion.py", "GeometricBrownianMotion", "sample_paths", "tf_quant_finance/black_scholes/vanilla_prices.py", "option_price"]}
{"id": "C119", "title": "Quadrature errors for smooth functions and convergence for continuous functions", "statement": "For every function with a fourth derivative bounded by M, simpson with n points differs from the integral over [a, b] by at most M (b-a)^5 / (180 (n-1)^4); for every continuous function its results converge to the integral. For every supported number of points n the Gauss-Legendre rule differs from the integral of a function with 2n derivatives, the last bounded by M, by at most (b-a) (2 + 10^-24) M ((b-a)/2)^(2n) / (2n)! plus the accuracy of the table times the Taylor coefficients at the middle; the Gauss-Kronrod rules satisfy the same with 3m+2 derivatives (n = 2m+1) and so does the adaptive rule if all intervals of some level are accepted. Prices of the Heston model with the rule of Simpson converge to the discounted expectation of the payoff up to strike/pi*(1/upper + lower*(1+E|X-k|)) times the discount factor.", "quantifier": "for all smooth or continuous functions, all limits, all admissible numbers of points", "why_tests_cant": "Tests compare single integrals with known values; a bound with the right power of the step over all functions, and a limit, are statements on infinitely many integrals.", "anchors": ["tf_quant_finance/math/integration/simpson.py", "simpson", "tf_quant_finance/math/integration/gauss_legendre.py", "gauss_legendre", "tf_quant_finance/math/integration/gauss_kronrod.py", "gauss_kronrod", "tf_quant_finance/models/heston/approximations/european_option.py", "european_option_price"]}
{"id": "C120", "title": "Sobol points form nets in several dimensions and integrate continuous functions", "statement": "If the table of direction numbers is admissible and the polynomials of the first dim coordinates (x for the first) are pairwise coprime over the field with two elements, then every aligned block of 2^m consecutive points of sobol_sample, plain, digitally shifted or scrambled, and of the older sample in sobol_impl, is a (t, m, dim)-net in base 2 with t = the sum of (degree - 1): each elementary box of volume 2^(t-m) contains exactly 2^t of the points. The table load_data makes from well formed lines is admissible with the stated degrees. Averages of a function over the first 2^m points differ from its integral over the unit cube by at most L 2^-floor((m-t)/dim) if the function changes by at most L d when no coordinate changes by more than d, and tend to the integral for every continuous function.", "quantifier": "for all tables with the property, all dimensions, all blocks of points, all elementary boxes, shifts and scrambling matrices, all continuous functions", "why_tests_cant": "Tests compare a few points with known values; the number of points in every elementary box of every block and the limit over all continuous functions cannot be sampled.", "anchors": ["tf_quant_finance/math/qmc/sobol.py", "sobol_sample", "sobol_generating_matrices", "tf_quant_finance/math/qmc/digital_net.py", "scramble_generating_matrices", "tf_quant_finance/math/random_ops/sobol/sobol_impl.py", "sample", "load_data"]}
{"id": "C121", "title": "Halton points fill boxes in several dimensions and integrate continuous functions", "statement": "For pairwise coprime bases b_c and any numbers of digits d_c among those used, every run of the product of b_c^(d_c) consecutive Halton points, plain or with the digit permutations and the correction of the randomised version, has exactly one point in each box with sides b_c^(-d_c). Averages of a function bounded by B over the first N points differ from its integral over the unit cube by at most the oscillation of the function over these boxes plus 2 B (product of b_c^(d_c)) / N, and tend to the integral as N grows for every continuous function.", "quantifier": "for all dimensions, coprime bases, digit permutations, corrections, runs of points, boxes and continuous functions", "why_tests_cant": "Tests compare moments of a few samples with tolerance; that every box of every run has exactly one point and that averages converge for all continuous functions cannot be sampled.", "anchors": ["tf_quant_finance/math/random_ops/halton/halton_impl.py", "sample", "_randomize", "_get_permutations", "_get_indices"]}
{"id": "C122", "title": "Errors of interpolation for smooth functions and smallest curvature of splines", "statement": "Linear interpolation of a function with second derivative at most M on a grid of mesh h is off by at most M h^2/8 and converges uniformly for continuous functions. The default cubic spline of the function is off by at most M h^2/2 on any grid, its derivative by 2 M h. With the first derivatives of the function at the ends, or if its second derivative is zero there, and fourth derivative at most M, spline, derivative and second derivative are off by at most 7/64 M h^4, 7/16 M h^3 and 7/8 M h^2. Among all twice continuously differentiable functions through the data the spline has the smallest integral of the squared second derivative and is the only one. In two dimensions the errors of the directions add up.", "quantifier": "for all functions, strictly increasing grids, query points between the ends and slopes of extrapolation", "why_tests_cant": "Tests compare interpolated values with those of another library for a few data sets; a bound for all functions and grids and minimality among all functions are statements over infinite sets.", "anchors": ["tf_quant_finance/math/interpolation/linear/linear_interpolation.py", "interpolate", "tf_quant_finance/math/interpolation/cubic/cubic_interpolation.py", "build", "tf_quant_finance/math/interpolation/interpolation_2d/interpolation_2d.py"]}
{"id": "C123", "title": "Stability and convergence of the Douglas scheme in several dimensions", "statement": "For V_t + sum_d a_d V_dd = 0 with constant non-negative coefficients and prescribed boundary values, solve_backward with the Douglas scheme and an implicit weight of at least one half never increases the mean square difference of two solutions, whatever the grid and the steps. Its mean square error for a smooth solution is at most that of the values at the start plus (s - e) times a truncation error, of the first order in the time step and of the second order in the grid; if the boundary values do not change, the first order term has the factor theta - 1/2, so the default scheme is of the second order in both.", "quantifier": "for all numbers of dimensions, grids, numbers and sizes of time steps, weights from one half to one, values at the start and smooth solutions", "why_tests_cant": "Tests solve a few problems in two dimensions on fixed grids and compare with a tolerance; stability for all steps and grids and the order of the error are statements over infinite sets.", "anchors": ["tf_quant_finance/math/pde/steppers/douglas_adi.py", "douglas_adi_step", "douglas_adi_scheme", "tf_quant_finance/math/pde/steppers/multidim_parabolic_equation_stepper.py", "multidim_parabolic_equation_step", "tf_quant_finance/math/pde/fd_solvers.py", "solve_backward"]}
{"id": "C124", "title": "The checks made with validate_args accept exactly the documented arguments", "statement": "With validate_args the samplers of Sobol, Halton, lattice and digital net points, the interpolators, Brent's method, the Euler scheme, the SABR and vector Hull-White models and the implied volatilities accept exactly the arguments their documentation names: positive dimensions and numbers, indices in range, equal lengths and shapes, sorted points, brackets with a change of sign, times that grow by more than the tolerance, as many draws as steps, and prices within the arbitrage bounds, for which exactly one volatility exists. Accepted arguments give the same result as without the checks.", "quantifier": "for all arguments", "why_tests_cant": "Tests call each function with a few wrong arguments; which arguments are accepted is a statement about all of them, and checks that assert nothing or reject a default value go unnoticed.", "anchors": ["tf_quant_finance/math/random_ops/sobol/sobol_impl.py", "tf_quant_finance/math/random_ops/halton/halton_impl.py", "tf_quant_finance/math/qmc/lattice_rule.py", "tf_quant_finance/math/qmc/digital_net.py", "tf_quant_finance/math/qmc/sobol.py", "tf_quant_finance/math/interpolation/linear/linear_interpolation.py", "tf_quant_finance/math/interpolation/cubic/cubic_interpolation.py", "tf_quant_finance/math/root_search/brent.py", "tf_quant_finance/rates/hagan_west/monotone_convex.py", "tf_quant_finance/models/euler_sampling.py", "tf_quant_finance/models/sabr/sabr_model.py", "tf_quant_finance/models/hull_white/vector_hull_white.py", "tf_quant_finance/black_scholes/implied_vol_approximation.py", "_validate_args_control_deps", "tf_quant_finance/black_scholes/implied_vol_newton_root.py", "tf_quant_finance/black_scholes/variance_swaps.py", "fair_strike"]}
{"id": "C125", "title": "Averages over paths drawn from Sobol or Halton points converge to the expected value", "statement": "For paths whose normal draws are the normal quantiles of consecutive points of the Sobol sequence (wherever the run of points starts) or of the Halton sequence, the averages over N paths of a bounded continuous function of the draws tend to its expectation for independent standard normal draws, uniformly in the number of skipped points. The points of the Sobol sequence after the first and of the Halton sequence without randomization lie strictly inside the cube, and when the number of skipped points is at most a multiple of N only few of them are near its boundary; for these the averages converge also for continuous functions with exponential growth. So the average of a function with polynomial growth of the value of a geometric Brownian motion tends to its expectation under the lognormal law, and the average discounted payoff of a European call or put tends to the price returned by option_price.", "quantifier": "for all tables of direction numbers with coprime polynomials, all dimensions, all bases, all skips, all piecewise constant parameters, all times, all strikes and all continuous payoffs with polynomial growth", "why_tests_cant": "A test compares the average for one number of paths with a tolerance; it cannot show that the error tends to zero for every payoff, and payoffs that are unbounded at the boundary of the cube need a bound on all points near it.", "anchors": ["tf_quant_finance/math/random_ops/multivariate_normal.py", "_mvnormal_sobol", "_mvnormal_halton", "_mvnormal_quasi", "tf_quant_finance/models/utils.py", "generate_mc_normal_draws", "tf_quant_finance/math/random_ops/sobol/sobol_impl.py", "sample", "tf_quant_finance/math/random_ops/halton/halton_impl.py", "tf_quant_finance/models/geometric_brownian_motion/univariate_geometric_brownian_motion.py", "sample_paths"]}
{"id": "C126", "title": "Brent's root search needs at most quadratically many iterations in those of bisection", "statement": "If the bracket is at most 2^L times the absolute root tolerance, the relative root tolerance is below 1 and the values at the ends of the bracket do not have the same strict sign, then brentq, when allowed more than (L + 1)(L + 3) iterations, makes at most that many and stops because the value is within the function tolerance or because the sign changes within the root tolerance of the result; for a continuous function the result is then within the tolerance of a root inside the bracket. A search stopped earlier still has a sign change in the original bracket and is not called converged unless the value is within the function tolerance.", "quantifier": "for all functions, all brackets with a sign change, all tolerances and all batches", "why_tests_cant": "Tests try smooth functions on which interpolation converges quickly; the guarantee is about the worst function, against which the safeguards (halving of the step before the last one, tolerance steps, bisection) must work together.", "anchors": ["tf_quant_finance/math/root_search/brent.py", "brentq", "_brent", "_brent_loop_body", "_secant_step", "_quadratic_interpolation_step"]}
{"id": "C127", "title": "Newton's root finder converges near simple roots and from the right of rising roots", "statement": "If on an interval of radius rho around a root the slope is at least m in absolute value, the second derivative is at most M and M rho <= 2 m q with q < 1, then from every starting point in the interval all Newton iterates are defined, stay in it and satisfy |x_k - r| <= rho q^(2^k - 1); root_finder reports convergence without failure after j + 1 iterations if 2 rho q^(2^j - 1) is below the tolerance, and the distance of the result to the root is then below the tolerance divided by 1 - q. If the function rises from the root with nondecreasing slope, the iterates from every point to the right decrease, never pass the root and come closer by a fixed factor, so the finder converges as well; from the left the first step leads to the right. Without such hypotheses the finder can go back and forth for ever, and then reports neither convergence nor failure.", "quantifier": "for all functions, roots, starting points, tolerances, numbers of iterations and batches", "why_tests_cant": "Tests start near the roots of a few functions; that every start in the interval converges and that the number of correct digits doubles in every step is a statement about all functions with these bounds.", "anchors": ["tf_quant_finance/math/root_search/newton.py", "root_finder"]}
{"id": "C128", "title": "The fair strike of a variance swap tends to the value of the log contract under every law of the spot", "statement": "For every law of the spot at expiry with the right forward and integrable logarithm, if the volatilities passed to fair_strike are those implied by the law, the fair strike is 2/T (log F - E log S_T) plus the mean error of the replication. With strikes starting at the reference and neighbours satisfying (k' - k)^2 <= eta k k', the distance is at most 2 eta / T plus the value of the log contract beyond the last strikes. As the strikes become fine and reach from zero to infinity the fair strike converges to 2/T (log F - E log S_T); with one volatility sigma for all options this limit is sigma^2. Such implied volatilities exist for every law and all positive strikes, the same for calls and puts.", "quantifier": "for all probability laws on the positive reals, all strike grids and sequences of grids, all rates, spots, expiries", "why_tests_cant": "Tests use a few grids and one smile; that the replication needs no model of the spot is a statement about all laws, and the limit needs grids of every size.", "anchors": ["tf_quant_finance/black_scholes/variance_swaps.py", "replicating_weights", "fair_strike"]}
{"id": "C129", "title": "The replication of coupons of constant maturity swaps converges to the convexity adjustment", "statement": "With growing numbers of points the replication of a coupon tends, in the normal and the lognormal model, to the rate plus the mean of _f_atm continued by tangents outside of the strikes used; the bounds of the strikes matter only through rates beyond them; without bounds the result is the rate plus the covariance of rate and weight over the weight at the rate, which is the mean of the rate in the measure of the payment if the weight is a martingale; the options of all strikes give this for every law on positive rates with second moment if the slope of _f_atm grows at most linearly. The weight of the code satisfies the hypotheses.", "quantifier": "for all weights twice differentiable on the positive rates, all volatilities, expiries, rates from 1e-6, numbers of points and laws", "why_tests_cant": "Tests compare a few prices with stored numbers; the limit and the law are arbitrary.", "anchors": ["tf_quant_finance/experimental/instruments/cms_swap.py", "_convexity_smile_replication", "_f_atm", "_fs", "_option_prices"]}
{"id": "C130", "title": "All accepted formats of dates are converted to the same dates, and random dates are uniform", "statement": "convert_to_date_tensor turns a sequence of dates, a sequence of tuples, an array of days since 1970, a tensor of ordinals and three tensors of years, months and days into the same dates, accepts tuples and ordinals exactly if they denote dates of year 1 or later, and raises ValueError otherwise. random_dates returns dates from the start (included) to the end (excluded), each with the same probability. subtract_period_and_roll rolls the date minus the period.", "quantifier": "for all lists of dates, tuples, ordinals and numbers, all start and end dates, all uniform numbers, both calendars", "why_tests_cant": "Tests convert a few dates in each format and draw a few samples; the agreement of formats and the law of the samples concern all dates.", "anchors": ["tf_quant_finance/datetime/date_tensor.py", "convert_to_date_tensor", "from_datetimes", "from_tuples", "from_np_datetimes", "random_dates", "tf_quant_finance/datetime/bounded_holiday_calendar.py", "tf_quant_finance/datetime/unbounded_holiday_calendar.py", "subtract_period_and_roll"]}
{"id": "C131", "title": "Simulated Hull-White prices of bond options, caps and floors converge to the analytic prices", "statement": "With use_analytic_pricing=False, for independent standard normal draws: the sampled short rates at all requested times have exactly the joint normal law of the Hull-White model (means and all covariances between times). For every time step the simulated price of each bond option converges almost surely as the number of paths grows, and as the time step goes to zero these limits converge to the price of the analytic formula, for calls and puts and for any set of options in one batch; the same holds for caps and floors.", "quantifier": "for all mean reversions, piecewise constant volatilities, differentiable initial curves with continuous forward rates, batches of options with positive strikes and variances, sequences of time steps tending to zero", "why_tests_cant": "Tests compare one simulated price with one analytic price within a Monte Carlo tolerance of some percent, which hides any small bias of the discounting or of the covariances; the limits over paths and over time steps cannot be reached by running.", "anchors": ["tf_quant_finance/models/hull_white/zero_coupon_bond_option.py", "tf_quant_finance/models/hull_white/cap_floor.py", "tf_quant_finance/models/hull_white/vector_hull_white.py", "tf_quant_finance/models/hjm/zero_coupon_bond_option_util.py", "bond_option_price", "cap_floor_price", "sample_discount_curve_paths", "options_price_from_samples"]}
{"id": "C132", "title": "Simulated Hull-White prices of European swaptions converge to the analytic prices", "statement": "swaption_price with use_analytic_pricing=False, for independent standard normal draws: for every time step the simulated price of each payer or receiver swaption of a batch converges almost surely as the number of paths grows, and as the time step goes to zero these limits converge to the price of the analytic formula at the break-even rate.", "quantifier": "for all mean reversions, piecewise constant volatilities, differentiable initial curves with continuous forward rates, batches of swaptions with positive variance and nonnegative coupons, sequences of time steps tending to zero", "why_tests_cant": "Tests compare a few simulated prices with tolerances of some percent; the one batch with different expiries uses the step 0.1, whose multiples differ from the expiries by rounding, so a simulation time that occurs twice never appears; and limits cannot be reached by running.", "anchors": ["tf_quant_finance/models/hull_white/swaption.py", "tf_quant_finance/models/hjm/swaption_util.py", "tf_quant_finance/models/hull_white/vector_hull_white.py", "swaption_price", "discount_factors_and_bond_prices_from_samples", "_sample_paths", "_prepare_grid"]}
{"id": "C133", "title": "The Euler sampler converges to the exact multivariate geometric Brownian motion", "statement": "euler_sampling.sample with drift_fn and volatility_fn of MultivariateGeometricBrownianMotion: the mean square distance to the exact path from the same draws is bounded by an explicit multiple of the largest step, on every grid; prices of functions with bounded slopes, simulated with num_time_steps, converge almost surely in the number of paths and then in the number of time steps to the expectation under the exact process; for European options this is the value of option_price.", "quantifier": "for all dimensions, means, volatilities, correlation factors with unit rows, initial values, increasing positive times, payoffs with bounded slopes, grids", "why_tests_cant": "Tests run one number of steps with sampling errors of a percent or more and cannot separate the bias of the scheme from noise; rates of convergence and limits are not reachable by running.", "anchors": ["tf_quant_finance/models/euler_sampling.py", "tf_quant_finance/models/utils.py", "tf_quant_finance/models/geometric_brownian_motion/multivariate_geometric_brownian_motion.py", "tf_quant_finance/black_scholes/vanilla_prices.py", "sample", "_euler_step", "prepare_grid", "drift_fn", "volatility_fn", "sample_paths", "option_price"]}
{"id": "C134", "title": "The Euler and Milstein samplers converge for geometric Brownian motion with time dependent parameters", "statement": "euler_sampling.sample and milstein_sampling.sample with drift_fn and volatility_fn of GeometricBrownianMotion, constant or piecewise constant: prices of functions with bounded slope, simulated with num_time_steps, converge almost surely in the number of paths and then in the number of time steps to the expectation under the lognormal law with the integrated mean and variance. The Milstein sampler does the same for several states.", "quantifier": "for all constant or piecewise constant means and volatilities, positive initial values, increasing positive times, payoffs with bounded slope; for several states: all dimensions, means, volatilities and grids", "why_tests_cant": "Convergence is a limit over all grids, including parameters that jump inside a step; tests use tolerances and finitely many steps. The only test of the Milstein sampler in several dimensions compares averages of values starting at 0.1 and 0.2 with an absolute tolerance of 0.05.", "anchors": ["tf_quant_finance/models/euler_sampling.py", "tf_quant_finance/models/milstein_sampling.py", "tf_quant_finance/models/utils.py", "tf_quant_finance/models/geometric_brownian_motion/univariate_geometric_brownian_motion.py", "tf_quant_finance/models/geometric_brownian_motion/multivariate_geometric_brownian_motion.py", "sample", "_milstein_step", "_milstein_1d", "_milstein_nd", "_euler_step", "prepare_grid", "drift_fn", "volatility_fn"]}
{"id": "C135", "title": "Black and Bachelier swaption prices are expectations of the swap value", "statement": "swaption_price is the notional times the level of the fixed leg times the expectation of the positive part of swap rate minus coupon (payer) or coupon minus swap rate (receiver), with the swap rate normal or lognormal around the forward swap rate; payer minus receiver is the value of the swap; prices lie between the value of immediate exercise and the value of the leg received; the notional is 1 by default.", "quantifier": "for all volatilities, expiries, discount factors, day count fractions, coupons, notionals, payer and receiver, both models", "why_tests_cant": "The single test prices two payer swaptions per model with notional 100; receivers, the default notional and expiry 0 are never run.", "anchors": ["tf_quant_finance/black_scholes/vanilla_prices.py", "swaption_price", "option_price"]}
{"id": "C136", "title": "Simulated expectations of an Ito process converge to the solution of its backward equation", "statement": "For any drift and volatility of linear growth, euler_sampling.sample (what GenericItoProcess.sample_paths calls) and, in one dimension, milstein_sampling.sample: the expectation of f at the end of the scheme differs from the solution at the start of the backward equation with final value f by at most a constant times the root of the largest step, on every grid. With num_time_steps the averages over paths converge almost surely and their limits converge to this solution. The equation is the one set up by fd_solver_backward, so that simulation and finite differences approximate the same value.", "quantifier": "for all dimensions, measurable drifts and volatilities of linear growth, solutions with three space and two time derivatives of polynomial growth, grids, initial states", "why_tests_cant": "Tests run a few processes with one number of steps and a tolerance of a percent or more; whether the scheme is consistent with the equation for every process cannot be found by running.", "anchors": ["tf_quant_finance/models/generic_ito_process.py", "tf_quant_finance/models/euler_sampling.py", "tf_quant_finance/models/milstein_sampling.py", "tf_quant_finance/models/utils.py", "sample", "_euler_step", "_milstein_step", "_milstein_1d", "sample_paths", "fd_solver_backward", "_backward_pde_coeffs", "prepare_grid"]}
{"id": "C137", "title": "Simulated spots of the local volatility model have the right forward and arbitrage free prices on every grid", "statement": "The mean of the spots sampled by LocalVolatilityModel is exactly the initial spot compounded at the rates minus the dividend yields of the steps, whatever the local volatility function, the correlation and the grid; with constant rates this is the forward, and for continuous rates the limit of the averages with the number of paths and time steps is S exp(integral of r - q), which is S exp(-q t)/df(t) if the rate comes from discount factors. The expected payoffs satisfy put-call parity, lie between intrinsic value and forward or strike, and calls with strikes growing like the forward do not lose value with maturity. If the local volatility depends on time only, the spots are exactly lognormal, and for a constant one the simulated price is that of option_price on every grid. Without initial state the paths start at 1.", "quantifier": "for all numbers of assets, measurable local volatility functions of time and all spots, Cholesky factors with rows of length one, positive spots, rates, sorted grids, strikes", "why_tests_cant": "The statements range over all volatility functions and grids; tests simulate finitely many surfaces and compare within a tolerance, which can hide a bias.", "anchors": ["tf_quant_finance/experimental/local_volatility/local_volatility_model.py", "LocalVolatilityModel.sample_paths", "_drift_fn", "_vol_fn", "tf_quant_finance/models/euler_sampling.py", "sample"]}
{"id": "C138", "title": "Prices of the regression Monte Carlo converge, with complete regressors to the value of the contract", "statement": "With the number of sampled paths the regression coefficients of least_square_mc converge almost surely to those of the regressions under the law of the paths, and the price converges to the expected discounted payoff of the exercise rule with the limit coefficients, whether all samples or separate calibration samples are used in the regressions, and also if the regressors are recombined by invertible matrices depending on the samples, such as the centring of make_polynomial_basis. The two earlier versions of the algorithm have the same limit. The limit rule uses only the information at hand, so the limit is not above the value of the contract; if the regressors span the conditional expectations of going on, the limit is the largest expected discounted payoff over all exercise times.", "quantifier": "for all laws of paths with the moments in question, payoffs, path dependent discount factors, numbers of exercise times and of basis functions, generalized inverses, numbers of calibration samples; linearly independent regressors and no ties in the limit", "why_tests_cant": "A limit, and optimality over all exercise times, are statements about infinitely many sample sizes and rules; tests use finitely many paths.", "anchors": ["tf_quant_finance/models/longstaff_schwartz/lsm.py", "least_square_mc", "_expected_exercise_fn", "_lsm_loop_body", "make_polynomial_basis", "tf_quant_finance/experimental/lsm_algorithm/lsm_v2.py", "tf_quant_finance/experimental/lsm_algorithm/lsm.py"]}
{"id": "C139", "title": "Regression Monte Carlo prices of puts on geometric Brownian motion converge", "statement": "For a put on a spot whose law at the exercise times has no atoms and reaches below the strike, the regressions on powers of the spot under that law have a solution, and the price of least_square_mc with make_polynomial_basis converges almost surely, with the number of paths, to the expected discounted payoff of the exercise rule of this solution; the only exception is a limit fit that is the payoff itself, which cannot happen with degree zero. The paths of the univariate geometric Brownian motion with positive variance up to the exercise times are of this kind.", "quantifier": "for all degrees, positive strikes, exercise times, nonzero discount factors, piecewise constant or constant means and volatilities, grids, generalized inverses", "why_tests_cant": "Convergence and the existence of the limit rule are statements about all sample sizes; tests price finitely many puts on finitely many paths within a tolerance.", "anchors": ["tf_quant_finance/models/longstaff_schwartz/lsm.py", "least_square_mc", "make_polynomial_basis", "tf_quant_finance/models/longstaff_schwartz/payoff_utils.py", "make_basket_put_payoff", "tf_quant_finance/models/geometric_brownian_motion/univariate_geometric_brownian_motion.py", "GeometricBrownianMotion.sample_paths"]}
{"id": "C140", "title": "Regression Monte Carlo prices of puts tend to the value of the put as the degree of the basis grows", "statement": "For a put on a Markov spot whose law at the exercise times has no atoms and reaches below the strike, the limits for many paths of the prices of least_square_mc with make_polynomial_basis converge, as the degree grows, to the largest expected discounted payoff over all exercise times that use only the information at hand. So prices with high degree and many paths are as close to the value of the put as one likes, except for degrees where a limit fit is the payoff itself. The paths of the univariate geometric Brownian motion with positive variance up to the exercise times are of this kind, with the draws so far as information.", "quantifier": "for all positive strikes, increasing exercise times, positive discount factors, piecewise constant or constant means and volatilities, grids, generalized inverses", "why_tests_cant": "That the algorithm finds the optimal way to exercise in the limit is a statement about all degrees, sample sizes and exercise times; lsm_test.py uses degrees 2 and 10 and a tolerance.", "anchors": ["tf_quant_finance/models/longstaff_schwartz/lsm.py", "least_square_mc", "make_polynomial_basis", "tf_quant_finance/models/longstaff_schwartz/payoff_utils.py", "make_basket_put_payoff", "tf_quant_finance/models/geometric_brownian_motion/univariate_geometric_brownian_motion.py", "GeometricBrownianMotion.sample_paths"]}
{"id": "C141", "title": "Prices of American puts in the binomial tree converge to the value of the American put", "statement": "For positive spot, strike, expiry and volatility and any rates the prices of option_price_binomial for an American put converge as the number of steps grows. The limit is the least upper bound of the expected discounted payoffs under Black-Scholes dynamics over all ways to exercise at finitely many times that use only what is known; it is at least the payoff of immediate exercise and the Black-Scholes price of the European put. The value with k even exercise times is below the limit by at most a constant times the time between exercises, so prices of least_square_mc with many exercise times, a high degree and many paths are close to the limit of the prices of the tree.", "quantifier": "for all positive spots, strikes, expiries, volatilities, all real discount and dividend rates", "why_tests_cant": "Convergence and the optimality of the limit over all exercise rules are statements about infinitely many trees and rules; tests compare finitely many prices with known values up to a tolerance.", "anchors": ["tf_quant_finance/black_scholes/crr_binomial_tree.py", "option_price_binomial", "tf_quant_finance/models/longstaff_schwartz/lsm.py", "least_square_mc"]}
{"id": "C142", "title": "Calls and puts in the binomial tree are mirror images, and prices of American calls converge", "statement": "In every tree a European option has the price of the option with spot and strike swapped, discount and dividend rate swapped, and call and put swapped. The prices of American calls converge as the number of steps grows: the limit is the least upper bound of the values by backward induction of calls with finitely many even exercise times, is the value of the American put that is the mirror image, and is at least the payoff and the Black-Scholes price of the European call. With finitely many steps the mirror images of American options can differ, because the code discounts the payoff of an exercise.", "quantifier": "for all positive spots, strikes, expiries, volatilities, numbers of steps, all real discount and dividend rates", "why_tests_cant": "The tests compare single prices with known values; the symmetry holds for all trees and parameters, and the limit is a statement about infinitely many trees.", "anchors": ["tf_quant_finance/black_scholes/crr_binomial_tree.py", "option_price_binomial"]}
{"id": "C143", "title": "Files of dictionaries of arrays are read back as written, also when cut off", "statement": "Reading a file that ArrayDictWriter wrote gives the written dictionaries in order, each with the same keys and under each key the array that decoding gives for the encoding of the value, and then the file ends. Of a file cut off after any number of bytes exactly the complete records are read, and the reading ends without an error only if the cut is at the end of a record. The reader takes a record only from bytes that the writer writes for its data. The argument array_encoder of _make_example should set the encoding of the arrays; the code ignores it.", "quantifier": "for all sequences of dictionaries with distinct keys, all orders in which maps are written, all array encodings with a decoding, all check sum functions, all places of the cut", "why_tests_cant": "The test writes one file of two records and reads it back; the property is about all files, all lengths (which change the framing) and all cuts.", "anchors": ["tf_quant_finance/experimental/io.py", "ArrayDictWriter", "ArrayDictReader", "_make_feature", "_make_example", "encode_array", "decode_array"]}
{"id": "C144", "title": "The Crank-Nicolson scheme is stable and second order in the mean square for all time steps", "statement": "For an equation with a second order coefficient of at least al > 0 that changes by at most La per unit of space, a drift bounded by B and a zeroth order coefficient that is not positive, on a grid whose neighbouring cells have lengths within the factor rho, the weighted scheme with at most half of the weight on the explicit part is stable in the mean square (points weighted by their cells) without any bound of the time step in terms of the cells: the difference of two solutions with the same boundary values grows over the time T by at most the factor exp(4 G T), G = (La + rho B)^2 / (4 al), which is 1 for constant diffusion without drift. The solver succeeds, and the error of the Crank-Nicolson scheme against a smooth solution is at most K times the mean square error of the given values plus dt^2 + h^2 + the largest difference of neighbouring cells; it tends to zero with cells and time step independently of each other.", "quantifier": "for all equations with such coefficients and Dirichlet boundary values depending on time, all grids, all numbers of steps with 4 dt G <= 1, all given values", "why_tests_cant": "Tests solve a few equations on fixed grids with one time step and compare with a tolerance; stability for all ratios of time step to cells and the order are statements about all grids.", "anchors": ["tf_quant_finance/math/pde/steppers/crank_nicolson.py", "crank_nicolson_step", "tf_quant_finance/math/pde/steppers/weighted_implicit_explicit.py", "weighted_implicit_explicit_scheme", "tf_quant_finance/math/pde/steppers/parabolic_equation_stepper.py", "parabolic_equation_step", "tf_quant_finance/math/pde/fd_solvers.py", "solve_backward"]}
{"id": "C145", "title": "Weighted schemes are stable on all grids exactly for explicit weights of at most one half; boundary condition wrappers", "statement": "On a uniform grid with zero boundary values the solver with the weighted scheme multiplies each sine mode by the n-th power of (1 + theta z) / (1 - (1 - theta) z), for every weight theta in [0, 1], including the explicit scheme theta = 1. No mode grows on any grid exactly if theta <= 1/2; for theta > 1/2 and (2 theta - 1) 3 a dt > 2 h^2 the values grow beyond all bounds. The documentation of weighted_implicit_explicit_step says that the scheme is stable for theta >= 0.5, which is the wrong way round for its theta. After a step with conditions made by dirichlet the boundary values are those of the given function at the end of the step, with neumann the derivatives out of the grid of the parabolas through the last three points are.", "quantifier": "for all weights, uniform grids, diffusion coefficients, modes, time steps and numbers of steps; for the boundary conditions all grids, coefficients and functions", "why_tests_cant": "Stability for all grids and growth beyond all bounds are statements about unboundedly many steps; the tests use weights and steps for which the results are close to the solution.", "anchors": ["tf_quant_finance/math/pde/steppers/explicit.py", "explicit_step", "explicit_scheme", "tf_quant_finance/math/pde/steppers/weighted_implicit_explicit.py", "weighted_implicit_explicit_step", "tf_quant_finance/math/pde/boundary_conditions.py", "dirichlet", "neumann", "tf_quant_finance/math/pde/fd_solvers.py"]}
{"id": "C146", "title": "Newton's method finds the implied volatility from every positive start (normal model) and from the inflection (lognormal model)", "statement": "Let the discount factor be at most 1 and let the price have an implied volatility. In the normal model all Newton iterates from any positive start are positive and tend to the implied volatility, and for every positive tolerance the function reports convergence with a positive result once enough iterations are allowed; the default start is such a start. In the lognormal model the same holds from every start between the inflection sqrt(2 |log(F/K)| / T) and the implied volatility, on either side, in particular from the inflection itself if forward and strike differ, and at the money from every positive start not above the implied volatility. This holds although the vega used is divided by the discount factor, which makes the steps shorter.", "quantifier": "for all options with valid arguments and discount factor at most 1, all prices with an implied volatility, all admitted starts, all tolerances", "why_tests_cant": "Convergence from every start for every price is a statement about limits over a continuum; tests run finitely many options with one start each.", "anchors": ["tf_quant_finance/black_scholes/implied_vol_newton_root.py", "implied_vol", "_newton_implied_vol", "_make_bachelier_objective_and_vega_func", "_make_black_lognormal_objective_and_vega_func", "tf_quant_finance/math/root_search/newton.py", "root_finder"]}
{"id": "C147", "title": "What the implied volatility function returns", "statement": "If Newton's search for an implied volatility reports convergence, from whatever start, its result is positive and as close to the implied volatility as one likes once the tolerance is small, in both models. implied_vol refuses the fast approximation for the normal model, otherwise returns the approximation or the value found by Newton's method without its flags; validate_args never changes an accepted result. In the normal model with discount factor at most 1, for every price with an implied volatility and every positive or default start, implied_vol returns the implied volatility up to any error with small tolerance and enough iterations.", "quantifier": "for all options with valid arguments, all prices inside the bounds, all starts, errors, tolerances and numbers of iterations", "why_tests_cant": "The relation between tolerance and error for a continuum of prices and starts is a statement about limits; the tests compare a few volatilities.", "anchors": ["tf_quant_finance/black_scholes/implied_vol_lib.py", "implied_vol", "ImpliedVolMethod", "tf_quant_finance/black_scholes/implied_vol_newton_root.py", "_newton_implied_vol", "tf_quant_finance/black_scholes/implied_vol_approximation.py", "tf_quant_finance/math/root_search/newton.py"]}
{"id": "C148", "title": "The oscillation damped Crank-Nicolson scheme damps oscillations on all uniform grids", "statement": "The step of oscillation_damped_crank_nicolson_step is an extrapolation step for the first extrapolation_steps steps and a Crank-Nicolson step afterwards. On a uniform grid with zero boundary values solve_backward multiplies each sine mode by the factor of the extrapolation scheme for these steps and the factor of the Crank-Nicolson scheme for the others. No mode grows for any grid and time step. With at least one extrapolation step, modes whose rate is large compared to the time step vanish, uniformly in the number of steps, while with Crank-Nicolson steps only they keep their size and change sign with every step.", "quantifier": "for all uniform grids, diffusion coefficients, modes, numbers of steps, numbers of extrapolation steps and error bounds", "why_tests_cant": "The damping is a limit over rates and holds for all grids and numbers of steps; the tests solve a few equations on fixed grids.", "anchors": ["tf_quant_finance/math/pde/steppers/oscillation_damped_crank_nicolson.py", "oscillation_damped_crank_nicolson_step", "tf_quant_finance/math/pde/steppers/composite_stepper.py", "composite_scheme_step", "tf_quant_finance/math/pde/steppers/extrapolation.py", "extrapolation_scheme", "tf_quant_finance/math/pde/fd_solvers.py"]}
{"id": "C149", "title": "The factory of holiday calendars chooses a calendar that agrees with the unbounded one", "statement": "create_holiday_calendar returns the bounded calendar of the years of the holidays if there are holidays, whatever start_year and end_year are, the bounded calendar of start_year to end_year if both are given and there are no holidays, and the unbounded calendar otherwise. On the days of its years the bounded calendar is the same as the unbounded calendar of the same arguments, and a day is a business day exactly if it is neither masked nor a holiday. This holds for all documented types of the arguments.", "quantifier": "for all weekend masks with a working day, increasing lists of valid dates, years and days", "why_tests_cant": "Agreement is about all days, masks and sets of holidays. The factory has no tests of its own: holiday_calendar_test.py constructs the two calendars directly, with a few masks and lists of holidays, and other tests only use the factory to create their calendar.", "anchors": ["tf_quant_finance/datetime/holiday_calendar_factory.py", "create_holiday_calendar", "_tensor_is_not_empty", "tf_quant_finance/datetime/bounded_holiday_calendar.py", "BoundedHolidayCalendar", "tf_quant_finance/datetime/unbounded_holiday_calendar.py", "UnboundedHolidayCalendar"]}
{"id": "C150", "title": "The option pricing demo keeps files, results and trades apart", "statement": "The data generator puts a file of the output path gs://p, with or without a slash at its end, where the downloader looks for it. The downloader stores the file gs://p at p below its directory, different files at different places. An incomplete request changes nothing and is answered by a message. A complete request leaves both files, fresh from the store if the refresh is forced or a file was missing, and leaves all other files alone. The pricer writes the results of different portfolios to different files and takes its sizes from the environment. The data generator numbers the trades of all files without gap or repetition and draws market data and strikes in the documented ranges.", "quantifier": "for all paths, requests, contents of the store and of the file system, numbers of files and trades, and draws", "why_tests_cant": "The demo has no tests; the statements are about all paths, file systems and sizes.", "anchors": ["tf_quant_finance/examples/demos/option_pricing_basic/downloader/app/main.py", "JobRequest", "download_if_needed", "validate", "_local_path_from_gcs_path", "_split_gcs_path", "split_bucket_path", "upload_to_gcs", "tf_quant_finance/examples/demos/option_pricing_basic/pricer/app/main.py", "main", "tf_quant_finance/examples/demos/option_pricing_basic/data_generator/data_generation.py", "generate_market_data", "generate_portfolio"]}
{"id": "C151", "title": "The option pricing demo prices every generated option on its own underlier", "statement": "The price of an option is the discounted expectation of its payoff under the lognormal law with the spot, volatility and rate at the position of its underlier and the actual/360 time from today to its expiry. An underlier outside of the market data is an error. Every option of a portfolio made by generate_portfolio from market data made by generate_market_data is priced this way, whatever is drawn.", "quantifier": "for all market data, options expiring today or later, dates of today and draws", "why_tests_cant": "The demo has no tests; the price is an integral, and the statement is about all draws and market data.", "anchors": ["tf_quant_finance/examples/demos/option_pricing_basic/pricer/app/pricers.py", "_price", "tf_quant_finance/examples/demos/option_pricing_basic/data_generator/data_generation.py", "generate_market_data", "generate_portfolio", "tf_quant_finance/examples/demos/option_pricing_basic/common/datatypes.py", "OptionBatch"]}
