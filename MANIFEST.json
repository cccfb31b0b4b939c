{
 "claims": [
  {
   "property": "C01",
   "status": "proved",
   "theorems": [
    "Props.C01_date_roundtrip",
    "Props.C01_ordinal_roundtrip",
    "Props.C01_epoch",
    "Props.C01_successor",
    "Props.C01_counting",
    "Props.C01_ordinal_is_day_number",
    "Props.C01_leap_year"
   ],
   "note": ""
  },
  {
   "property": "C02",
   "status": "proved",
   "theorems": [
    "Props.C02_day_of_week",
    "Props.C02_same_weekday_iff",
    "Props.C02_day_of_year"
   ],
   "note": ""
  },
  {
   "property": "C03",
   "status": "proved",
   "theorems": [
    "Props.C03_add_months",
    "Props.C03_add_years",
    "Props.C03_sub_months",
    "Props.C03_add_sub_cancel"
   ],
   "note": ""
  },
  {
   "property": "C04",
   "status": "proved",
   "theorems": [
    "Props.C04_add_days",
    "Props.C04_sub_days",
    "Props.C04_period_length",
    "Props.C04_add_days_total"
   ],
   "note": ""
  },
  {
   "property": "C05",
   "status": "proved",
   "theorems": [
    "Props.C05_is_end_of_month",
    "Props.C05_to_end_of_month"
   ],
   "note": ""
  },
  {
   "property": "C06",
   "status": "proved",
   "theorems": [
    "Props.C06_comparisons"
   ],
   "note": ""
  },
  {
   "property": "C07",
   "status": "proved",
   "theorems": [
    "Props.C07_from_year_month_day",
    "Props.C07_from_ordinals",
    "Props.C07_tensor_roundtrip",
    "Props.C07_from_np_datetimes",
    "Props.C07_constructors_agree"
   ],
   "note": ""
  },
  {
   "property": "C08",
   "status": "proved",
   "theorems": [
    "Props.C08_leap_days_between",
    "Props.C08_leap_days_antisymmetric",
    "Props.C08_days_in_leap_years",
    "Props.C08_days_in_leap_years_antisymmetric"
   ],
   "note": ""
  },
  {
   "property": "C09",
   "status": "proved",
   "theorems": [
    "Props.C09_bounded_is_business_day",
    "Props.C09_bounded_init",
    "Props.C09_bounded_repeated_holiday_is_business_day",
    "Props.C09_unbounded_is_business_day",
    "Props.C09_unbounded_no_mask_no_business_days",
    "Props.C09_unbounded_unsorted_holidays_missed",
    "Props.C09_unbounded_fake_holiday"
   ],
   "note": "Bounded calendar: duplicate-free holidays. Unbounded calendar: mask given or no holidays, sorted duplicate-free holidays, dates from 0001-01-08. The excluded inputs give wrong answers; concrete witnesses are proved."
  },
  {
   "property": "C10",
   "status": "partial",
   "theorems": [
    "Props.C10_bounded_following",
    "Props.C10_bounded_preceding",
    "Props.C10_bounded_modified_following_partial",
    "Props.C10_bounded_modified_preceding_partial",
    "Props.C10_bounded_fixed",
    "Props.C10_bounded_modified_year_one_fails",
    "Props.C10_bounded_long_gap_leaves_month",
    "Props.C10_bounded_roll_is_business_day"
   ],
   "note": "MODIFIED conventions need a calendar starting after year 1 and no gap of 300 days without business day; both exclusions are proved to be real deviations of the code."
  },
  {
   "property": "C11",
   "status": "partial",
   "theorems": [
    "Props.C11_following",
    "Props.C11_preceding",
    "Props.C11_modified_following_partial",
    "Props.C11_modified_preceding_partial",
    "Props.C11_fixed",
    "Props.C11_long_gap_leaves_month"
   ],
   "note": "Dates from 0001-01-08; MODIFIED conventions need no gap of 300 days without business day (deviation proved)."
  },
  {
   "property": "C12",
   "status": "proved",
   "theorems": [
    "Props.C12_bounded_add_business_days",
    "Props.C12_bounded_subtract_business_days",
    "Props.C12_bounded_add_subtract",
    "Props.C12_unbounded_add_business_days",
    "Props.C12_unbounded_target_exists",
    "Props.C12_unbounded_rejects",
    "Props.C12_unbounded_add_subtract"
   ],
   "note": ""
  },
  {
   "property": "C13",
   "status": "proved",
   "theorems": [
    "Props.C13_bounded_between",
    "Props.C13_bounded_in_period",
    "Props.C13_unbounded_between",
    "Props.C13_unbounded_additive",
    "Props.C13_unbounded_in_period"
   ],
   "note": ""
  },
  {
   "property": "C14",
   "status": "proved",
   "theorems": [
    "Props.C14_is_business_day",
    "Props.C14_roll",
    "Props.C14_add_business_days",
    "Props.C14_business_days_between"
   ],
   "note": ""
  },
  {
   "property": "C15",
   "status": "proved",
   "theorems": [
    "Props.C15_forward",
    "Props.C15_backward",
    "Props.C15_backward_total",
    "Props.C15_forward_shape",
    "Props.C15_backward_shape",
    "Props.C15_degenerate_schedule_is_empty",
    "Props.C15_roll",
    "Props.C15_end_of_month"
   ],
   "note": ""
  },
  {
   "property": "C16",
   "status": "proved",
   "theorems": [
    "Props.C16_unbounded",
    "Props.C16_bounded",
    "Props.C16_unbounded_forward_total",
    "Props.C16_bounded_single_total",
    "Props.C16_bounded_batch_fails"
   ],
   "note": ""
  },
  {
   "property": "C17",
   "status": "proved",
   "theorems": [
    "Props.C17_actual_360",
    "Props.C17_actual_365_fixed",
    "Props.C17_actual_additive",
    "Props.C17_actual_antisymmetric",
    "Props.C17_actual_365_actual",
    "Props.C17_thirty_360_months",
    "Props.C17_thirty_360",
    "Props.C17_actual_actual_isda",
    "Props.C17_actual_actual_isda_additive",
    "Props.C17_actual_actual_isda_full_years",
    "Props.C17_actual_365_actual_not_antisymmetric",
    "Props.C17_actual_actual_counts_start_date"
   ],
   "note": ""
  },
  {
   "property": "C18",
   "status": "proved",
   "theorems": [
    "Props.C18_segment_diff",
    "Props.C18_segment_diff_exclusive",
    "Props.C18_diff",
    "Props.C18_segment_cumsum",
    "Props.C18_cumsum",
    "Props.C18_diff_of_cumsum",
    "Props.C18_cumsum_of_diff"
   ],
   "note": ""
  },
  {
   "property": "C19",
   "status": "proved",
   "theorems": [
    "Props.C19_forward_rates",
    "Props.C19_yields",
    "Props.C19_yields_roundtrip",
    "Props.C19_forwards_roundtrip",
    "Props.C19_forward_rate"
   ],
   "note": ""
  },
  {
   "property": "C20",
   "status": "proved",
   "theorems": [
    "Props.C20_pad_default",
    "Props.C20_pad_scalar",
    "Props.C20_pad_per_tensor",
    "Props.C20_sentinel_absorbed",
    "Props.C20_pad_dates"
   ],
   "note": ""
  },
  {
   "property": "C21",
   "status": "proved",
   "theorems": [
    "Props.C21_tpu",
    "Props.C21_left",
    "Props.C21_right",
    "Props.C21_cell",
    "Props.C21_cases",
    "Props.C21_knot",
    "Props.C21_between",
    "Props.C21_affine",
    "Props.C21_monotone"
   ],
   "note": ""
  },
  {
   "property": "C22",
   "status": "proved",
   "theorems": [
    "Props.C22_left_continuous",
    "Props.C22_right_continuous",
    "Props.C22_unique_piece",
    "Props.C22_conventions_agree",
    "Props.C22_find_interval_index",
    "Props.C22_find_interval_index_closed"
   ],
   "note": ""
  },
  {
   "property": "C23",
   "status": "proved",
   "theorems": [
    "Props.C23_additive",
    "Props.C23_empty",
    "Props.C23_one_piece",
    "Props.C23_integral"
   ],
   "note": ""
  },
  {
   "property": "C24",
   "status": "proved",
   "theorems": [
    "Props.C24_admissible",
    "Props.C24_panels",
    "Props.C24_linear",
    "Props.C24_cubic",
    "Props.C24_cubic_integral",
    "Props.C24_constant"
   ],
   "note": ""
  },
  {
   "property": "C25",
   "status": "proved",
   "theorems": [
    "Props.C25_sobol_sample",
    "Props.C25_sequence_indices",
    "Props.C25_recurrence",
    "Props.C25_sobol_impl",
    "Props.C25_implementations_agree"
   ],
   "note": ""
  },
  {
   "property": "C26",
   "status": "proved",
   "theorems": [
    "Props.C26_halton",
    "Props.C26_randomized",
    "Props.C26_sequence_indices"
   ],
   "note": ""
  },
  {
   "property": "C27",
   "status": "proved",
   "theorems": [
    "Props.C27_intervals_permuted",
    "Props.C27_stratified",
    "Props.C27_net",
    "Props.C27_range",
    "Props.C27_tent_range",
    "Props.C27_tent_reaches_one"
   ],
   "note": ""
  },
  {
   "property": "C28",
   "status": "proved",
   "theorems": [
    "Props.C28_result",
    "Props.C28_terminates",
    "Props.C28_batch"
   ],
   "note": "Real arithmetic, finite values. converged reports only the function tolerance; the position tolerance governs stopping (C28_terminates)."
  },
  {
   "property": "C29",
   "status": "proved",
   "theorems": [
    "Props.C29_converged",
    "Props.C29_not_converged",
    "Props.C29_batch",
    "Props.C29_line"
   ],
   "note": "Values that are not finite are collapsed to one value that behaves like NaN; element-wise functions."
  },
  {
   "property": "C30",
   "status": "partial",
   "theorems": [
    "Props.C30_european_expectation",
    "Props.C30_put_call_parity",
    "Props.C30_european_bounds",
    "Props.C30_american_ge_european",
    "Props.C30_american_ge_exercise_partial",
    "Props.C30_american_below_exercise",
    "Props.C30_american_call_without_dividends",
    "Props.C30_expired"
   ],
   "note": "Expectation, parity, bounds, American >= European, American call without dividends = European are proved. 'American >= exercise value' is false for positive rates (the code discounts the exercise value; negation proved); proved for rates <= 0 and, in general, for the exercise value discounted over one step."
  },
  {
   "property": "C31",
   "status": "proved",
   "theorems": [
    "Props.C31_expectation",
    "Props.C31_rejects",
    "Props.C31_put_call_parity",
    "Props.C31_bounds"
   ],
   "note": ""
  },
  {
   "property": "C32",
   "status": "partial",
   "theorems": [
    "Props.C32_asset_expectation",
    "Props.C32_binary_expectation_partial",
    "Props.C32_decomposition_partial",
    "Props.C32_call_plus_put",
    "Props.C32_binary_ignores_dividends"
   ],
   "note": "binary_price ignores dividend rates when spots are given (negation proved, C32_binary_ignores_dividends); its expectation and the decomposition are proved for forwards or zero dividends. Asset-or-nothing results hold without this restriction."
  },
  {
   "property": "C33",
   "status": "partial",
   "theorems": [
    "Props.C33_in_out_vanilla",
    "Props.C33_knock_out_expectation",
    "Props.C33_knock_in_expectation_partial",
    "Props.C33_at_barrier_out",
    "Props.C33_down_in_put_rebate",
    "Props.C33_time_unit_partial",
    "Props.C33_time_unit_rebate",
    "Props.C33_bounds",
    "Props.C33_crossed"
   ],
   "note": "Zero rebate: in + out = vanilla, knock-out = expectation over surviving paths (reflection principle density), bounds, time-unit invariance. Rebates: knock-in proved except the down-and-in put with strike above the barrier, whose table row is wrong (C33_down_in_put_rebate); the knock-out rebate depends on the unit of time (C33_time_unit_rebate); spots beyond the barrier give prices <= 0 (C33_crossed)."
  },
  {
   "property": "C34",
   "status": "proved",
   "theorems": [
    "Props.C34_replicates",
    "Props.C34_weights_positive",
    "Props.C34_dominates",
    "Props.C34_fair_strike_flat"
   ],
   "note": "Exact arithmetic; ascending strikes for calls and descending strikes for puts, as documented."
  },
  {
   "property": "C35",
   "status": "partial",
   "theorems": [
    "Props.C35_interval_partial",
    "Props.C35_number_partial",
    "Props.C35_flat_start_nan",
    "Props.C35_average_partial",
    "Props.C35_inputs_agree",
    "Props.C35_knots_partial",
    "Props.C35_yield_partial",
    "Props.C35_derivative_partial",
    "Props.C35_continuous_partial",
    "Props.C35_jump"
   ],
   "note": "Proved on every interval where the code gives numbers: forward at the left knot different from the discrete forward, or forward at the right knot equal to it. In the remaining case the result is not a number on the whole interval (C35_flat_start_nan), and the forward jumps at a knot when the next interval has its right knot forward equal to the discrete one (C35_jump)."
  },
  {
   "property": "C36",
   "status": "proved",
   "theorems": [
    "Props.C36_knot",
    "Props.C36_constant_forward",
    "Props.C36_constant_forward_any",
    "Props.C36_flat_outside",
    "Props.C36_flat_curve",
    "Props.C36_zero_time"
   ],
   "note": "Positive reference times as stated. The documented example has a first reference time of zero, for which the code divides zero by zero (C36_zero_time)."
  },
  {
   "property": "C37",
   "status": "partial",
   "theorems": [
    "Props.C37_exchange",
    "Props.C37_ir_exchange",
    "Props.C37_additive",
    "Props.C37_homogeneous",
    "Props.C37_equity_exchange",
    "Props.C37_equity_homogeneous_partial",
    "Props.C37_equity_dividends_not_scaled",
    "Props.C37_equity_total_return",
    "Props.C37_par",
    "Props.C37_par_zero",
    "Props.C37_par_telescopes"
   ],
   "note": "Interest rate swaps: complete. Equity leg: homogeneous in the notional only without dividends; the code does not multiply dividends with the notional (negation proved)."
  },
  {
   "property": "C38",
   "status": "partial",
   "theorems": [
    "Props.C38_natural",
    "Props.C38_first_derivative_partial",
    "Props.C38_clamped_partial",
    "Props.C38_missing_derivative",
    "Props.C38_kink",
    "Props.C38_flat_last_segment",
    "Props.C38_outside",
    "Props.C38_unique",
    "Props.C38_affine"
   ],
   "note": "Natural and default boundary proved in full. For clamped and prescribed first derivatives the code zeroes the right hand side of rows whose left segment is flat, so the claim is proved for data where flat segments are followed by flat ones only; otherwise it is false (C38_kink, C38_flat_last_segment). tf.linalg.tridiagonal_solve is modelled by the algorithm of Thomas."
  },
  {
   "property": "C39",
   "status": "partial",
   "theorems": [
    "Props.C39_mask",
    "Props.C39_time_step_partial",
    "Props.C39_fine_partial",
    "Props.C39_separated",
    "Props.C39_chain",
    "Props.C39_num_times",
    "Props.C39_num_times_unsorted",
    "Props.C39_given_grid"
   ],
   "note": "Proved for the three ways to build the grid. For time step grids the claim needs that closeness within the tolerance is transitive on the points (implied by separation of more than twice the tolerance, C39_separated); without it the claim is false (C39_chain). A time step above the last time makes a grid with a given number of points unsorted (C39_num_times_unsorted)."
  },
  {
   "property": "C40",
   "status": "proved",
   "theorems": [
    "Props.C40_state",
    "Props.C40_jacobian",
    "Props.C40_gradient",
    "Props.C40_accumulates",
    "Props.C40_accumulated_gradient"
   ],
   "note": "One batch element. The Jacobian of one step, computed by TensorFlow's tape, is assumed to be the derivative of the body."
  },
  {
   "property": "C41",
   "status": "proved",
   "theorems": [
    "Props.C41_point",
    "Props.C41_range",
    "Props.C41_stratified",
    "Props.C41_multiples",
    "Props.C41_waves"
   ],
   "note": ""
  },
  {
   "property": "C42",
   "status": "partial",
   "theorems": [
    "Props.C42_increasing",
    "Props.C42_exists_unique",
    "Props.C42_objective",
    "Props.C42_vega_partial",
    "Props.C42_vega_discounted",
    "Props.C42_converged",
    "Props.C42_linear_rate"
   ],
   "note": "Everything but 'vega is the derivative of the objective', which is false for discount factors other than 1: the code divides vega by the discount factor although the objective is undiscounted (C42_vega_discounted, C42_linear_rate)."
  },
  {
   "property": "C43",
   "status": "proved",
   "theorems": [
    "Props.C43_inverse"
   ],
   "note": ""
  },
  {
   "property": "C44",
   "status": "proved",
   "theorems": [
    "Props.C44_present_values",
    "Props.C44_single",
    "Props.C44_decreasing",
    "Props.C44_yields",
    "Props.C44_round_trip"
   ],
   "note": ""
  },
  {
   "property": "C45",
   "status": "partial",
   "theorems": [
    "Props.C45_step",
    "Props.C45_default_partial",
    "Props.C45_default_lower_spacing",
    "Props.C45_exact"
   ],
   "note": "Full at the inner points and for Dirichlet, Neumann and Robin conditions. The default condition is right only if the two grid steps next to the boundary are equal (C45_default_partial); otherwise the code divides by the wrong step (C45_default_lower_spacing)."
  },
  {
   "property": "C46",
   "status": "proved",
   "theorems": [
    "Props.C46_maximum",
    "Props.C46_comparison"
   ],
   "note": ""
  },
  {
   "property": "C47",
   "status": "proved",
   "theorems": [
    "Props.C47_backward_dt",
    "Props.C47_backward_steps",
    "Props.C47_forward_dt",
    "Props.C47_forward_steps",
    "Props.C47_backward_callable",
    "Props.C47_no_steps",
    "Props.C47_negative_start"
   ],
   "note": ""
  },
  {
   "property": "C48",
   "status": "proved",
   "theorems": [
    "Props.C48_weighted_factor",
    "Props.C48_extrapolation_factor",
    "Props.C48_stable",
    "Props.C48_damping",
    "Props.C48_second_order",
    "Props.C48_convergence"
   ],
   "note": ""
  },
  {
   "property": "C49",
   "status": "proved",
   "theorems": [
    "Props.C49_legendre",
    "Props.C49_kronrod",
    "Props.C49_positive"
   ],
   "note": "Up to the decimals of the table: 1e-24 (Legendre), 1e-20 (Kronrod)."
  },
  {
   "property": "C50",
   "status": "partial",
   "theorems": [
    "Props.C50_adaptive_partial",
    "Props.C50_error",
    "Props.C50_negative",
    "Props.C50_depth"
   ],
   "note": "Negative estimates are never refined and intervals left at the maximal depth are dropped; both deviations proved."
  },
  {
   "property": "C51",
   "status": "proved",
   "theorems": [
    "Props.C51_moments",
    "Props.C51_paths",
    "Props.C51_constant"
   ],
   "note": "one factor"
  },
  {
   "property": "C52",
   "status": "partial",
   "theorems": [
    "Props.C52_initial_curve",
    "Props.C52_maturity",
    "Props.C52_decreasing",
    "Props.C52_forward_expectation",
    "Props.C52_pricing_equation",
    "Props.C52_drift_constant_partial",
    "Props.C52_drift_jump"
   ],
   "note": "drift_fn only for constant volatility"
  },
  {
   "property": "C53",
   "status": "partial",
   "theorems": [
    "Props.C53_bond_option_partial",
    "Props.C53_parity",
    "Props.C53_no_variance"
   ],
   "note": "positive variance"
  },
  {
   "property": "C54",
   "status": "partial",
   "theorems": [
    "Props.C54_cap_floor_partial",
    "Props.C54_parity"
   ],
   "note": "positive variance"
  },
  {
   "property": "C55",
   "status": "partial",
   "theorems": [
    "Props.C55_any_rate",
    "Props.C55_swaption_partial",
    "Props.C55_tolerance",
    "Props.C55_batch",
    "Props.C55_parity",
    "Props.C55_break_even"
   ],
   "note": "positive variance (without variance the bond options deviate, C53_no_variance); the rate of the root finder enters with its tolerance (C55_tolerance, C55_batch)"
  },
  {
   "property": "C56",
   "status": "partial",
   "theorems": [
    "Props.C56_cumsum",
    "Props.C56_cumprod",
    "Props.C56_path_discount_partial",
    "Props.C56_first_step",
    "Props.C56_never_discounted",
    "Props.C56_bermudan_receiver"
   ],
   "note": "first step and receiver flag are deviations"
  },
  {
   "property": "C57",
   "status": "proved",
   "theorems": [
    "Props.C57_price",
    "Props.C57_versions",
    "Props.C57_upper",
    "Props.C57_basis_powers",
    "Props.C57_samples"
   ],
   "note": "Hypotheses: the pseudo inverse satisfies A pinv(A) A = A, discount factors are not zero, there is at least one exercise time and they are indices into the path."
  },
  {
   "property": "C58",
   "status": "partial",
   "theorems": [
    "Props.C58_recording",
    "Props.C58_for_loop",
    "Props.C58_for_loop_milstein",
    "Props.C58_euler_partial",
    "Props.C58_autonomous",
    "Props.C58_end_of_step",
    "Props.C58_times",
    "Props.C58_num_steps",
    "Props.C58_time_step",
    "Props.C58_same_point"
   ],
   "note": "The samples belong to the requested times; the coefficients are those at the end of the step instead of the start."
  },
  {
   "property": "C59",
   "status": "partial",
   "theorems": [
    "Props.C59_one_dim",
    "Props.C59_one_dim_mean",
    "Props.C59_constant_partial",
    "Props.C59_diagonal",
    "Props.C59_diagonal_mean",
    "Props.C59_symmetric",
    "Props.C59_contraction"
   ],
   "note": "True in one dimension and for volatilities that do not depend on the state. Otherwise the code deviates; the deviations are proved."
  },
  {
   "property": "C60",
   "status": "proved",
   "theorems": [
    "Props.C60_paths",
    "Props.C60_positive",
    "Props.C60_growth",
    "Props.C60_coefficients",
    "Props.C60_multi"
   ],
   "note": "The finite difference methods of the classes are not modelled."
  },
  {
   "property": "C61",
   "status": "partial",
   "theorems": [
    "Props.C61_variance_moments",
    "Props.C61_moments_exist",
    "Props.C61_nonneg",
    "Props.C61_log_spot",
    "Props.C61_drift",
    "Props.C61_covariance",
    "Props.C61_total_variance",
    "Props.C61_times",
    "Props.C61_parameters_partial",
    "Props.C61_old_parameters",
    "Props.C61_given_grid"
   ],
   "note": "C61_parameters_partial needs a grid without repeated points (C61_old_parameters otherwise); C61_times is for the grid made by the code (C61_given_grid is the deviation for a supplied grid)."
  },
  {
   "property": "C62",
   "status": "proved",
   "theorems": [
    "Props.C62_drift",
    "Props.C62_covariance",
    "Props.C62_correlation",
    "Props.C62_marginal",
    "Props.C62_generator",
    "Props.C62_discounting",
    "Props.C62_forward_adjoint"
   ],
   "note": ""
  },
  {
   "property": "C63",
   "status": "partial",
   "theorems": [
    "Props.C63_exact_law_partial",
    "Props.C63_steps",
    "Props.C63_moments",
    "Props.C63_no_volatility",
    "Props.C63_path",
    "Props.C63_seeds"
   ],
   "note": "C63_exact_law_partial needs sigma non-zero; C63_no_volatility is the deviation for sigma = 0."
  },
  {
   "property": "C64",
   "status": "proved",
   "theorems": [
    "Props.C64_scheme",
    "Props.C64_theta",
    "Props.C64_boundary",
    "Props.C64_extension_unique",
    "Props.C64_steady",
    "Props.C64_one_dimension",
    "Props.C64_solvable",
    "Props.C64_heat_solvable",
    "Props.C64_exact"
   ],
   "note": ""
  },
  {
   "property": "C65",
   "status": "proved",
   "theorems": [
    "Props.C65_fixed",
    "Props.C65_dates_unique",
    "Props.C65_total",
    "Props.C65_single_coupon_deviation",
    "Props.C65_penultimate_ignored_deviation"
   ],
   "note": ""
  },
  {
   "property": "C66",
   "status": "partial",
   "theorems": [
    "Props.C66_floating_partial",
    "Props.C66_plain",
    "Props.C66_past_basis_deviation",
    "Props.C66_reference_period_deviation",
    "Props.C66_fixing_batch_deviation",
    "Props.C66_month_end_deviation"
   ],
   "note": "Holds without basis (or past coupons), when reference periods are as long as coupon periods and without fixings in batches; otherwise the code deviates, see the deviation theorems."
  },
  {
   "property": "C67",
   "status": "partial",
   "theorems": [
    "Props.C67_two_sides",
    "Props.C67_annuity",
    "Props.C67_par_rate_partial",
    "Props.C67_bond_partial",
    "Props.C67_matured_bond_deviation",
    "Props.C67_note",
    "Props.C67_swap",
    "Props.C67_fra",
    "Props.C67_fra_single_curve",
    "Props.C67_fra_unspecified",
    "Props.C67_eurodollar",
    "Props.C67_par_rate_deviation"
   ],
   "note": "The par rate is proved before the first fixed payment and bonds before maturity; otherwise the code deviates."
  },
  {
   "property": "C68",
   "status": "partial",
   "theorems": [
    "Props.C68_calendar",
    "Props.C68_settlement_partial",
    "Props.C68_constant_rate",
    "Props.C68_no_holidays",
    "Props.C68_compounding",
    "Props.C68_two_days_deviation",
    "Props.C68_holiday_at_end_deviation"
   ],
   "note": "Reference periods of at least three days that begin and end on a business day. Shorter periods and periods ending on a holiday violate the property (deviation theorems)."
  },
  {
   "property": "C69",
   "status": "partial",
   "theorems": [
    "Props.C69_cap_floor_partial",
    "Props.C69_caplet_parity",
    "Props.C69_parity",
    "Props.C69_parity_single_curve",
    "Props.C69_caplet_bounds",
    "Props.C69_bounds",
    "Props.C69_market_volatility_deviation",
    "Props.C69_zero_notional_deviation",
    "Props.C69_notionals_deviation",
    "Props.C69_scalar_strike_deviation",
    "Props.C69_swaption_notional_deviation",
    "Props.C69_swaption_partial",
    "Props.C69_swaption_parity",
    "Props.C69_swaption_volatility_deviation",
    "Props.C69_payment_today_deviation"
   ],
   "note": "The value is proved for batches with a common notional, volatilities supplied in pricing_context, positive strikes and forward rates, and a fixing only for a single contract; the deviation theorems show what the code does otherwise."
  },
  {
   "property": "C70",
   "status": "partial",
   "theorems": [
    "Props.C70_positive",
    "Props.C70_nodes",
    "Props.C70_flat",
    "Props.C70_forward",
    "Props.C70_rollover",
    "Props.C70_bounds",
    "Props.C70_compounding_deviation",
    "Props.C70_from_discounts",
    "Props.C70_from_discounts_rate_deviation"
   ],
   "note": "Proved for continuously compounded rates; C70_compounding_deviation proves that the conversion of periodically compounded rates is wrong."
  },
  {
   "property": "C71",
   "status": "proved",
   "theorems": [
    "Props.C71_single_images",
    "Props.C71_single_bounds",
    "Props.C71_single_monotone",
    "Props.C71_single_markov",
    "Props.C71_single_opposite",
    "Props.C71_double_images",
    "Props.C71_double_symmetric",
    "Props.C71_double_cutoff",
    "Props.C71_double_barriers"
   ],
   "note": ""
  },
  {
   "property": "C72",
   "status": "proved",
   "theorems": [
    "Props.C72_mean_forward",
    "Props.C72_limits",
    "Props.C72_between",
    "Props.C72_zero_deviation"
   ],
   "note": "For times > 0; at zero the code gives NaN (C72_zero_deviation)."
  },
  {
   "property": "C73",
   "status": "proved",
   "theorems": [
    "Props.C73_moneyness",
    "Props.C73_scale",
    "Props.C73_minimum",
    "Props.C73_convex",
    "Props.C73_asymptotes",
    "Props.C73_implied_volatility"
   ],
   "note": ""
  },
  {
   "property": "C74",
   "status": "proved",
   "theorems": [
    "Props.C74_log",
    "Props.C74_abs",
    "Props.C74_scale",
    "Props.C74_constant_growth",
    "Props.C74_total_return"
   ],
   "note": ""
  },
  {
   "property": "C75",
   "status": "proved",
   "theorems": [
    "Props.C75_expectation",
    "Props.C75_brownian",
    "Props.C75_single",
    "Props.C75_put_call_parity",
    "Props.C75_rejects"
   ],
   "note": ""
  },
  {
   "property": "C76",
   "status": "partial",
   "theorems": [
    "Props.C76_beta",
    "Props.C76_split",
    "Props.C76_boundary",
    "Props.C76_phi",
    "Props.C76_1993",
    "Props.C76_2002_boundary",
    "Props.C76_homogeneous",
    "Props.C76_european",
    "Props.C76_expiry",
    "Props.C76_rejects",
    "Props.C76_exercise",
    "Props.C76_put_call_symmetry",
    "Props.C76_put_zero_rate_nan",
    "Props.C76_negative_prices",
    "Props.C76_negative_put",
    "Props.C76_cbnd",
    "Props.C76_cbnd_cases"
   ],
   "note": "Proved: boundary, phi, the 1993 value, value matching in the 2002 value, the bivariate distribution function up to the quadrature error, homogeneity, symmetry, European and expiry cases. Deviations proved: NaN for puts with rate zero, negative prices when b t + 2 sigma sqrt(t) < 0. Not proved: the Black-Scholes equation for psi (only value matching), which holds only up to the quadrature error."
  },
  {
   "property": "C77",
   "status": "partial",
   "theorems": [
    "Props.C77_exponent",
    "Props.C77_value_matching",
    "Props.C77_smooth_pasting",
    "Props.C77_premium_equation",
    "Props.C77_premium_nonneg",
    "Props.C77_at_least_exercise",
    "Props.C77_converged",
    "Props.C77_european",
    "Props.C77_rejects",
    "Props.C77_expiry",
    "Props.C77_zero_rate_deviates",
    "Props.C77_failed_search"
   ],
   "note": "Proved for nonzero rates; deviation proved for the rate zero and for searches ending in NaN."
  },
  {
   "property": "C78",
   "status": "partial",
   "theorems": [
    "Props.C78_ratio",
    "Props.C78_hagan",
    "Props.C78_scaling",
    "Props.C78_shift",
    "Props.C78_exact",
    "Props.C78_at_the_money",
    "Props.C78_symmetry",
    "Props.C78_price",
    "Props.C78_sign",
    "Props.C78_negative_volatility"
   ],
   "note": "all stated parts proved; the deviation (negative volatilities) is proved as such"
  },
  {
   "property": "C79",
   "status": "partial",
   "theorems": [
    "Props.C79_constrained",
    "Props.C79_round_trip",
    "Props.C79_in_bounds",
    "Props.C79_start",
    "Props.C79_default_alpha",
    "Props.C79_vol_loss",
    "Props.C79_price_loss",
    "Props.C79_rejects",
    "Props.C79_zero_start"
   ],
   "note": "all stated parts proved; the deviation (starting values on a bound) is proved as such"
  },
  {
   "property": "C80",
   "status": "partial",
   "theorems": [
    "Props.C80_uniform",
    "Props.C80_log_uniform",
    "Props.C80_rejects",
    "Props.C80_extra_point",
    "Props.C80_log_extra_point",
    "Props.C80_extended",
    "Props.C80_repeated_point"
   ],
   "note": "all stated parts proved; the deviation (repeated points) is proved as such"
  },
  {
   "property": "C81",
   "status": "proved",
   "theorems": [
    "Props.C81_row",
    "Props.C81_knots",
    "Props.C81_between",
    "Props.C81_bilinear"
   ],
   "note": "over the reals"
  },
  {
   "property": "C82",
   "status": "proved",
   "theorems": [
    "Props.C82_no_branch_cut",
    "Props.C82_riccati",
    "Props.C82_backward_equation",
    "Props.C82_at_zero",
    "Props.C82_bounded",
    "Props.C82_attari",
    "Props.C82_truncation",
    "Props.C82_rejects",
    "Props.C82_default",
    "Props.C82_price",
    "Props.C82_market",
    "Props.C82_put_call_parity"
   ],
   "note": "the existence of the law of the model is a hypothesis of the statements on prices"
  },
  {
   "property": "C83",
   "status": "partial",
   "theorems": [
    "Props.C83_rejects",
    "Props.C83_in_bounds",
    "Props.C83_start",
    "Props.C83_value",
    "Props.C83_loss",
    "Props.C83_admissible",
    "Props.C83_bound_start"
   ],
   "note": "all stated parts proved; the deviation (starting values on a bound) is proved as such"
  },
  {
   "property": "C84",
   "status": "partial",
   "theorems": [
    "Props.C84_flags",
    "Props.C84_converged_partial",
    "Props.C84_fixed_point_partial",
    "Props.C84_exact_start_partial",
    "Props.C84_zero_coupon",
    "Props.C84_irregular_start",
    "Props.C84_rejects",
    "Props.C84_defaults",
    "Props.C84_exact_start_fails",
    "Props.C84_unreported_failure"
   ],
   "note": "repricing bound, fixed points and exact start for curves on which the interpolation gives numbers; the deviations are proved as such"
  },
  {
   "property": "C85",
   "status": "partial",
   "theorems": [
    "Props.C85_converged_partial",
    "Props.C85_fixed_point",
    "Props.C85_exact_start",
    "Props.C85_telescopes",
    "Props.C85_never_failed",
    "Props.C85_unreported_failure",
    "Props.C85_legs_apart",
    "Props.C85_broadcast",
    "Props.C85_settlement_ignored",
    "Props.C85_fixed_discount_default",
    "Props.C85_single_payments_rejected",
    "Props.C85_discounting",
    "Props.C85_daycounts"
   ],
   "note": "repricing bound, fixed points and exact start for legs that end together and swaps with two payments in each leg; the deviations are proved as such"
  },
  {
   "property": "C86",
   "status": "proved",
   "theorems": [
    "Props.C86_objective",
    "Props.C86_zero_iff",
    "Props.C86_default_weights",
    "Props.C86_result",
    "Props.C86_rejects",
    "Props.C86_bootstrap",
    "Props.C86_zero_weight"
   ],
   "note": ""
  },
  {
   "property": "C87",
   "status": "partial",
   "theorems": [
    "Props.C87_consistent",
    "Props.C87_truthful",
    "Props.C87_iterations",
    "Props.C87_direction",
    "Props.C87_descent",
    "Props.C87_quadratic",
    "Props.C87_batch_interaction",
    "Props.C87_lost",
    "Props.C87_failed_forgotten",
    "Props.C87_first_test"
   ],
   "note": "consistency, truthfulness, descent and finite termination on quadratic objectives proved; members of a batch are not independent, which is proved as a deviation"
  },
  {
   "property": "C88",
   "status": "partial",
   "theorems": [
    "Props.C88_nodes",
    "Props.C88_rate_and_factor",
    "Props.C88_forward",
    "Props.C88_forward_times",
    "Props.C88_mixed_fails",
    "Props.C88_set_nodes",
    "Props.C88_yield",
    "Props.C88_daycounts",
    "Props.C88_mask",
    "Props.C88_curve_types",
    "Props.C88_signature",
    "Props.C88_fixings",
    "Props.C88_fixings_missing",
    "Props.C88_batch_partial",
    "Props.C88_padding_lost",
    "Props.C88_daycount_lost",
    "Props.C88_conventions",
    "Props.C88_quarter_fails"
   ],
   "note": "all clauses proved; batches of curves only for equal numbers of nodes, one interpolation and Actual/365, the other cases are proved as deviations"
  },
  {
   "property": "C89",
   "status": "partial",
   "theorems": [
    "Props.C89_fixed",
    "Props.C89_rates",
    "Props.C89_floating",
    "Props.C89_fixing_coupon",
    "Props.C89_telescope",
    "Props.C89_past_spread",
    "Props.C89_double_accrual",
    "Props.C89_single_coupon",
    "Props.C89_schedule",
    "Props.C89_irregular_exclusive",
    "Props.C89_first_coupon_date",
    "Props.C89_penultimate_ignored",
    "Props.C89_schedule_fn",
    "Props.C89_end_of_month",
    "Props.C89_weekend_start",
    "Props.C89_stub",
    "Props.C89_batch_fixings"
   ],
   "note": "valuation formulas, telescoping, schedules and fixings proved; several deviations of the code from the documented behaviour are proved"
  },
  {
   "property": "C90",
   "status": "partial",
   "theorems": [
    "Props.C90_groups",
    "Props.C90_batches",
    "Props.C90_periods_partial",
    "Props.C90_years",
    "Props.C90_flip",
    "Props.C90_annuity_partial",
    "Props.C90_fixed_rate",
    "Props.C90_annuity_legs",
    "Props.C90_annuity_fails",
    "Props.C90_delta",
    "Props.C90_delta_curve",
    "Props.C90_value",
    "Props.C90_bump",
    "Props.C90_annuity_past",
    "Props.C90_decimal"
   ],
   "note": "deviations: C90_years, C90_annuity_fails, C90_delta_curve, C90_annuity_past; C90_annuity_partial is for a single discount curve type"
  },
  {
   "property": "C91",
   "status": "partial",
   "theorems": [
    "Props.C91_price",
    "Props.C91_one_curve",
    "Props.C91_fair",
    "Props.C91_empty",
    "Props.C91_positions",
    "Props.C91_sign",
    "Props.C91_dates",
    "Props.C91_dates_rules",
    "Props.C91_end_of_month",
    "Props.C91_batches",
    "Props.C91_init"
   ],
   "note": "deviations: C91_sign, C91_end_of_month (the end of month rules); dates are proved for all rules without end of month that adjust"
  },
  {
   "property": "C92",
   "status": "partial",
   "theorems": [
    "Props.C92_args",
    "Props.C92_round",
    "Props.C92_rate_date",
    "Props.C92_batches",
    "Props.C92_receiver"
   ],
   "note": "deviation: C92_receiver"
  },
  {
   "property": "C93",
   "status": "partial",
   "theorems": [
    "Props.C93_bond_equation",
    "Props.C93_bond_ends",
    "Props.C93_short_rate",
    "Props.C93_symmetric",
    "Props.C93_sqrt_partial",
    "Props.C93_sqrt_perfect",
    "Props.C93_discounts",
    "Props.C93_state_y_partial",
    "Props.C93_state_y_drift",
    "Props.C93_gaussian_bond",
    "Props.C93_jumps",
    "Props.C93_step"
   ],
   "note": "Proved: pricing equation of bond prices for both models, ends, short rate, symmetry of sampled states, closed form of y as covariance for common jumps, discount factors, root of the correlation matrix. Partial because of the two deviations (different jump times, small eigenvalues), proved as C93_jumps and C93_sqrt_perfect."
  },
  {
   "property": "C94",
   "status": "partial",
   "theorems": [
    "Props.C94_indices",
    "Props.C94_bond_options_partial",
    "Props.C94_cap_floor_partial",
    "Props.C94_swaption_partial",
    "Props.C94_parity",
    "Props.C94_times",
    "Props.C94_past",
    "Props.C94_fd_point_partial",
    "Props.C94_fd_even",
    "Props.C94_fd_default",
    "Props.C94_fd_steps",
    "Props.C94_fd_grid",
    "Props.C94_fd_payoff"
   ],
   "note": "deviations: C94_times, C94_past, C94_fd_even, C94_fd_default, and C56_first_step for the discount factors"
  },
  {
   "property": "C95",
   "status": "partial",
   "theorems": [
    "Props.C95_dupire",
    "Props.C95_prices",
    "Props.C95_d1",
    "Props.C95_iv_partial",
    "Props.C95_flat",
    "Props.C95_term",
    "Props.C95_time_deviates",
    "Props.C95_curve_deviates",
    "Props.C95_moneyness",
    "Props.C95_precomputed_row",
    "Props.C95_precomputed_stale",
    "Props.C95_precomputed_deviates",
    "Props.C95_precomputed",
    "Props.C95_martingale",
    "Props.C95_correlation",
    "Props.C95_sample_grid",
    "Props.C95_rate"
   ],
   "note": "deviations: C95_time_deviates, C95_curve_deviates, C95_moneyness, C95_precomputed_stale"
  },
  {
   "property": "C96",
   "status": "partial",
   "theorems": [
    "Props.C96_hypersphere",
    "Props.C96_all_correlations",
    "Props.C96_hjm_bounds",
    "Props.C96_hjm_onto",
    "Props.C96_initial_angles",
    "Props.C96_clip",
    "Props.C96_batches",
    "Props.C96_single",
    "Props.C96_loss",
    "Props.C96_scaled_targets",
    "Props.C96_zero_targets",
    "Props.C96_hw_bounds",
    "Props.C96_hw_start",
    "Props.C96_hw_fails"
   ],
   "note": "deviations: C96_hw_fails, C96_zero_targets, C96_batches, C96_clip"
  },
  {
   "property": "C97",
   "status": "proved",
   "theorems": [
    "Props.C97_valid",
    "Props.C97_round_trip",
    "Props.C97_positions",
    "Props.C97_start",
    "Props.C97_loss",
    "Props.C97_estimate_vertex",
    "Props.C97_estimate_least_squares",
    "Props.C97_bad_fit",
    "Props.C97_single_quote"
   ],
   "note": ""
  },
  {
   "property": "C98",
   "status": "partial",
   "theorems": [
    "Props.C98_check",
    "Props.C98_covariance",
    "Props.C98_absorbed",
    "Props.C98_euler_martingale",
    "Props.C98_negative",
    "Props.C98_volatility_stops",
    "Props.C98_volatility",
    "Props.C98_integrated_variance",
    "Props.C98_uniform_law",
    "Props.C98_uniform_deviates",
    "Props.C98_absorption_deviates",
    "Props.C98_quadratic_moments",
    "Props.C98_cev",
    "Props.C98_inverse",
    "Props.C98_gradient",
    "Props.C98_gradient_zero",
    "Props.C98_truncation",
    "Props.C98_times",
    "Props.C98_nonneg",
    "Props.C98_stays_zero",
    "Props.C98_volvol_deviates",
    "Props.C98_draws",
    "Props.C98_draws_mixed",
    "Props.C98_needs_draws",
    "Props.C98_noncentrality",
    "Props.C98_dimension",
    "Props.C98_absorption",
    "Props.C98_equation",
    "Props.C98_scheme"
   ],
   "note": "deviations: C98_uniform_deviates, C98_absorption_deviates, C98_negative, C98_volatility_stops, C98_volvol_deviates, C98_draws_mixed, C98_needs_draws"
  },
  {
   "property": "C99",
   "status": "partial",
   "theorems": [
    "Props.C99_normal_cdf",
    "Props.C99_types",
    "Props.C99_integrands",
    "Props.C99_quotient",
    "Props.C99_rates",
    "Props.C99_value_matching",
    "Props.C99_denominator_positive",
    "Props.C99_defect",
    "Props.C99_converged",
    "Props.C99_initial",
    "Props.C99_initial_deviates",
    "Props.C99_grid",
    "Props.C99_boundary_total",
    "Props.C99_total",
    "Props.C99_arguments",
    "Props.C99_symmetry",
    "Props.C99_european",
    "Props.C99_premium",
    "Props.C99_call_deviates",
    "Props.C99_negative_dividend",
    "Props.C99_negative_dividend_fails"
   ],
   "note": "Deviations: negative dividend rates fail, calls without dividends are priced below the European price, single precision fails."
  },
  {
   "property": "C100",
   "status": "partial",
   "theorems": [
    "Props.C100_cholesky",
    "Props.C100_dynamics_partial",
    "Props.C100_correlation_deviates",
    "Props.C100_defaults_deviate",
    "Props.C100_grid",
    "Props.C100_grid_bounds",
    "Props.C100_grid_default",
    "Props.C100_integration",
    "Props.C100_density",
    "Props.C100_conditional_variance",
    "Props.C100_leverage",
    "Props.C100_leverage_zero",
    "Props.C100_initial_leverage",
    "Props.C100_initial_value",
    "Props.C100_coefficients",
    "Props.C100_scaling",
    "Props.C100_coefficients_deviate",
    "Props.C100_steps_deviate",
    "Props.C100_loop",
    "Props.C100_density_ignores_leverage",
    "Props.C100_evolution_partial",
    "Props.C100_evolution_deviates"
   ],
   "note": "Deviations: correlation on the wrong side, leverage never updated in the equation, coefficients and steps of wrong grid points, defaults that fail."
  },
  {
   "property": "C101",
   "status": "partial",
   "theorems": [
    "Props.C101_weight",
    "Props.C101_weight_terms",
    "Props.C101_convexity",
    "Props.C101_option_price",
    "Props.C101_replication",
    "Props.C101_replication_exact",
    "Props.C101_replication_weight",
    "Props.C101_price",
    "Props.C101_plain_price_partial",
    "Props.C101_past_basis_deviates",
    "Props.C101_past_coupon_nan",
    "Props.C101_fixed_rate_deviates",
    "Props.C101_term_years"
   ],
   "note": "Coupon sum holds without a basis and without convexity model for past coupons; deviations proved. C101_replication_exact is for a law with bounded support and exact integrals; the general case is C129."
  },
  {
   "property": "C102",
   "status": "partial",
   "theorems": [
    "Props.C102_riccati",
    "Props.C102_transform_partial",
    "Props.C102_forward",
    "Props.C102_forward_deviates",
    "Props.C102_at_zero",
    "Props.C102_inversion",
    "Props.C102_price",
    "Props.C102_parity",
    "Props.C102_seasoned",
    "Props.C102_rejects",
    "Props.C102_market",
    "Props.C102_single",
    "Props.C102_single_partial",
    "Props.C102_branch_deviates"
   ],
   "note": "The transform solves the equation where f stays off the negative real axis (C102_transform_partial, C102_single_partial); off it the code is wrong (C102_branch_deviates). Forward, value at zero, inversion, parity and past fixings are proved without this."
  },
  {
   "property": "C103",
   "status": "proved",
   "theorems": [
    "Props.C103_pseudo",
    "Props.C103_law",
    "Props.C103_draw_law",
    "Props.C103_rejects",
    "Props.C103_antithetic",
    "Props.C103_broadcast_deviates",
    "Props.C103_quasi_position",
    "Props.C103_quasi",
    "Props.C103_quantile",
    "Props.C103_quantile_law",
    "Props.C103_uniform",
    "Props.C103_uniform_deviates",
    "Props.C103_shuffle",
    "Props.C103_shuffle_law"
   ],
   "note": ""
  },
  {
   "property": "C104",
   "status": "proved",
   "theorems": [
    "Props.C104_coefficients",
    "Props.C104_rejects",
    "Props.C104_default_deviates",
    "Props.C104_paths",
    "Props.C104_law",
    "Props.C104_euler",
    "Props.C104_euler_constant",
    "Props.C104_draws",
    "Props.C104_stateless_deviates",
    "Props.C104_zero_time_deviates",
    "Props.C104_quasi",
    "Props.C104_quasi_deviates"
   ],
   "note": "Exact sampling with pseudo random numbers and the Euler scheme are proved as stated; the quasi random and stateless generators, the default volatility function and time zero deviate, as shown by the theorems with suffix _deviates."
  },
  {
   "property": "C105",
   "status": "proved",
   "theorems": [
    "Props.C105_common_shape",
    "Props.C105_broadcast",
    "Props.C105_batch",
    "Props.C105_event_rank_deviates"
   ],
   "note": "Proved for positive event ranks; the rank zero deviates, as shown by C105_event_rank_deviates."
  },
  {
   "property": "C106",
   "status": "proved",
   "theorems": [
    "Props.C106_iterate"
   ],
   "note": "Proved as stated."
  },
  {
   "property": "C107",
   "status": "proved",
   "theorems": [
    "Props.C107_exp2",
    "Props.C107_log2",
    "Props.C107_digits",
    "Props.C107_digits_deviates",
    "Props.C107_filter",
    "Props.C107_filter_nat",
    "Props.C107_tent",
    "Props.C107_tent_uniform"
   ],
   "note": "Proved as stated for up to 2^24 results; beyond, the number of digits deviates, as shown by C107_digits_deviates."
  },
  {
   "property": "C108",
   "status": "proved",
   "theorems": [
    "Props.C108_operations",
    "Props.C108_keys",
    "Props.C108_dates",
    "Props.C108_one",
    "Props.C108_periods",
    "Props.C108_arithmetic",
    "Props.C108_action"
   ],
   "note": "Proved as stated."
  },
  {
   "property": "C109",
   "status": "proved",
   "theorems": [
    "Props.C109_forward",
    "Props.C109_elementwise",
    "Props.C109_gradients",
    "Props.C109_one",
    "Props.C109_jacobian",
    "Props.C109_jacobian_vector",
    "Props.C109_jacobian_deviates"
   ],
   "note": "Proved as stated."
  },
  {
   "property": "C110",
   "status": "partial",
   "theorems": [
    "Props.C110_sample",
    "Props.C110_discount",
    "Props.C110_martingale",
    "Props.C110_price",
    "Props.C110_immediate",
    "Props.C110_position",
    "Props.C110_surface",
    "Props.C110_surface_nodes",
    "Props.C110_interpolator_deviates",
    "Props.C110_market_partial",
    "Props.C110_market_fails",
    "Props.C110_market_deviates",
    "Props.C110_arguments_deviates",
    "Props.C110_batches",
    "Props.C110_groups"
   ],
   "note": "Market data are right if currencies and equities have the same order when sorted (C110_market_partial). Otherwise they are not (C110_market_fails, C110_market_deviates). The rest is proved as stated."
  },
  {
   "property": "C111",
   "status": "partial",
   "theorems": [
    "Props.C111_map",
    "Props.C111_bonds",
    "Props.C111_payoff",
    "Props.C111_price_partial",
    "Props.C111_order",
    "Props.C111_order_deviates",
    "Props.C111_fd_grid",
    "Props.C111_fd_visits",
    "Props.C111_indices",
    "Props.C111_fd_payoff",
    "Props.C111_fd_exercise",
    "Props.C111_fd_final_partial",
    "Props.C111_fd_order_deviates",
    "Props.C111_fd_tolerance_deviates",
    "Props.C111_upper_deviates",
    "Props.C111_lower",
    "Props.C111_receiver_deviates"
   ],
   "note": "That the price does not depend on the other entries is false (C111_order_deviates, C111_fd_order_deviates); C111_price_partial and C111_fd_final_partial assume that the last unique time is the largest. The tolerance and the upper boundary are deviations as well. Receiver swaptions are C56 and C111_receiver_deviates. The rest is proved as stated."
  },
  {
   "property": "C112",
   "status": "partial",
   "theorems": [
    "Props.C112_moments",
    "Props.C112_forward",
    "Props.C112_paths",
    "Props.C112_law",
    "Props.C112_correlation_time",
    "Props.C112_covariance_partial",
    "Props.C112_covariance_deviates",
    "Props.C112_late_correlation_deviates",
    "Props.C112_curves",
    "Props.C112_volatility",
    "Props.C112_inputs",
    "Props.C112_batch_mean_reversion_deviates"
   ],
   "note": "The covariance is false in general (C112_covariance_deviates, C112_late_correlation_deviates); C112_covariance_partial proves it for equal mean reversions and grids without repeated points. Mean, variance, curves, volatility function and inputs are proved as stated."
  },
  {
   "property": "C113",
   "status": "partial",
   "theorems": [
    "Props.C113_pseudo",
    "Props.C113_quasi",
    "Props.C113_antithetic",
    "Props.C113_rejects",
    "Props.C113_milstein",
    "Props.C113_update",
    "Props.C113_update_single",
    "Props.C113_update_shape_deviates"
   ],
   "note": "The shape of the result is false for axes with a single entry and a new tensor that has to be broadcast (C113_update_shape_deviates); everything else is proved as stated."
  },
  {
   "property": "C114",
   "status": "proved",
   "theorems": [
    "Props.C114_payoff",
    "Props.C114_basis",
    "Props.C114_alone",
    "Props.C114_prices",
    "Props.C114_bounds",
    "Props.C114_rank_two_fails",
    "Props.C114_scalar_fails"
   ],
   "note": "Proved as stated. Discount factors of rank 2, which the documentation does not allow but the code has a branch for, always fail (C114_rank_two_fails)."
  },
  {
   "property": "C115",
   "status": "partial",
   "theorems": [
    "Props.C115_shift",
    "Props.C115_shift_lengths",
    "Props.C115_central_first",
    "Props.C115_central_second",
    "Props.C115_central_mixed",
    "Props.C115_mixed_boundary",
    "Props.C115_central_other",
    "Props.C115_central_exact",
    "Props.C115_mixed_exact",
    "Props.C115_names",
    "Props.C115_taylor",
    "Props.C115_nearest",
    "Props.C115_nearest_fails",
    "Props.C115_grid",
    "Props.C115_size_deviates",
    "Props.C115_size_partial",
    "Props.C115_rosenbrock"
   ],
   "note": "The limit on the size of the grid is false beyond 64 bits (C115_size_deviates, C115_size_partial), and exactly enough points fail in the search for neighbours (C115_nearest_fails); everything else is proved as stated."
  },
  {
   "property": "C116",
   "status": "proved",
   "theorems": [
    "Props.C116_step",
    "Props.C116_error",
    "Props.C116_error_dt",
    "Props.C116_implicit",
    "Props.C116_crank_nicolson",
    "Props.C116_converges"
   ],
   "note": ""
  },
  {
   "property": "C117",
   "status": "proved",
   "theorems": [
    "Props.C117_law",
    "Props.C117_put",
    "Props.C117_european",
    "Props.C117_american_call",
    "Props.C117_american_ge"
   ],
   "note": ""
  },
  {
   "property": "C118",
   "status": "proved",
   "theorems": [
    "Props.C118_expectation",
    "Props.C118_average",
    "Props.C118_error",
    "Props.C118_european",
    "Props.C118_black_scholes"
   ],
   "note": ""
  },
  {
   "property": "C119",
   "status": "proved",
   "theorems": [
    "Props.C119_simpson",
    "Props.C119_simpson_limit",
    "Props.C119_legendre",
    "Props.C119_kronrod",
    "Props.C119_adaptive",
    "Props.C119_heston"
   ],
   "note": ""
  },
  {
   "property": "C120",
   "status": "proved",
   "theorems": [
    "Props.C120_sobol_sample",
    "Props.C120_scrambled",
    "Props.C120_sobol_impl",
    "Props.C120_load",
    "Props.C120_error",
    "Props.C120_convergence",
    "Props.C120_first_coordinates"
   ],
   "note": ""
  },
  {
   "property": "C121",
   "status": "proved",
   "theorems": [
    "Props.C121_boxes",
    "Props.C121_error",
    "Props.C121_convergence"
   ],
   "note": ""
  },
  {
   "property": "C122",
   "status": "partial",
   "theorems": [
    "Props.C122_linear",
    "Props.C122_linear_convergence",
    "Props.C122_natural",
    "Props.C122_natural_fourth",
    "Props.C122_first_derivative_partial",
    "Props.C122_smallest_curvature",
    "Props.C122_smallest_curvature_first_derivative_partial",
    "Props.C122_two_dimensions"
   ],
   "note": "Linear, natural and two-dimensional interpolation as stated. For prescribed first derivatives flat segments must not be followed by others, because of the deviation C38_kink."
  },
  {
   "property": "C123",
   "status": "proved",
   "theorems": [
    "Props.C123_stable_step",
    "Props.C123_stable",
    "Props.C123_stable_dt",
    "Props.C123_step",
    "Props.C123_step_stationary",
    "Props.C123_error",
    "Props.C123_error_dt",
    "Props.C123_error_stationary",
    "Props.C123_error_stationary_dt"
   ],
   "note": ""
  },
  {
   "property": "C124",
   "status": "partial",
   "theorems": [
    "Props.C124_unchecked",
    "Props.C124_sobol_partial",
    "Props.C124_skip_deviates",
    "Props.C124_halton",
    "Props.C124_matrices",
    "Props.C124_lattice_partial",
    "Props.C124_lattice_deviates",
    "Props.C124_digital_net_partial",
    "Props.C124_indices_deviates",
    "Props.C124_linear",
    "Props.C124_sorted",
    "Props.C124_euler",
    "Props.C124_draws",
    "Props.C124_brent",
    "Props.C124_monotone_convex_partial",
    "Props.C124_times_deviates",
    "Props.C124_implied_vol",
    "Props.C124_implied_vol_unique",
    "Props.C124_expiry_deviates",
    "Props.C124_newton_deviates",
    "Props.C124_newton",
    "Props.C124_fair_strike",
    "Props.C124_lengths_deviates"
   ],
   "note": "Exact sets of accepted arguments for every function named; the functions with deviations in section 4 accept others than documented."
  },
  {
   "property": "C125",
   "status": "proved",
   "theorems": [
    "Props.C125_sobol",
    "Props.C125_sobol_boundary",
    "Props.C125_sobol_impl",
    "Props.C125_halton",
    "Props.C125_halton_boundary",
    "Props.C125_normal_bounded",
    "Props.C125_normal",
    "Props.C125_draws",
    "Props.C125_gbm",
    "Props.C125_european",
    "Props.C125_black_scholes",
    "Props.C125_randomized_deviates"
   ],
   "note": ""
  },
  {
   "property": "C126",
   "status": "proved",
   "theorems": [
    "Props.C126_iterations",
    "Props.C126_root",
    "Props.C126_early"
   ],
   "note": ""
  },
  {
   "property": "C127",
   "status": "proved",
   "theorems": [
    "Props.C127_quadratic",
    "Props.C127_finds",
    "Props.C127_rising",
    "Props.C127_rising_finds",
    "Props.C127_first_step",
    "Props.C127_cycle"
   ],
   "note": ""
  },
  {
   "property": "C128",
   "status": "proved",
   "theorems": [
    "Props.C128_value",
    "Props.C128_error",
    "Props.C128_converges",
    "Props.C128_quotes_exist",
    "Props.C128_flat",
    "Props.C128_geometric"
   ],
   "note": ""
  },
  {
   "property": "C129",
   "status": "partial",
   "theorems": [
    "Props.C129_points",
    "Props.C129_covariance",
    "Props.C129_bounds",
    "Props.C129_all_strikes",
    "Props.C129_weight",
    "Props.C129_low_strikes_deviates"
   ],
   "note": "All stated parts are proved; in the normal model the missing low strikes make the replication deviate (C129_low_strikes_deviates)."
  },
  {
   "property": "C130",
   "status": "partial",
   "theorems": [
    "Props.C130_formats",
    "Props.C130_single",
    "Props.C130_tuples",
    "Props.C130_ordinals",
    "Props.C130_numbers",
    "Props.C130_failure_deviates",
    "Props.C130_random",
    "Props.C130_random_uniform",
    "Props.C130_random_dates",
    "Props.C130_random_reversed",
    "Props.C130_subtract",
    "Props.C130_subtract_months"
   ],
   "note": "All parts proved except the type of the error, which is false (C130_failure_deviates)."
  },
  {
   "property": "C131",
   "status": "proved",
   "theorems": [
    "Props.C131_joint",
    "Props.C131_grid",
    "Props.C131_bond_options",
    "Props.C131_caps"
   ],
   "note": ""
  },
  {
   "property": "C132",
   "status": "partial",
   "theorems": [
    "Props.C132_swaptions_partial",
    "Props.C132_repeated_times_deviates"
   ],
   "note": "Proved if no expiry is a multiple of the time step below the longest expiry; otherwise false (C132_repeated_times_deviates)."
  },
  {
   "property": "C133",
   "status": "proved",
   "theorems": [
    "Props.C133_euler_distance",
    "Props.C133_euler_price",
    "Props.C133_euler_sampler",
    "Props.C133_european"
   ],
   "note": ""
  },
  {
   "property": "C134",
   "status": "partial",
   "theorems": [
    "Props.C134_milstein_sampler",
    "Props.C134_euler_sampler",
    "Props.C134_milstein_many_mean",
    "Props.C134_milstein_many_fails"
   ],
   "note": "Proved for the Euler sampler and for the Milstein sampler with one state; for several states false (C134_milstein_many_fails)."
  },
  {
   "property": "C135",
   "status": "partial",
   "theorems": [
    "Props.C135_expectation",
    "Props.C135_parity",
    "Props.C135_bounds",
    "Props.C135_consecutive",
    "Props.C135_default_notional_fails"
   ],
   "note": "Everything is proved except the default notional, for which there is an error (C135_default_notional_fails)."
  },
  {
   "property": "C136",
   "status": "proved",
   "theorems": [
    "Props.C136_euler_error",
    "Props.C136_euler_sampler",
    "Props.C136_solver_equation",
    "Props.C136_milstein_sampler",
    "Props.C136_euler_mean"
   ],
   "note": ""
  },
  {
   "property": "C137",
   "status": "proved",
   "theorems": [
    "Props.C137_forward",
    "Props.C137_forward_constant",
    "Props.C137_parity",
    "Props.C137_calendar",
    "Props.C137_lognormal",
    "Props.C137_flat",
    "Props.C137_sampler",
    "Props.C137_curve_forward",
    "Props.C137_default_state"
   ],
   "note": ""
  },
  {
   "property": "C138",
   "status": "proved",
   "theorems": [
    "Props.C138_coefficients",
    "Props.C138_averages",
    "Props.C138_price",
    "Props.C138_price_calibrated",
    "Props.C138_versions",
    "Props.C138_lower",
    "Props.C138_optimal",
    "Props.C138_polynomial"
   ],
   "note": ""
  },
  {
   "property": "C139",
   "status": "proved",
   "theorems": [
    "Props.C139_put",
    "Props.C139_gbm_spots",
    "Props.C139_gbm",
    "Props.C139_constant_basis"
   ],
   "note": ""
  },
  {
   "property": "C140",
   "status": "proved",
   "theorems": [
    "Props.C140_degree",
    "Props.C140_price",
    "Props.C140_gbm_markov",
    "Props.C140_gbm"
   ],
   "note": ""
  },
  {
   "property": "C141",
   "status": "proved",
   "theorems": [
    "Props.C141_put",
    "Props.C141_dates",
    "Props.C141_bounds",
    "Props.C141_regression"
   ],
   "note": ""
  },
  {
   "property": "C142",
   "status": "proved",
   "theorems": [
    "Props.C142_european",
    "Props.C142_call",
    "Props.C142_american",
    "Props.C142_bounds",
    "Props.C142_american_deviates"
   ],
   "note": ""
  },
  {
   "property": "C143",
   "status": "proved",
   "theorems": [
    "Props.C143_roundtrip",
    "Props.C143_cut",
    "Props.C143_accepts",
    "Props.C143_encoder_ignored",
    "Props.C143_encoder_deviates"
   ],
   "note": ""
  },
  {
   "property": "C144",
   "status": "proved",
   "theorems": [
    "Props.C144_stable_step",
    "Props.C144_stable",
    "Props.C144_error",
    "Props.C144_crank_nicolson",
    "Props.C144_converges"
   ],
   "note": ""
  },
  {
   "property": "C145",
   "status": "proved",
   "theorems": [
    "Props.C145_mode",
    "Props.C145_unstable",
    "Props.C145_stable_iff",
    "Props.C145_documented_deviates",
    "Props.C145_dirichlet",
    "Props.C145_neumann"
   ],
   "note": ""
  },
  {
   "property": "C146",
   "status": "proved",
   "theorems": [
    "Props.C146_normal",
    "Props.C146_default",
    "Props.C146_lognormal",
    "Props.C146_inflection",
    "Props.C146_at_the_money"
   ],
   "note": ""
  },
  {
   "property": "C147",
   "status": "proved",
   "theorems": [
    "Props.C147_accuracy",
    "Props.C147_methods",
    "Props.C147_normal"
   ],
   "note": ""
  },
  {
   "property": "C148",
   "status": "proved",
   "theorems": [
    "Props.C148_mode",
    "Props.C148_stable",
    "Props.C148_damped",
    "Props.C148_undamped",
    "Props.C148_composition"
   ],
   "note": ""
  },
  {
   "property": "C149",
   "status": "partial",
   "theorems": [
    "Props.C149_holidays",
    "Props.C149_weekends",
    "Props.C149_tensor_deviates",
    "Props.C149_mask_tensor_deviates",
    "Props.C149_empty_deviates",
    "Props.C149_no_mask_deviates"
   ],
   "note": "proved for lists, arrays and DateTensors of holidays and masks in a list; tensors of holidays, and masks given as tensors for bounded calendars, raise errors (deviation theorems)"
  },
  {
   "property": "C150",
   "status": "partial",
   "theorems": [
    "Props.C150_local",
    "Props.C150_local_deviates",
    "Props.C150_download",
    "Props.C150_results",
    "Props.C150_results_deviates",
    "Props.C150_environment_deviates",
    "Props.C150_trades",
    "Props.C150_ranges",
    "Props.C150_blob"
   ],
   "note": "paths with a leading slash leave the directory, results of portfolios with the same base name collide, and sizes from the environment raise an error (deviation theorems); the rest is proved"
  },
  {
   "property": "C151",
   "status": "proved",
   "theorems": [
    "Props.C151_price",
    "Props.C151_unknown",
    "Props.C151_generated"
   ],
   "note": ""
  }
 ]
}