import Verif.Props.AdesiWhaley
import Verif.Props.Adi
import Verif.Props.AdiConvergence
import Verif.Props.AmericanApprox
import Verif.Props.Amplification
import Verif.Props.AndersenLake
import Verif.Props.ArrayIo
import Verif.Props.AsianPrices
import Verif.Props.Barrier
import Verif.Props.BinaryPrices
import Verif.Props.BlackSwaption
import Verif.Props.BondCurve
import Verif.Props.BoundedCalendar
import Verif.Props.Brent
import Verif.Props.BrentBound
import Verif.Props.BrownianBridge
import Verif.Props.BusinessSchedules
import Verif.Props.CalendarFactory
import Verif.Props.CapFloor
import Verif.Props.Cbnd
import Verif.Props.Cir
import Verif.Props.CmsReplication
import Verif.Props.CmsSwap
import Verif.Props.ConjugateGradient
import Verif.Props.ConstantForward
import Verif.Props.CrankNicolson
import Verif.Props.Crr
import Verif.Props.CrrLimit
import Verif.Props.CubicSpline
import Verif.Props.CustomLoops
import Verif.Props.DateInputs
import Verif.Props.Dates
import Verif.Props.Daycounts
import Verif.Props.DemoPricer
import Verif.Props.DigitalNet
import Verif.Props.EulerGbm
import Verif.Props.FdConvergence
import Verif.Props.FdSolvers
import Verif.Props.FiniteDifference
import Verif.Props.Floating
import Verif.Props.Gauss
import Verif.Props.Gbm
import Verif.Props.Gradient
import Verif.Props.Grids
import Verif.Props.Halton
import Verif.Props.HaltonNet
import Verif.Props.Heston
import Verif.Props.HestonAsian
import Verif.Props.HestonAsianPrice
import Verif.Props.HestonAsianSingle
import Verif.Props.HestonCalibration
import Verif.Props.HestonOption
import Verif.Props.HestonPaths
import Verif.Props.HestonPrice
import Verif.Props.Hjm
import Verif.Props.HjmOptions
import Verif.Props.HullWhite
import Verif.Props.HullWhiteBonds
import Verif.Props.HullWhiteOptions
import Verif.Props.HullWhiteSimulation
import Verif.Props.HullWhiteSwaptionSimulation
import Verif.Props.HwBermudan
import Verif.Props.HwBermudanFd
import Verif.Props.ImpliedVol
import Verif.Props.ImpliedVolApprox
import Verif.Props.ImpliedVolConvergence
import Verif.Props.ImpliedVolLib
import Verif.Props.Instability
import Verif.Props.Instruments
import Verif.Props.Interpolation2D
import Verif.Props.InterpolationError
import Verif.Props.ItoProcess
import Verif.Props.LatticeRule
import Verif.Props.LeapCount
import Verif.Props.LegacyBrownian
import Verif.Props.LegacyEuler
import Verif.Props.LegacyQuasi
import Verif.Props.LinearInterpolation
import Verif.Props.LocalStochVol
import Verif.Props.LocalVolSimulation
import Verif.Props.LocalVolatility
import Verif.Props.Lsm
import Verif.Props.LsmBatch
import Verif.Props.LsmDegree
import Verif.Props.LsmLimit
import Verif.Props.LsmPolynomial
import Verif.Props.LsmPut
import Verif.Props.MaximumPrinciple
import Verif.Props.McDraws
import Verif.Props.Milstein
import Verif.Props.MonotoneConvex
import Verif.Props.MonteCarloLimit
import Verif.Props.NestedDict
import Verif.Props.Newton
import Verif.Props.NewtonConvergence
import Verif.Props.OptionDemo
import Verif.Props.OscillationDamped
import Verif.Props.Overnight
import Verif.Props.Pad
import Verif.Props.Parabolic
import Verif.Props.PathDiscount
import Verif.Props.Piecewise
import Verif.Props.PlatformAmerican
import Verif.Props.PlatformFra
import Verif.Props.PlatformMarket
import Verif.Props.PlatformStreams
import Verif.Props.PlatformSwap
import Verif.Props.PlatformSwaption
import Verif.Props.PrepareGrid
import Verif.Props.QmcUtils
import Verif.Props.QuadratureError
import Verif.Props.QuasiMonteCarlo
import Verif.Props.RandomOps
import Verif.Props.RandomOpsQuasi
import Verif.Props.RandomOpsShuffle
import Verif.Props.RateCalibration
import Verif.Props.RateCurve
import Verif.Props.RealizedVolatility
import Verif.Props.Sabr
import Verif.Props.SabrCalibration
import Verif.Props.SabrPaths
import Verif.Props.Sampling
import Verif.Props.Schedules
import Verif.Props.SchemesGbm
import Verif.Props.Scrambling
import Verif.Props.Segments
import Verif.Props.ShapeUtils
import Verif.Props.Simpson
import Verif.Props.SimulationStep
import Verif.Props.SobolNet
import Verif.Props.SplineUnique
import Verif.Props.Svensson
import Verif.Props.Svi
import Verif.Props.SviCalibration
import Verif.Props.Swap
import Verif.Props.SwapCurve
import Verif.Props.SwapCurveFit
import Verif.Props.Swaps
import Verif.Props.Swaptions
import Verif.Props.TensorWrapper
import Verif.Props.TreeAmerican
import Verif.Props.TreeCall
import Verif.Props.UnboundedCalendar
import Verif.Props.Validation
import Verif.Props.VanillaPrices
import Verif.Props.VarianceReplication
import Verif.Props.VarianceSwaps
import Verif.Props.VectorHullWhite
import Verif.Props.VectorHullWhiteLaw
import Verif.Props.WeakEuler
import Verif.Props.Yields

/-! Generated by tools/regen.py: the axioms every property theorem depends on. -/

#print axioms Props.C77_exponent
#print axioms Props.C77_value_matching
#print axioms Props.C77_smooth_pasting
#print axioms Props.C77_premium_equation
#print axioms Props.C77_premium_nonneg
#print axioms Props.C77_at_least_exercise
#print axioms Props.C77_converged
#print axioms Props.C77_european
#print axioms Props.C77_rejects
#print axioms Props.C77_expiry
#print axioms Props.C77_zero_rate_deviates
#print axioms Props.C77_failed_search
#print axioms Props.C64_scheme
#print axioms Props.C64_theta
#print axioms Props.C64_boundary
#print axioms Props.C64_extension_unique
#print axioms Props.C64_steady
#print axioms Props.C64_one_dimension
#print axioms Props.C64_solvable
#print axioms Props.C64_heat_solvable
#print axioms Props.C64_exact
#print axioms Props.C123_stable_step
#print axioms Props.C123_stable
#print axioms Props.C123_stable_dt
#print axioms Props.C123_step
#print axioms Props.C123_step_stationary
#print axioms Props.C123_error
#print axioms Props.C123_error_dt
#print axioms Props.C123_error_stationary
#print axioms Props.C123_error_stationary_dt
#print axioms Props.C76_beta
#print axioms Props.C76_split
#print axioms Props.C76_boundary
#print axioms Props.C76_phi
#print axioms Props.C76_1993
#print axioms Props.C76_2002_boundary
#print axioms Props.C76_homogeneous
#print axioms Props.C76_european
#print axioms Props.C76_expiry
#print axioms Props.C76_rejects
#print axioms Props.C76_exercise
#print axioms Props.C76_put_call_symmetry
#print axioms Props.C76_put_zero_rate_nan
#print axioms Props.C76_negative_prices
#print axioms Props.C76_negative_put
#print axioms Props.C48_weighted_factor
#print axioms Props.C48_extrapolation_factor
#print axioms Props.C48_stable
#print axioms Props.C48_damping
#print axioms Props.C48_second_order
#print axioms Props.C48_convergence
#print axioms Props.C99_normal_cdf
#print axioms Props.C99_types
#print axioms Props.C99_integrands
#print axioms Props.C99_quotient
#print axioms Props.C99_rates
#print axioms Props.C99_value_matching
#print axioms Props.C99_denominator_positive
#print axioms Props.C99_defect
#print axioms Props.C99_converged
#print axioms Props.C99_initial
#print axioms Props.C99_initial_deviates
#print axioms Props.C99_grid
#print axioms Props.C99_boundary_total
#print axioms Props.C99_total
#print axioms Props.C99_arguments
#print axioms Props.C99_symmetry
#print axioms Props.C99_european
#print axioms Props.C99_premium
#print axioms Props.C99_call_deviates
#print axioms Props.C99_negative_dividend
#print axioms Props.C99_negative_dividend_fails
#print axioms Props.C143_roundtrip
#print axioms Props.C143_cut
#print axioms Props.C143_accepts
#print axioms Props.C143_encoder_ignored
#print axioms Props.C143_encoder_deviates
#print axioms Props.C75_expectation
#print axioms Props.C75_brownian
#print axioms Props.C75_single
#print axioms Props.C75_put_call_parity
#print axioms Props.C75_rejects
#print axioms Props.C33_in_out_vanilla
#print axioms Props.C33_knock_out_expectation
#print axioms Props.C33_knock_in_expectation_partial
#print axioms Props.C33_at_barrier_out
#print axioms Props.C33_down_in_put_rebate
#print axioms Props.C33_time_unit_partial
#print axioms Props.C33_time_unit_rebate
#print axioms Props.C33_bounds
#print axioms Props.C33_crossed
#print axioms Props.C32_asset_expectation
#print axioms Props.C32_binary_expectation_partial
#print axioms Props.C32_decomposition_partial
#print axioms Props.C32_call_plus_put
#print axioms Props.C32_binary_ignores_dividends
#print axioms Props.C135_expectation
#print axioms Props.C135_parity
#print axioms Props.C135_bounds
#print axioms Props.C135_consecutive
#print axioms Props.C135_default_notional_fails
#print axioms Props.C84_flags
#print axioms Props.C84_converged_partial
#print axioms Props.C84_fixed_point_partial
#print axioms Props.C84_exact_start_partial
#print axioms Props.C84_zero_coupon
#print axioms Props.C84_irregular_start
#print axioms Props.C84_rejects
#print axioms Props.C84_defaults
#print axioms Props.C84_exact_start_fails
#print axioms Props.C84_unreported_failure
#print axioms Props.C09_bounded_is_business_day
#print axioms Props.C09_bounded_init
#print axioms Props.C10_bounded_following
#print axioms Props.C10_bounded_preceding
#print axioms Props.C10_bounded_modified_following_partial
#print axioms Props.C10_bounded_modified_preceding_partial
#print axioms Props.C10_bounded_fixed
#print axioms Props.C10_bounded_modified_year_one_fails
#print axioms Props.C10_bounded_long_gap_leaves_month
#print axioms Props.C09_bounded_repeated_holiday_is_business_day
#print axioms Props.C10_bounded_roll_is_business_day
#print axioms Props.C12_bounded_add_business_days
#print axioms Props.C12_bounded_subtract_business_days
#print axioms Props.C12_bounded_add_subtract
#print axioms Props.C13_bounded_between
#print axioms Props.C13_bounded_in_period
#print axioms Props.C28_result
#print axioms Props.C28_terminates
#print axioms Props.C28_batch
#print axioms Props.C126_iterations
#print axioms Props.C126_root
#print axioms Props.C126_early
#print axioms Props.C71_single_images
#print axioms Props.C71_single_bounds
#print axioms Props.C71_single_monotone
#print axioms Props.C71_single_markov
#print axioms Props.C71_single_opposite
#print axioms Props.C71_double_images
#print axioms Props.C71_double_symmetric
#print axioms Props.C71_double_cutoff
#print axioms Props.C71_double_barriers
#print axioms Props.C16_unbounded
#print axioms Props.C16_bounded
#print axioms Props.C16_unbounded_forward_total
#print axioms Props.C16_bounded_single_total
#print axioms Props.C16_bounded_batch_fails
#print axioms Props.C149_holidays
#print axioms Props.C149_weekends
#print axioms Props.C149_tensor_deviates
#print axioms Props.C149_mask_tensor_deviates
#print axioms Props.C149_empty_deviates
#print axioms Props.C149_no_mask_deviates
#print axioms Props.C69_cap_floor_partial
#print axioms Props.C69_caplet_parity
#print axioms Props.C69_parity
#print axioms Props.C69_parity_single_curve
#print axioms Props.C69_caplet_bounds
#print axioms Props.C69_bounds
#print axioms Props.C69_market_volatility_deviation
#print axioms Props.C69_zero_notional_deviation
#print axioms Props.C69_notionals_deviation
#print axioms Props.C69_scalar_strike_deviation
#print axioms Props.C76_cbnd
#print axioms Props.C76_cbnd_cases
#print axioms Props.C63_exact_law_partial
#print axioms Props.C63_steps
#print axioms Props.C63_moments
#print axioms Props.C63_no_volatility
#print axioms Props.C63_path
#print axioms Props.C63_seeds
#print axioms Props.C129_points
#print axioms Props.C129_covariance
#print axioms Props.C129_bounds
#print axioms Props.C129_all_strikes
#print axioms Props.C129_weight
#print axioms Props.C129_low_strikes_deviates
#print axioms Props.C101_weight
#print axioms Props.C101_weight_terms
#print axioms Props.C101_convexity
#print axioms Props.C101_option_price
#print axioms Props.C101_replication
#print axioms Props.C101_replication_exact
#print axioms Props.C101_replication_weight
#print axioms Props.C101_price
#print axioms Props.C101_plain_price_partial
#print axioms Props.C101_past_basis_deviates
#print axioms Props.C101_past_coupon_nan
#print axioms Props.C101_fixed_rate_deviates
#print axioms Props.C101_term_years
#print axioms Props.C87_consistent
#print axioms Props.C87_truthful
#print axioms Props.C87_iterations
#print axioms Props.C87_direction
#print axioms Props.C87_descent
#print axioms Props.C87_quadratic
#print axioms Props.C87_batch_interaction
#print axioms Props.C87_lost
#print axioms Props.C87_failed_forgotten
#print axioms Props.C87_first_test
#print axioms Props.C36_knot
#print axioms Props.C36_constant_forward
#print axioms Props.C36_constant_forward_any
#print axioms Props.C36_flat_outside
#print axioms Props.C36_flat_curve
#print axioms Props.C36_zero_time
#print axioms Props.C144_stable_step
#print axioms Props.C144_stable
#print axioms Props.C144_error
#print axioms Props.C144_crank_nicolson
#print axioms Props.C144_converges
#print axioms Props.C30_european_expectation
#print axioms Props.C30_put_call_parity
#print axioms Props.C30_european_bounds
#print axioms Props.C30_american_ge_european
#print axioms Props.C30_american_ge_exercise_partial
#print axioms Props.C30_american_below_exercise
#print axioms Props.C30_american_call_without_dividends
#print axioms Props.C30_expired
#print axioms Props.C117_law
#print axioms Props.C117_put
#print axioms Props.C117_european
#print axioms Props.C117_american_call
#print axioms Props.C117_american_ge
#print axioms Props.C38_natural
#print axioms Props.C38_first_derivative_partial
#print axioms Props.C38_clamped_partial
#print axioms Props.C38_missing_derivative
#print axioms Props.C38_kink
#print axioms Props.C38_flat_last_segment
#print axioms Props.C38_outside
#print axioms Props.C40_state
#print axioms Props.C40_jacobian
#print axioms Props.C40_gradient
#print axioms Props.C40_accumulates
#print axioms Props.C40_accumulated_gradient
#print axioms Props.C130_formats
#print axioms Props.C130_single
#print axioms Props.C130_tuples
#print axioms Props.C130_ordinals
#print axioms Props.C130_numbers
#print axioms Props.C130_failure_deviates
#print axioms Props.C130_random
#print axioms Props.C130_random_uniform
#print axioms Props.C130_random_dates
#print axioms Props.C130_random_reversed
#print axioms Props.C130_subtract
#print axioms Props.C130_subtract_months
#print axioms Props.C01_date_roundtrip
#print axioms Props.C01_ordinal_roundtrip
#print axioms Props.C01_epoch
#print axioms Props.C01_successor
#print axioms Props.C01_counting
#print axioms Props.C01_ordinal_is_day_number
#print axioms Props.C01_leap_year
#print axioms Props.C02_day_of_week
#print axioms Props.C02_same_weekday_iff
#print axioms Props.C02_day_of_year
#print axioms Props.C03_add_months
#print axioms Props.C03_add_years
#print axioms Props.C03_sub_months
#print axioms Props.C03_add_sub_cancel
#print axioms Props.C04_add_days
#print axioms Props.C04_sub_days
#print axioms Props.C04_period_length
#print axioms Props.C04_add_days_total
#print axioms Props.C05_is_end_of_month
#print axioms Props.C05_to_end_of_month
#print axioms Props.C06_comparisons
#print axioms Props.C07_from_year_month_day
#print axioms Props.C07_from_ordinals
#print axioms Props.C07_tensor_roundtrip
#print axioms Props.C07_from_np_datetimes
#print axioms Props.C07_constructors_agree
#print axioms Props.C17_actual_360
#print axioms Props.C17_actual_365_fixed
#print axioms Props.C17_actual_additive
#print axioms Props.C17_actual_antisymmetric
#print axioms Props.C17_actual_365_actual
#print axioms Props.C17_thirty_360_months
#print axioms Props.C17_thirty_360
#print axioms Props.C17_actual_actual_isda
#print axioms Props.C17_actual_actual_isda_additive
#print axioms Props.C17_actual_actual_isda_full_years
#print axioms Props.C17_actual_365_actual_not_antisymmetric
#print axioms Props.C17_actual_actual_counts_start_date
#print axioms Props.C151_price
#print axioms Props.C151_unknown
#print axioms Props.C151_generated
#print axioms Props.C25_sobol_sample
#print axioms Props.C25_sequence_indices
#print axioms Props.C25_recurrence
#print axioms Props.C25_sobol_impl
#print axioms Props.C25_implementations_agree
#print axioms Props.C133_euler_distance
#print axioms Props.C133_euler_price
#print axioms Props.C133_euler_sampler
#print axioms Props.C133_european
#print axioms Props.C116_step
#print axioms Props.C116_error
#print axioms Props.C116_error_dt
#print axioms Props.C116_implicit
#print axioms Props.C116_crank_nicolson
#print axioms Props.C116_converges
#print axioms Props.C47_backward_dt
#print axioms Props.C47_backward_steps
#print axioms Props.C47_forward_dt
#print axioms Props.C47_forward_steps
#print axioms Props.C47_backward_callable
#print axioms Props.C47_no_steps
#print axioms Props.C47_negative_start
#print axioms Props.C115_shift
#print axioms Props.C115_shift_lengths
#print axioms Props.C115_central_first
#print axioms Props.C115_central_second
#print axioms Props.C115_central_mixed
#print axioms Props.C115_mixed_boundary
#print axioms Props.C115_central_other
#print axioms Props.C115_central_exact
#print axioms Props.C115_mixed_exact
#print axioms Props.C115_names
#print axioms Props.C115_taylor
#print axioms Props.C115_nearest
#print axioms Props.C115_nearest_fails
#print axioms Props.C115_grid
#print axioms Props.C115_size_deviates
#print axioms Props.C115_size_partial
#print axioms Props.C115_rosenbrock
#print axioms Props.C66_floating_partial
#print axioms Props.C66_plain
#print axioms Props.C66_past_basis_deviation
#print axioms Props.C66_reference_period_deviation
#print axioms Props.C66_fixing_batch_deviation
#print axioms Props.C66_month_end_deviation
#print axioms Props.C49_legendre
#print axioms Props.C49_kronrod
#print axioms Props.C49_positive
#print axioms Props.C50_adaptive_partial
#print axioms Props.C50_error
#print axioms Props.C50_negative
#print axioms Props.C50_depth
#print axioms Props.C60_paths
#print axioms Props.C60_positive
#print axioms Props.C60_growth
#print axioms Props.C60_coefficients
#print axioms Props.C60_multi
#print axioms Props.C109_forward
#print axioms Props.C109_elementwise
#print axioms Props.C109_gradients
#print axioms Props.C109_one
#print axioms Props.C109_jacobian
#print axioms Props.C109_jacobian_vector
#print axioms Props.C109_jacobian_deviates
#print axioms Props.C80_uniform
#print axioms Props.C80_log_uniform
#print axioms Props.C80_rejects
#print axioms Props.C80_extra_point
#print axioms Props.C80_log_extra_point
#print axioms Props.C80_extended
#print axioms Props.C80_repeated_point
#print axioms Props.C26_halton
#print axioms Props.C26_randomized
#print axioms Props.C26_sequence_indices
#print axioms Props.C121_boxes
#print axioms Props.C121_error
#print axioms Props.C121_convergence
#print axioms Props.C61_variance_moments
#print axioms Props.C61_moments_exist
#print axioms Props.C61_nonneg
#print axioms Props.C61_log_spot
#print axioms Props.C61_drift
#print axioms Props.C61_covariance
#print axioms Props.C61_total_variance
#print axioms Props.C102_riccati
#print axioms Props.C102_transform_partial
#print axioms Props.C102_forward
#print axioms Props.C102_forward_deviates
#print axioms Props.C102_at_zero
#print axioms Props.C102_inversion
#print axioms Props.C102_price
#print axioms Props.C102_parity
#print axioms Props.C102_seasoned
#print axioms Props.C102_rejects
#print axioms Props.C102_market
#print axioms Props.C102_single
#print axioms Props.C102_single_partial
#print axioms Props.C102_branch_deviates
#print axioms Props.C83_rejects
#print axioms Props.C83_in_bounds
#print axioms Props.C83_start
#print axioms Props.C83_value
#print axioms Props.C83_loss
#print axioms Props.C83_admissible
#print axioms Props.C83_bound_start
#print axioms Props.C82_no_branch_cut
#print axioms Props.C82_riccati
#print axioms Props.C82_backward_equation
#print axioms Props.C82_at_zero
#print axioms Props.C82_bounded
#print axioms Props.C61_times
#print axioms Props.C61_parameters_partial
#print axioms Props.C61_old_parameters
#print axioms Props.C61_given_grid
#print axioms Props.C82_attari
#print axioms Props.C82_truncation
#print axioms Props.C82_rejects
#print axioms Props.C82_default
#print axioms Props.C82_price
#print axioms Props.C82_market
#print axioms Props.C82_put_call_parity
#print axioms Props.C93_bond_equation
#print axioms Props.C93_bond_ends
#print axioms Props.C93_short_rate
#print axioms Props.C93_symmetric
#print axioms Props.C93_sqrt_partial
#print axioms Props.C93_sqrt_perfect
#print axioms Props.C93_discounts
#print axioms Props.C93_state_y_partial
#print axioms Props.C93_state_y_drift
#print axioms Props.C93_gaussian_bond
#print axioms Props.C93_jumps
#print axioms Props.C94_indices
#print axioms Props.C94_bond_options_partial
#print axioms Props.C94_cap_floor_partial
#print axioms Props.C94_swaption_partial
#print axioms Props.C94_parity
#print axioms Props.C94_times
#print axioms Props.C94_past
#print axioms Props.C94_fd_point_partial
#print axioms Props.C94_fd_even
#print axioms Props.C94_fd_default
#print axioms Props.C94_fd_steps
#print axioms Props.C94_fd_grid
#print axioms Props.C94_fd_payoff
#print axioms Props.C51_moments
#print axioms Props.C51_paths
#print axioms Props.C51_constant
#print axioms Props.C52_initial_curve
#print axioms Props.C52_maturity
#print axioms Props.C52_decreasing
#print axioms Props.C52_forward_expectation
#print axioms Props.C52_pricing_equation
#print axioms Props.C52_drift_constant_partial
#print axioms Props.C52_drift_jump
#print axioms Props.C53_bond_option_partial
#print axioms Props.C53_parity
#print axioms Props.C53_no_variance
#print axioms Props.C54_cap_floor_partial
#print axioms Props.C54_parity
#print axioms Props.C55_any_rate
#print axioms Props.C55_swaption_partial
#print axioms Props.C55_tolerance
#print axioms Props.C55_batch
#print axioms Props.C55_parity
#print axioms Props.C55_break_even
#print axioms Props.C131_joint
#print axioms Props.C131_grid
#print axioms Props.C131_bond_options
#print axioms Props.C131_caps
#print axioms Props.C132_swaptions_partial
#print axioms Props.C132_repeated_times_deviates
#print axioms Props.C111_map
#print axioms Props.C111_bonds
#print axioms Props.C111_payoff
#print axioms Props.C111_price_partial
#print axioms Props.C111_order
#print axioms Props.C111_order_deviates
#print axioms Props.C111_fd_grid
#print axioms Props.C111_fd_visits
#print axioms Props.C111_indices
#print axioms Props.C111_fd_payoff
#print axioms Props.C111_fd_exercise
#print axioms Props.C111_fd_final_partial
#print axioms Props.C111_fd_order_deviates
#print axioms Props.C111_fd_tolerance_deviates
#print axioms Props.C111_upper_deviates
#print axioms Props.C111_lower
#print axioms Props.C111_receiver_deviates
#print axioms Props.C42_increasing
#print axioms Props.C42_exists_unique
#print axioms Props.C42_objective
#print axioms Props.C42_vega_partial
#print axioms Props.C42_vega_discounted
#print axioms Props.C42_converged
#print axioms Props.C42_linear_rate
#print axioms Props.C43_inverse
#print axioms Props.C146_normal
#print axioms Props.C146_default
#print axioms Props.C146_lognormal
#print axioms Props.C146_inflection
#print axioms Props.C146_at_the_money
#print axioms Props.C147_accuracy
#print axioms Props.C147_methods
#print axioms Props.C147_normal
#print axioms Props.C145_mode
#print axioms Props.C145_unstable
#print axioms Props.C145_stable_iff
#print axioms Props.C145_documented_deviates
#print axioms Props.C145_dirichlet
#print axioms Props.C145_neumann
#print axioms Props.C65_fixed
#print axioms Props.C65_dates_unique
#print axioms Props.C65_total
#print axioms Props.C65_single_coupon_deviation
#print axioms Props.C65_penultimate_ignored_deviation
#print axioms Props.C81_row
#print axioms Props.C81_knots
#print axioms Props.C81_between
#print axioms Props.C81_bilinear
#print axioms Props.C122_linear
#print axioms Props.C122_linear_convergence
#print axioms Props.C122_natural
#print axioms Props.C122_natural_fourth
#print axioms Props.C122_first_derivative_partial
#print axioms Props.C122_smallest_curvature
#print axioms Props.C122_smallest_curvature_first_derivative_partial
#print axioms Props.C122_two_dimensions
#print axioms Props.C62_drift
#print axioms Props.C62_covariance
#print axioms Props.C62_correlation
#print axioms Props.C62_marginal
#print axioms Props.C62_generator
#print axioms Props.C62_discounting
#print axioms Props.C62_forward_adjoint
#print axioms Props.C41_point
#print axioms Props.C41_range
#print axioms Props.C41_stratified
#print axioms Props.C41_multiples
#print axioms Props.C41_waves
#print axioms Props.C08_leap_days_between
#print axioms Props.C08_leap_days_antisymmetric
#print axioms Props.C08_days_in_leap_years
#print axioms Props.C08_days_in_leap_years_antisymmetric
#print axioms Props.C104_coefficients
#print axioms Props.C104_rejects
#print axioms Props.C104_default_deviates
#print axioms Props.C104_paths
#print axioms Props.C104_law
#print axioms Props.C104_euler
#print axioms Props.C104_euler_constant
#print axioms Props.C104_draws
#print axioms Props.C104_stateless_deviates
#print axioms Props.C104_zero_time_deviates
#print axioms Props.C104_quasi
#print axioms Props.C104_quasi_deviates
#print axioms Props.C21_tpu
#print axioms Props.C21_left
#print axioms Props.C21_right
#print axioms Props.C21_cell
#print axioms Props.C21_cases
#print axioms Props.C21_knot
#print axioms Props.C21_between
#print axioms Props.C21_affine
#print axioms Props.C21_monotone
#print axioms Props.C100_cholesky
#print axioms Props.C100_dynamics_partial
#print axioms Props.C100_correlation_deviates
#print axioms Props.C100_defaults_deviate
#print axioms Props.C100_grid
#print axioms Props.C100_grid_bounds
#print axioms Props.C100_grid_default
#print axioms Props.C100_integration
#print axioms Props.C100_density
#print axioms Props.C100_conditional_variance
#print axioms Props.C100_leverage
#print axioms Props.C100_leverage_zero
#print axioms Props.C100_initial_leverage
#print axioms Props.C100_initial_value
#print axioms Props.C100_coefficients
#print axioms Props.C100_scaling
#print axioms Props.C100_coefficients_deviate
#print axioms Props.C100_steps_deviate
#print axioms Props.C100_loop
#print axioms Props.C100_density_ignores_leverage
#print axioms Props.C100_evolution_partial
#print axioms Props.C100_evolution_deviates
#print axioms Props.C137_forward
#print axioms Props.C137_forward_constant
#print axioms Props.C137_parity
#print axioms Props.C137_calendar
#print axioms Props.C137_lognormal
#print axioms Props.C137_flat
#print axioms Props.C137_sampler
#print axioms Props.C137_curve_forward
#print axioms Props.C137_default_state
#print axioms Props.C95_dupire
#print axioms Props.C95_prices
#print axioms Props.C95_d1
#print axioms Props.C95_iv_partial
#print axioms Props.C95_flat
#print axioms Props.C95_term
#print axioms Props.C95_time_deviates
#print axioms Props.C95_curve_deviates
#print axioms Props.C95_moneyness
#print axioms Props.C95_precomputed_row
#print axioms Props.C95_precomputed_stale
#print axioms Props.C95_precomputed_deviates
#print axioms Props.C95_precomputed
#print axioms Props.C95_martingale
#print axioms Props.C95_correlation
#print axioms Props.C95_sample_grid
#print axioms Props.C95_rate
#print axioms Props.C57_price
#print axioms Props.C57_versions
#print axioms Props.C57_upper
#print axioms Props.C57_basis_powers
#print axioms Props.C57_samples
#print axioms Props.C114_payoff
#print axioms Props.C114_basis
#print axioms Props.C114_alone
#print axioms Props.C114_prices
#print axioms Props.C114_bounds
#print axioms Props.C114_rank_two_fails
#print axioms Props.C114_scalar_fails
#print axioms Props.C140_degree
#print axioms Props.C140_price
#print axioms Props.C140_gbm_markov
#print axioms Props.C140_gbm
#print axioms Props.C138_coefficients
#print axioms Props.C138_averages
#print axioms Props.C138_price
#print axioms Props.C138_price_calibrated
#print axioms Props.C138_versions
#print axioms Props.C138_lower
#print axioms Props.C138_optimal
#print axioms Props.C138_polynomial
#print axioms Props.C139_put
#print axioms Props.C139_gbm_spots
#print axioms Props.C139_gbm
#print axioms Props.C139_constant_basis
#print axioms Props.C46_maximum
#print axioms Props.C46_comparison
#print axioms Props.C113_pseudo
#print axioms Props.C113_quasi
#print axioms Props.C113_antithetic
#print axioms Props.C113_rejects
#print axioms Props.C113_milstein
#print axioms Props.C113_update
#print axioms Props.C113_update_single
#print axioms Props.C113_update_shape_deviates
#print axioms Props.C59_one_dim
#print axioms Props.C59_one_dim_mean
#print axioms Props.C59_constant_partial
#print axioms Props.C59_diagonal
#print axioms Props.C59_diagonal_mean
#print axioms Props.C59_symmetric
#print axioms Props.C59_contraction
#print axioms Props.C35_interval_partial
#print axioms Props.C35_number_partial
#print axioms Props.C35_flat_start_nan
#print axioms Props.C35_average_partial
#print axioms Props.C35_inputs_agree
#print axioms Props.C35_knots_partial
#print axioms Props.C35_yield_partial
#print axioms Props.C35_derivative_partial
#print axioms Props.C35_continuous_partial
#print axioms Props.C35_jump
#print axioms Props.C118_expectation
#print axioms Props.C118_average
#print axioms Props.C118_error
#print axioms Props.C118_european
#print axioms Props.C118_black_scholes
#print axioms Props.C106_iterate
#print axioms Props.C29_converged
#print axioms Props.C29_not_converged
#print axioms Props.C29_batch
#print axioms Props.C29_line
#print axioms Props.C127_quadratic
#print axioms Props.C127_finds
#print axioms Props.C127_rising
#print axioms Props.C127_rising_finds
#print axioms Props.C127_first_step
#print axioms Props.C127_cycle
#print axioms Props.C150_local
#print axioms Props.C150_local_deviates
#print axioms Props.C150_download
#print axioms Props.C150_results
#print axioms Props.C150_results_deviates
#print axioms Props.C150_environment_deviates
#print axioms Props.C150_trades
#print axioms Props.C150_ranges
#print axioms Props.C150_blob
#print axioms Props.C148_mode
#print axioms Props.C148_stable
#print axioms Props.C148_damped
#print axioms Props.C148_undamped
#print axioms Props.C148_composition
#print axioms Props.C68_calendar
#print axioms Props.C68_settlement_partial
#print axioms Props.C68_constant_rate
#print axioms Props.C68_no_holidays
#print axioms Props.C68_compounding
#print axioms Props.C68_two_days_deviation
#print axioms Props.C68_holiday_at_end_deviation
#print axioms Props.C20_pad_default
#print axioms Props.C20_pad_scalar
#print axioms Props.C20_pad_per_tensor
#print axioms Props.C20_sentinel_absorbed
#print axioms Props.C20_pad_dates
#print axioms Props.C45_step
#print axioms Props.C45_default_partial
#print axioms Props.C45_default_lower_spacing
#print axioms Props.C45_exact
#print axioms Props.C56_cumsum
#print axioms Props.C56_cumprod
#print axioms Props.C56_path_discount_partial
#print axioms Props.C56_first_step
#print axioms Props.C56_never_discounted
#print axioms Props.C56_bermudan_receiver
#print axioms Props.C22_left_continuous
#print axioms Props.C22_right_continuous
#print axioms Props.C22_unique_piece
#print axioms Props.C22_conventions_agree
#print axioms Props.C22_find_interval_index
#print axioms Props.C22_find_interval_index_closed
#print axioms Props.C23_additive
#print axioms Props.C23_empty
#print axioms Props.C23_one_piece
#print axioms Props.C23_integral
#print axioms Props.C110_sample
#print axioms Props.C110_discount
#print axioms Props.C110_martingale
#print axioms Props.C110_price
#print axioms Props.C110_immediate
#print axioms Props.C110_position
#print axioms Props.C110_surface
#print axioms Props.C110_surface_nodes
#print axioms Props.C110_interpolator_deviates
#print axioms Props.C110_market_partial
#print axioms Props.C110_market_fails
#print axioms Props.C110_market_deviates
#print axioms Props.C110_arguments_deviates
#print axioms Props.C110_batches
#print axioms Props.C110_groups
#print axioms Props.C91_price
#print axioms Props.C91_one_curve
#print axioms Props.C91_fair
#print axioms Props.C91_empty
#print axioms Props.C91_positions
#print axioms Props.C91_sign
#print axioms Props.C91_dates
#print axioms Props.C91_dates_rules
#print axioms Props.C91_end_of_month
#print axioms Props.C91_batches
#print axioms Props.C91_init
#print axioms Props.C88_nodes
#print axioms Props.C88_rate_and_factor
#print axioms Props.C88_forward
#print axioms Props.C88_forward_times
#print axioms Props.C88_mixed_fails
#print axioms Props.C88_set_nodes
#print axioms Props.C88_yield
#print axioms Props.C88_daycounts
#print axioms Props.C88_mask
#print axioms Props.C88_curve_types
#print axioms Props.C88_signature
#print axioms Props.C88_fixings
#print axioms Props.C88_fixings_missing
#print axioms Props.C88_batch_partial
#print axioms Props.C88_padding_lost
#print axioms Props.C88_daycount_lost
#print axioms Props.C88_conventions
#print axioms Props.C88_quarter_fails
#print axioms Props.C89_fixed
#print axioms Props.C89_rates
#print axioms Props.C89_floating
#print axioms Props.C89_fixing_coupon
#print axioms Props.C89_telescope
#print axioms Props.C89_past_spread
#print axioms Props.C89_double_accrual
#print axioms Props.C89_single_coupon
#print axioms Props.C89_schedule
#print axioms Props.C89_irregular_exclusive
#print axioms Props.C89_first_coupon_date
#print axioms Props.C89_penultimate_ignored
#print axioms Props.C89_schedule_fn
#print axioms Props.C89_end_of_month
#print axioms Props.C89_weekend_start
#print axioms Props.C89_stub
#print axioms Props.C89_batch_fixings
#print axioms Props.C90_groups
#print axioms Props.C90_batches
#print axioms Props.C90_periods_partial
#print axioms Props.C90_years
#print axioms Props.C90_flip
#print axioms Props.C90_annuity_partial
#print axioms Props.C90_fixed_rate
#print axioms Props.C90_annuity_legs
#print axioms Props.C90_annuity_fails
#print axioms Props.C90_delta
#print axioms Props.C90_delta_curve
#print axioms Props.C90_value
#print axioms Props.C90_bump
#print axioms Props.C90_annuity_past
#print axioms Props.C92_args
#print axioms Props.C92_round
#print axioms Props.C92_rate_date
#print axioms Props.C92_batches
#print axioms Props.C92_receiver
#print axioms Props.C39_mask
#print axioms Props.C39_time_step_partial
#print axioms Props.C39_fine_partial
#print axioms Props.C39_separated
#print axioms Props.C39_chain
#print axioms Props.C39_num_times
#print axioms Props.C39_num_times_unsorted
#print axioms Props.C39_given_grid
#print axioms Props.C107_exp2
#print axioms Props.C107_log2
#print axioms Props.C107_digits
#print axioms Props.C107_digits_deviates
#print axioms Props.C107_filter
#print axioms Props.C107_filter_nat
#print axioms Props.C107_tent
#print axioms Props.C107_tent_uniform
#print axioms Props.C119_simpson
#print axioms Props.C119_simpson_limit
#print axioms Props.C119_legendre
#print axioms Props.C119_kronrod
#print axioms Props.C119_adaptive
#print axioms Props.C119_heston
#print axioms Props.C125_sobol
#print axioms Props.C125_sobol_boundary
#print axioms Props.C125_sobol_impl
#print axioms Props.C125_halton
#print axioms Props.C125_halton_boundary
#print axioms Props.C125_normal_bounded
#print axioms Props.C125_normal
#print axioms Props.C125_draws
#print axioms Props.C125_gbm
#print axioms Props.C125_european
#print axioms Props.C125_black_scholes
#print axioms Props.C125_randomized_deviates
#print axioms Props.C103_pseudo
#print axioms Props.C103_law
#print axioms Props.C103_draw_law
#print axioms Props.C103_rejects
#print axioms Props.C103_antithetic
#print axioms Props.C103_broadcast_deviates
#print axioms Props.C103_quasi_position
#print axioms Props.C103_quasi
#print axioms Props.C103_quantile
#print axioms Props.C103_quantile_law
#print axioms Props.C103_uniform
#print axioms Props.C103_uniform_deviates
#print axioms Props.C103_shuffle
#print axioms Props.C103_shuffle_law
#print axioms Props.C96_hypersphere
#print axioms Props.C96_all_correlations
#print axioms Props.C96_hjm_bounds
#print axioms Props.C96_hjm_onto
#print axioms Props.C96_initial_angles
#print axioms Props.C96_clip
#print axioms Props.C96_batches
#print axioms Props.C96_single
#print axioms Props.C96_loss
#print axioms Props.C96_scaled_targets
#print axioms Props.C96_zero_targets
#print axioms Props.C96_hw_bounds
#print axioms Props.C96_hw_start
#print axioms Props.C96_hw_fails
#print axioms Props.C70_positive
#print axioms Props.C70_nodes
#print axioms Props.C70_flat
#print axioms Props.C70_forward
#print axioms Props.C70_rollover
#print axioms Props.C70_bounds
#print axioms Props.C70_compounding_deviation
#print axioms Props.C70_from_discounts
#print axioms Props.C70_from_discounts_rate_deviation
#print axioms Props.C74_log
#print axioms Props.C74_abs
#print axioms Props.C74_scale
#print axioms Props.C74_constant_growth
#print axioms Props.C74_total_return
#print axioms Props.C78_ratio
#print axioms Props.C78_hagan
#print axioms Props.C78_scaling
#print axioms Props.C78_shift
#print axioms Props.C78_exact
#print axioms Props.C78_at_the_money
#print axioms Props.C78_symmetry
#print axioms Props.C78_price
#print axioms Props.C78_sign
#print axioms Props.C78_negative_volatility
#print axioms Props.C79_constrained
#print axioms Props.C79_round_trip
#print axioms Props.C79_in_bounds
#print axioms Props.C79_start
#print axioms Props.C79_default_alpha
#print axioms Props.C79_vol_loss
#print axioms Props.C79_price_loss
#print axioms Props.C79_rejects
#print axioms Props.C79_zero_start
#print axioms Props.C98_check
#print axioms Props.C98_covariance
#print axioms Props.C98_absorbed
#print axioms Props.C98_euler_martingale
#print axioms Props.C98_negative
#print axioms Props.C98_volatility_stops
#print axioms Props.C98_volatility
#print axioms Props.C98_integrated_variance
#print axioms Props.C98_uniform_law
#print axioms Props.C98_uniform_deviates
#print axioms Props.C98_absorption_deviates
#print axioms Props.C98_quadratic_moments
#print axioms Props.C98_cev
#print axioms Props.C98_inverse
#print axioms Props.C98_gradient
#print axioms Props.C98_gradient_zero
#print axioms Props.C98_truncation
#print axioms Props.C98_times
#print axioms Props.C98_nonneg
#print axioms Props.C98_stays_zero
#print axioms Props.C98_volvol_deviates
#print axioms Props.C98_draws
#print axioms Props.C98_draws_mixed
#print axioms Props.C98_needs_draws
#print axioms Props.C98_noncentrality
#print axioms Props.C98_dimension
#print axioms Props.C98_absorption
#print axioms Props.C98_equation
#print axioms Props.C98_scheme
#print axioms Props.C58_recording
#print axioms Props.C58_for_loop
#print axioms Props.C58_for_loop_milstein
#print axioms Props.C58_euler_partial
#print axioms Props.C58_autonomous
#print axioms Props.C58_end_of_step
#print axioms Props.C58_times
#print axioms Props.C58_num_steps
#print axioms Props.C58_time_step
#print axioms Props.C58_same_point
#print axioms Props.C15_forward
#print axioms Props.C15_backward
#print axioms Props.C15_backward_total
#print axioms Props.C15_forward_shape
#print axioms Props.C15_backward_shape
#print axioms Props.C15_degenerate_schedule_is_empty
#print axioms Props.C15_roll
#print axioms Props.C15_end_of_month
#print axioms Props.C134_milstein_sampler
#print axioms Props.C134_euler_sampler
#print axioms Props.C134_milstein_many_mean
#print axioms Props.C134_milstein_many_fails
#print axioms Props.C27_intervals_permuted
#print axioms Props.C27_stratified
#print axioms Props.C27_net
#print axioms Props.C27_range
#print axioms Props.C27_tent_range
#print axioms Props.C27_tent_reaches_one
#print axioms Props.C18_segment_diff
#print axioms Props.C18_segment_diff_exclusive
#print axioms Props.C18_diff
#print axioms Props.C18_segment_cumsum
#print axioms Props.C18_cumsum
#print axioms Props.C18_diff_of_cumsum
#print axioms Props.C18_cumsum_of_diff
#print axioms Props.C19_forward_rates
#print axioms Props.C19_yields
#print axioms Props.C19_yields_roundtrip
#print axioms Props.C19_forwards_roundtrip
#print axioms Props.C19_forward_rate
#print axioms Props.C105_common_shape
#print axioms Props.C105_broadcast
#print axioms Props.C105_batch
#print axioms Props.C105_event_rank_deviates
#print axioms Props.C24_admissible
#print axioms Props.C24_panels
#print axioms Props.C24_linear
#print axioms Props.C24_cubic
#print axioms Props.C24_cubic_integral
#print axioms Props.C24_constant
#print axioms Props.C93_step
#print axioms Props.C90_decimal
#print axioms Props.C120_sobol_sample
#print axioms Props.C120_scrambled
#print axioms Props.C120_sobol_impl
#print axioms Props.C120_load
#print axioms Props.C120_error
#print axioms Props.C120_convergence
#print axioms Props.C120_first_coordinates
#print axioms Props.C38_unique
#print axioms Props.C38_affine
#print axioms Props.C72_mean_forward
#print axioms Props.C72_limits
#print axioms Props.C72_between
#print axioms Props.C72_zero_deviation
#print axioms Props.C73_moneyness
#print axioms Props.C73_scale
#print axioms Props.C73_minimum
#print axioms Props.C73_convex
#print axioms Props.C73_asymptotes
#print axioms Props.C73_implied_volatility
#print axioms Props.C97_valid
#print axioms Props.C97_round_trip
#print axioms Props.C97_positions
#print axioms Props.C97_start
#print axioms Props.C97_loss
#print axioms Props.C97_estimate_vertex
#print axioms Props.C97_estimate_least_squares
#print axioms Props.C97_bad_fit
#print axioms Props.C97_single_quote
#print axioms Props.C37_exchange
#print axioms Props.C37_ir_exchange
#print axioms Props.C37_additive
#print axioms Props.C37_homogeneous
#print axioms Props.C37_equity_exchange
#print axioms Props.C37_equity_homogeneous_partial
#print axioms Props.C37_equity_dividends_not_scaled
#print axioms Props.C37_equity_total_return
#print axioms Props.C37_par
#print axioms Props.C37_par_zero
#print axioms Props.C37_par_telescopes
#print axioms Props.C85_converged_partial
#print axioms Props.C85_fixed_point
#print axioms Props.C85_exact_start
#print axioms Props.C85_telescopes
#print axioms Props.C85_never_failed
#print axioms Props.C85_unreported_failure
#print axioms Props.C85_legs_apart
#print axioms Props.C85_broadcast
#print axioms Props.C85_settlement_ignored
#print axioms Props.C85_fixed_discount_default
#print axioms Props.C85_single_payments_rejected
#print axioms Props.C85_discounting
#print axioms Props.C85_daycounts
#print axioms Props.C86_objective
#print axioms Props.C86_zero_iff
#print axioms Props.C86_default_weights
#print axioms Props.C86_result
#print axioms Props.C86_rejects
#print axioms Props.C86_bootstrap
#print axioms Props.C86_zero_weight
#print axioms Props.C67_two_sides
#print axioms Props.C67_annuity
#print axioms Props.C67_par_rate_partial
#print axioms Props.C67_bond_partial
#print axioms Props.C67_matured_bond_deviation
#print axioms Props.C67_note
#print axioms Props.C67_swap
#print axioms Props.C67_fra
#print axioms Props.C67_fra_single_curve
#print axioms Props.C67_fra_unspecified
#print axioms Props.C67_eurodollar
#print axioms Props.C67_par_rate_deviation
#print axioms Props.C69_swaption_notional_deviation
#print axioms Props.C69_swaption_partial
#print axioms Props.C69_swaption_parity
#print axioms Props.C69_swaption_volatility_deviation
#print axioms Props.C69_payment_today_deviation
#print axioms Props.C108_operations
#print axioms Props.C108_keys
#print axioms Props.C108_dates
#print axioms Props.C108_one
#print axioms Props.C108_periods
#print axioms Props.C108_arithmetic
#print axioms Props.C108_action
#print axioms Props.C141_put
#print axioms Props.C141_dates
#print axioms Props.C141_bounds
#print axioms Props.C141_regression
#print axioms Props.C142_european
#print axioms Props.C142_call
#print axioms Props.C142_american
#print axioms Props.C142_bounds
#print axioms Props.C142_american_deviates
#print axioms Props.C09_unbounded_is_business_day
#print axioms Props.C09_unbounded_no_mask_no_business_days
#print axioms Props.C09_unbounded_unsorted_holidays_missed
#print axioms Props.C09_unbounded_fake_holiday
#print axioms Props.C11_following
#print axioms Props.C11_preceding
#print axioms Props.C11_modified_following_partial
#print axioms Props.C11_modified_preceding_partial
#print axioms Props.C11_fixed
#print axioms Props.C11_long_gap_leaves_month
#print axioms Props.C12_unbounded_add_business_days
#print axioms Props.C12_unbounded_target_exists
#print axioms Props.C12_unbounded_rejects
#print axioms Props.C12_unbounded_add_subtract
#print axioms Props.C13_unbounded_between
#print axioms Props.C13_unbounded_additive
#print axioms Props.C13_unbounded_in_period
#print axioms Props.C14_is_business_day
#print axioms Props.C14_roll
#print axioms Props.C14_add_business_days
#print axioms Props.C14_business_days_between
#print axioms Props.C124_unchecked
#print axioms Props.C124_sobol_partial
#print axioms Props.C124_skip_deviates
#print axioms Props.C124_halton
#print axioms Props.C124_matrices
#print axioms Props.C124_lattice_partial
#print axioms Props.C124_lattice_deviates
#print axioms Props.C124_digital_net_partial
#print axioms Props.C124_indices_deviates
#print axioms Props.C124_linear
#print axioms Props.C124_sorted
#print axioms Props.C124_euler
#print axioms Props.C124_draws
#print axioms Props.C124_brent
#print axioms Props.C124_monotone_convex_partial
#print axioms Props.C124_times_deviates
#print axioms Props.C124_implied_vol
#print axioms Props.C124_implied_vol_unique
#print axioms Props.C124_expiry_deviates
#print axioms Props.C124_newton_deviates
#print axioms Props.C124_newton
#print axioms Props.C124_fair_strike
#print axioms Props.C124_lengths_deviates
#print axioms Props.C31_expectation
#print axioms Props.C31_rejects
#print axioms Props.C31_put_call_parity
#print axioms Props.C31_bounds
#print axioms Props.C128_value
#print axioms Props.C128_error
#print axioms Props.C128_converges
#print axioms Props.C128_quotes_exist
#print axioms Props.C128_flat
#print axioms Props.C128_geometric
#print axioms Props.C34_replicates
#print axioms Props.C34_weights_positive
#print axioms Props.C34_dominates
#print axioms Props.C34_fair_strike_flat
#print axioms Props.C112_moments
#print axioms Props.C112_forward
#print axioms Props.C112_paths
#print axioms Props.C112_law
#print axioms Props.C112_correlation_time
#print axioms Props.C112_covariance_partial
#print axioms Props.C112_covariance_deviates
#print axioms Props.C112_late_correlation_deviates
#print axioms Props.C112_curves
#print axioms Props.C112_volatility
#print axioms Props.C112_inputs
#print axioms Props.C112_batch_mean_reversion_deviates
#print axioms Props.C136_euler_error
#print axioms Props.C136_euler_sampler
#print axioms Props.C136_solver_equation
#print axioms Props.C136_milstein_sampler
#print axioms Props.C136_euler_mean
#print axioms Props.C44_present_values
#print axioms Props.C44_single
#print axioms Props.C44_decreasing
#print axioms Props.C44_yields
#print axioms Props.C44_round_trip
