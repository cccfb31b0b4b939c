# Property theorems

Generated by `tools/regen.py` from the doc comments in `lean/Verif/Props`.

## C01 Ordinal and calendar date conversions are mutually inverse Gregorian conversions

Converting a valid proleptic Gregorian date (year, month, day) to an ordinal and back returns the same date, converting any ordinal to a date gives a valid date and back gives the same ordinal, 0001-01-01 has ordinal 1, and the date of ordinal n+1 is the calendar successor of the date of ordinal n (day+1, or first of next month, or 1 January of next year, with the Gregorian leap rule). (for every integer ordinal and every valid (year, month, day), with years of any size and sign)

* `C01_date_roundtrip` (Props/Dates.lean): date → ordinal → date is the identity on valid dates.
* `C01_ordinal_roundtrip` (Props/Dates.lean): ordinal → date → ordinal is the identity on all integers, and the date is valid.
* `C01_epoch` (Props/Dates.lean): 0001-01-01 has ordinal 1.
* `C01_successor` (Props/Dates.lean): the date of ordinal `n + 1` is the calendar successor of the date of ordinal `n`.
* `C01_counting` (Props/Dates.lean): the date of ordinal `n ≥ 0` is reached from 0000-12-31 by `n` steps of "next day"; an absolute characterisation of the conversion by counting days.
* `C01_ordinal_is_day_number` (Props/Dates.lean): the ordinal of a valid date is the day number of the calendar specification.
* `C01_leap_year` (Props/Dates.lean): leap years.

## C02 Day of week and day of year are calendar-correct

day_of_week of 0001-01-01 is 0 (Monday) and it advances by one modulo seven with each following day, so equal weekdays differ by multiples of 7 days; day_of_year is the number of days since the last day of the previous year, between 1 and 365 (366 in leap years). (for every valid date)

* `C02_day_of_week` (Props/Dates.lean): 0001-01-01 is a Monday (0) and each following day is the following weekday, cyclically.
* `C02_same_weekday_iff` (Props/Dates.lean): two dates have the same weekday iff they are a whole number of weeks apart.
* `C02_day_of_year` (Props/Dates.lean): day of year counts days since the last day of the previous year, and is between 1 and the length of the year.

## C03 Adding months or years clamps to the end of the month and never does anything else

date + n months (n any integer) lands exactly n calendar months away, has day equal to the smaller of the original day and the length of the target month, and is a valid date whose ordinal is consistent with its fields; adding years behaves as adding 12n months. (for every valid date and every integer number of months/years (positive or negative) whose target is year >= 1 (and for the fields, every target))

* `C03_add_months` (Props/Dates.lean): adding `n` months moves the month counter by exactly `n` and clamps the day to the length of the target month; the result is again a consistent representation of a valid date.
* `C03_add_years` (Props/Dates.lean): adding years is adding twelve times as many months.
* `C03_sub_months` (Props/Dates.lean): subtracting months/years is adding the negative number.
* `C03_add_sub_cancel` (Props/Dates.lean): when no clamping is needed (day at most 28) adding and subtracting months cancel.

## C04 Day and week arithmetic is exact and invertible; going before 0001-01-01 is an error and never a wrong date

date + n days is the n-th calendar successor (predecessor for negative n), weeks are 7 days, (date + n days) - n days is the date itself and days_until measures exactly n; a result before 0001-01-01 raises instead of returning a date. (for every valid date and every integer n)

* `C04_add_days` (Props/Dates.lean): adding `n ≥ 0` days is the `n`-th calendar successor.
* `C04_sub_days` (Props/Dates.lean): subtracting `n` days from a date that is `n` steps after `d` gives `d` (when `d` is 0001-01-01 or later).
* `C04_period_length` (Props/Dates.lean): the length of a period in days is the number of days that lead to the date plus the period, and a period that cannot be added has no length.
* `C04_add_days_total` (Props/Dates.lean): a day/week addition either gives a date exactly `n` days (7·`n` days) away, in or after year 1, or raises; it raises exactly when the target lies before 0001-01-01.

## C05 End of month queries agree with the calendar

is_end_of_month is true exactly when the next calendar day is in a different month; to_end_of_month returns the unique end-of-month date in the same year and month, is idempotent and never moves backwards. (for every valid date)

* `C05_is_end_of_month` (Props/Dates.lean): `is_end_of_month` says whether the next calendar day is in another month.
* `C05_to_end_of_month` (Props/Dates.lean): `to_end_of_month` gives the end-of-month date of the same month, does not move backwards and is idempotent.

## C06 Date comparison is chronological order

The comparison operators on date tensors (by ordinal) coincide with lexicographic comparison of (year, month, day), and equality coincides with equality of the three fields. (for every pair of valid dates)

* `C06_comparisons` (Props/Dates.lean): the comparison operators are the chronological (lexicographic) order and equality of the dates.

## C07 Validated constructors accept exactly the valid dates and all constructors agree

from_year_month_day with validation succeeds exactly when the triple is a Gregorian date with year >= 1 and then stores the same fields and the right ordinal; from_ordinals succeeds exactly for positive ordinals; a DateTensor converted to a tensor and back is unchanged; every accepted object satisfies the invariant that ordinal and fields describe the same day. (for every integer triple and integer ordinal)

* `C07_from_year_month_day` (Props/Dates.lean): the validating constructor accepts exactly the valid dates of year 1 or later, and then stores exactly that date.
* `C07_from_ordinals` (Props/Dates.lean): `from_ordinals` accepts exactly the positive ordinals and builds the date with that day number.
* `C07_tensor_roundtrip` (Props/Dates.lean): a date tensor packed into a tensor and unpacked is unchanged.
* `C07_from_np_datetimes` (Props/Dates.lean): numpy day counts: `n` days after 1970-01-01.
* `C07_constructors_agree` (Props/Dates.lean): two accepted representations of the same date are identical, whatever constructor made them.

## C08 Leap day and leap year day counters count

leap_days_between(start, end) is the number of February 29ths in [start, end), days_in_leap_years_between is the number of days in [start, end) belonging to leap years and together with the non-leap count it sums to the day difference. (for every pair of valid dates with start <= end (and the antisymmetric extension otherwise))

* `C08_leap_days_between` (Props/LeapCount.lean): `leap_days_between` is the number of February 29ths in `[start, end)`.
* `C08_leap_days_antisymmetric` (Props/LeapCount.lean): with the dates exchanged the count changes sign (documented: "negative or zero").
* `C08_days_in_leap_years` (Props/LeapCount.lean): `days_in_leap_years_between` is the number of days of `[start, end)` in leap years, and the non-leap count is the number of days of `[start, end)` in non-leap years.
* `C08_days_in_leap_years_antisymmetric` (Props/LeapCount.lean): the antisymmetric extension.

## C09 Business day predicate is: not a weekend day and not a holiday

For both holiday calendar implementations a date inside the calendar is reported as a business day exactly when its weekday is not masked as weekend and it is not in the supplied holidays. (for every weekend mask, holiday list and date accepted by the calendar)

* `C09_bounded_is_business_day` (Props/BoundedCalendar.lean): on a date of the calendar's years, `is_business_day` is true exactly when the weekday is not masked and the date is not a holiday; outside the years the call fails.
* `C09_bounded_init` (Props/BoundedCalendar.lean): the constructor. With a non-empty list of distinct valid holidays (of years ≥ 1) the calendar covers exactly the years from the earliest to the latest holiday, whatever `start_year` and `end_year` are; without holidays it covers `start_year..end_year`, both being required.
* `C09_bounded_repeated_holiday_is_business_day` (Props/BoundedCalendar.lean): C09/C13 (deviation found in the code): a holiday listed twice is counted as a business day, because `scatter_nd` adds the two entries up; the table then holds `1 - 2 = -1`.
* `C09_unbounded_is_business_day` (Props/UnboundedCalendar.lean): C09 (unbounded): business day = working weekday and not a holiday.
* `C09_unbounded_no_mask_no_business_days` (Props/UnboundedCalendar.lean): C09 (deviation found in the code): with holidays but `weekend_mask=None` no day at all is reported to be a business day.
* `C09_unbounded_unsorted_holidays_missed` (Props/UnboundedCalendar.lean): C09 (deviation found in the code): holidays that are not sorted are not found by the binary search: Christmas 2020 is reported as a business day.
* `C09_unbounded_fake_holiday` (Props/UnboundedCalendar.lean): C09 (deviation found in the code): the fake holiday. With a Saturday/Sunday weekend and any (here: one, unrelated) holiday, Monday 0001-01-01 is reported not to be a business day.

## C10 Rolling finds the nearest business day in the promised direction (bounded calendar)

FOLLOWING returns the first business day on or after the date, PRECEDING the last on or before, MODIFIED_FOLLOWING the following one unless it falls in another month in which case the preceding one, MODIFIED_PRECEDING symmetrically, NONE the date itself; business days are fixed points and a date that cannot be rolled inside the calendar bounds raises instead of yielding a wrong date. (for every calendar (mask, holidays, bounds), date and convention)

* `C10_bounded_following` (Props/BoundedCalendar.lean): FOLLOWING returns the first business day on or after the date, and fails exactly when the date is outside the calendar or there is no such day within the calendar.
* `C10_bounded_preceding` (Props/BoundedCalendar.lean): PRECEDING returns the last business day on or before the date.
* `C10_bounded_modified_following_partial` (Props/BoundedCalendar.lean): MODIFIED_FOLLOWING: first business day on or after the date unless that leaves the month, in which case the last business day on or before. Partial: the full statement has no hypotheses `hs` (see `C10_bounded_modified_year_one_fails`) and `hg` (see `C10_bounded_long_gap_leaves_month`); it is false of the code without them.
* `C10_bounded_modified_preceding_partial` (Props/BoundedCalendar.lean): MODIFIED_PRECEDING, mirrored (partial for the same reasons).
* `C10_bounded_fixed` (Props/BoundedCalendar.lean): NONE leaves the date alone; a business day is a fixed point of every convention (for calendars that do not start in year 1).
* `C10_bounded_modified_year_one_fails` (Props/BoundedCalendar.lean): C10 (deviation found in the code): for a calendar starting in year 1 the MODIFIED conventions fail on every date, because building the tables converts the ordinal 0 with validation.
* `C10_bounded_long_gap_leaves_month` (Props/BoundedCalendar.lean): C10 (deviation found in the code): without the `NoLongGap` hypothesis MODIFIED_FOLLOWING may leave the month: only month *numbers* are compared, so 2020-02-10 rolls to 2021-02-01.
* `C10_bounded_roll_is_business_day` (Props/BoundedCalendar.lean): C10/C12: with any convention other than NONE the rolled date is a business day of the calendar.

## C11 Rolling finds the nearest business day in the promised direction (unbounded calendar)

Same statement as for the bounded calendar, for the arithmetic (table free) implementation, without bounds. (for every weekend mask with at least one weekday, every sorted duplicate-free holiday list, every date and convention)

* `C11_following` (Props/UnboundedCalendar.lean): FOLLOWING returns the first business day on or after the date. It never fails.
* `C11_preceding` (Props/UnboundedCalendar.lean): PRECEDING returns the last business day on or before the date.
* `C11_modified_following_partial` (Props/UnboundedCalendar.lean): MODIFIED_FOLLOWING. Partial: needs `hg`, because the code compares month numbers only (`C11_long_gap_leaves_month`).
* `C11_modified_preceding_partial` (Props/UnboundedCalendar.lean): MODIFIED_PRECEDING (partial as above; from ordinal 400, February of year 2, on).
* `C11_fixed` (Props/UnboundedCalendar.lean): NONE is the identity, and business days are fixed points of every convention.
* `C11_long_gap_leaves_month` (Props/UnboundedCalendar.lean): C11 (deviation found in the code): if every day from 2020-02-01 to 2021-01-31 is a holiday, MODIFIED_FOLLOWING takes 2020-02-10 to 2021-02-01.

## C12 Adding n business days lands on the n-th business day after the rolled date

add_business_days(d, n, conv) equals the business day b such that exactly n business days lie in [roll(d), b) (n negative: -n business days in [b, roll(d))); n = 0 gives roll(d); subtracting n undoes adding n from a business day. (for every calendar, date, rolling convention and integer n (bounded calendar: with results inside bounds, otherwise error))

* `C12_bounded_add_business_days` (Props/BoundedCalendar.lean): adding `n` business days lands on the business day that has exactly `n` business days between it and the (rolled) start; it fails exactly when the start is not usable (NONE and not a business day, or the roll fails) or that day lies outside the calendar.
* `C12_bounded_subtract_business_days` (Props/BoundedCalendar.lean): subtracting is adding the opposite.
* `C12_bounded_add_subtract` (Props/BoundedCalendar.lean): adding `n` and then subtracting `n` business days from a business day comes back.
* `C12_unbounded_add_business_days` (Props/UnboundedCalendar.lean): C12 (unbounded): adding `n` business days to the (rolled) start `d` gives the business day `f` with exactly `n` business days in between.
* `C12_unbounded_target_exists` (Props/UnboundedCalendar.lean): C12 (unbounded): for `n ≥ 0` the business day `f` of the previous theorem always exists (there are infinitely many business days).
* `C12_unbounded_rejects` (Props/UnboundedCalendar.lean): C12 (unbounded): with convention NONE a start that is not a business day is rejected.
* `C12_unbounded_add_subtract` (Props/UnboundedCalendar.lean): C12 (unbounded): subtracting `n` undoes adding `n` from a business day.

## C13 business_days_between counts business days in [from, to)

business_days_between(a, b) is the number of business days d with a <= d < b, and 0 when b <= a; hence it is additive over adjacent intervals. (for every calendar and pair of dates)

* `C13_bounded_between` (Props/BoundedCalendar.lean): `business_days_between` counts the business days in `[a, b)` (0 if `b ≤ a`) for dates in the calendar and fails for others.
* `C13_bounded_in_period` (Props/BoundedCalendar.lean): the period version counts from the date to the date plus the period.
* `C13_unbounded_between` (Props/UnboundedCalendar.lean): C13 (unbounded): `business_days_between` counts the business days in `[a, b)`, 0 if `b ≤ a`.
* `C13_unbounded_additive` (Props/UnboundedCalendar.lean): C13 (unbounded): additivity over adjacent intervals.
* `C13_unbounded_in_period` (Props/UnboundedCalendar.lean): C13 (unbounded): the period version counts from the date to the date plus the period.

## C14 The two holiday calendar implementations are observably equivalent

For dates inside the bounds, the bounded (table) and unbounded (arithmetic) calendars built from the same weekend mask and holidays give the same answers for is_business_day, rolling, adding business days and counting business days. (for every weekend mask with at least one weekday, every sorted duplicate free holiday list within the bounds and every date in bounds)

* `C14_is_business_day` (Props/UnboundedCalendar.lean): `is_business_day` agrees on every date of the calendar years.
* `C14_roll` (Props/UnboundedCalendar.lean): whenever the bounded calendar can roll a date inside its bounds the unbounded one gives the same date, for every convention.
* `C14_add_business_days` (Props/UnboundedCalendar.lean): adding business days, likewise.
* `C14_business_days_between` (Props/UnboundedCalendar.lean): counting agrees.

## C15 Periodic schedules contain exactly the multiples of the tenor between start and end plus both ends

A forward schedule is start, start + tenor, start + 2 tenor, ... while before end, and end; a backward schedule counts down from end; the dates are non-decreasing, nothing beyond the ends is included, both ends are included, no period multiple before the end is missed, and in a batch every row is correct and padded. (for every start, end, positive tenor (days, weeks, months, years), direction and batch)

* `C15_forward` (Props/Schedules.lean): forward schedules. Every row is the forward schedule of its input row; all rows have the same length `len`, and `len` is not too large: some row is not padded.
* `C15_backward` (Props/Schedules.lean): backward schedules, mirrored. (Going back from another row's end by as many periods as the longest row needs may leave year 1, then the call fails; see `C15_backward_total`.)
* `C15_backward_total` (Props/Schedules.lean): backward schedules exist for month and year tenors, and for a single row.
* `C15_forward_shape` (Props/Schedules.lean): a forward schedule starts with the start date, ends with the end date, and is sorted (strictly until the padding).
* `C15_backward_shape` (Props/Schedules.lean): a backward schedule starts with the start date and ends with the end date, and is sorted.
* `C15_degenerate_schedule_is_empty` (Props/Schedules.lean): C15 (deviation found in the code): when start and end agree in every row the schedules are empty: neither start nor end date is included.
* `C15_roll` (Props/Schedules.lean): rolling is applied to every date of the schedule.
* `C15_end_of_month` (Props/Schedules.lean): the end-of-month option. It is rejected for day and week tenors. For month and year tenors every date of a row is moved to the end of its month if the anchor of the row (the start date of a forward, the end date of a backward schedule) is the last day of its month, and nothing is changed otherwise.

## C16 Business day schedules list exactly the business days between start and end

BusinessDaySchedule returns all business days from the rolled start to the rolled end in increasing order with no omissions (backward schedules likewise). (for every calendar, start and end)

* `C16_unbounded` (Props/BusinessSchedules.lean): C16 for the unbounded calendar: a business day schedule that is returned is right.
* `C16_bounded` (Props/BusinessSchedules.lean): C16 for the bounded calendar: a business day schedule that is returned is right.
* `C16_unbounded_forward_total` (Props/BusinessSchedules.lean): forward schedules of the unbounded calendar exist if every row contains a business day.
* `C16_bounded_single_total` (Props/BusinessSchedules.lean): a single schedule of the bounded calendar (forward or backward) exists if its dates are in the years of the calendar and contain a business day. For a batch this is not so (`C16_bounded_batch_fails`).
* `C16_bounded_batch_fails` (Props/BusinessSchedules.lean): C16 (deviation found in the code): in a batch the shorter rows are extended to the length of the longest row before they are cut at their end date, so a row near the end of the bounded calendar makes the whole call fail although all its dates are inside the calendar and each row alone works.

## C17 Day count fractions are additive, antisymmetric and consistent with the day difference

actual/360 and actual/365 fixed are additive over adjacent intervals and equal days/360, days/365; actual/actual ISDA splits the period between leap and non-leap days and gives exactly 1 for every full calendar year; 30/360 gives n/12 between the same day (<= 28) n months apart. (for all pairs/triples of valid dates)

* `C17_actual_360` (Props/Daycounts.lean): Actual/360 is the number of days over 360.
* `C17_actual_365_fixed` (Props/Daycounts.lean): Actual/365 fixed is the number of days over 365.
* `C17_actual_additive` (Props/Daycounts.lean): additivity over adjacent intervals.
* `C17_actual_antisymmetric` (Props/Daycounts.lean): exchanging the dates changes the sign.
* `C17_actual_365_actual` (Props/Daycounts.lean): Actual/365 Actual, for `start ≤ end`: the number of days divided by 366 if one of the days after the start date up to and including the end date is a February 29th, by 365 otherwise.
* `C17_thirty_360_months` (Props/Daycounts.lean): 30/360 ISDA. If the end date is `n` months after the start date (`n` of any sign) on the same day of the month, the fraction is `n/12`.
* `C17_thirty_360` (Props/Daycounts.lean): 30/360 ISDA in general: every month counts 30 days; a start on the 31st counts as the 30th, an end on the 31st counts as the 30th if the start is on the 30th or 31st.
* `C17_actual_actual_isda` (Props/Daycounts.lean): Actual/Actual ISDA, for `start ≤ end`: the days of `[start, end)` in leap years over 366 plus the other days over 365.
* `C17_actual_actual_isda_additive` (Props/Daycounts.lean): Actual/Actual ISDA is additive and antisymmetric (for dates in any order).
* `C17_actual_actual_isda_full_years` (Props/Daycounts.lean): `n` full calendar years are exactly `n` (Actual/Actual ISDA).
* `C17_actual_365_actual_not_antisymmetric` (Props/Daycounts.lean): C17 (deviation found in the code): Actual/365 Actual is not antisymmetric: with the dates exchanged a leap day in between is not seen.
* `C17_actual_actual_counts_start_date` (Props/Daycounts.lean): C17 (deviation found in the code): the documentation of Actual/Actual ISDA says that the start date is excluded and the end date included. The code does it the other way round: the period from 2019-12-31 to 2020-01-01 counts as a day of 2019.

## C18 Segmented difference and cumulative sum work segment by segment and are inverse to each other

segment_diff and segment_cumsum never mix values of different segments: each equals the concatenation of the plain operation over each segment; non-exclusive first differences of the cumulative sum give back the input and conversely. (for every value list and every sorted segment id list of the same length)

* `C18_segment_diff` (Props/Segments.lean): `segment_diff` (not exclusive): a position whose predecessor (at distance `order`) lies in the same segment gets the difference with it, every other position keeps its value; the length is that of the input.
* `C18_segment_diff_exclusive` (Props/Segments.lean): `segment_diff`, exclusive: the list of the differences over all positions whose predecessor lies in the same segment.
* `C18_diff` (Props/Segments.lean): Without segment ids: plain differences.
* `C18_segment_cumsum` (Props/Segments.lean): `segment_cumsum`: the sum of the values of the same segment up to (exclusive: strictly before) the position.
* `C18_cumsum` (Props/Segments.lean): Without segment ids: the plain cumulative sum.
* `C18_diff_of_cumsum` (Props/Segments.lean): First differences of the cumulative sum give back the input.
* `C18_cumsum_of_diff` (Props/Segments.lean): The cumulative sum of first differences gives back the input.

## C19 Yields and discrete forward rates convert back and forth without loss

yields_from_forward_rates and forward_rates_from_yields are inverse to each other, and both compound consistently (yield * time is the sum of forward * interval), group by group. (for every list of strictly increasing positive times per group and every rates)

* `C19_forward_rates` (Props/Segments.lean): The forward rate of an interval times its length is the increment of `yield * time` within the group.
* `C19_yields` (Props/Segments.lean): `yield * time` is the sum of `forward * interval` over the intervals of the group up to that time.
* `C19_yields_roundtrip` (Props/Segments.lean): From yields to forward rates and back.
* `C19_forwards_roundtrip` (Props/Segments.lean): From forward rates to yields and back.
* `C19_forward_rate` (Props/Segments.lean): The simply compounded forward rate of `forward_rates`: investing at it over the period gives the ratio of the discount factors.

## C20 Padding makes all rows equal length and is invisible to the original entries

pad_tensors extends every list to the longest length repeating its last element (default) or inserting the given value, keeping the original entries as a prefix. (for every collection of rows of any lengths)

* `C20_pad_default` (Props/Pad.lean): Default padding: every row of every tensor is extended by copies of its own last element to the largest size (`v0` is irrelevant: rows are not empty). `sub1` (the subtraction of 1) is only required to make numbers smaller.
* `C20_pad_scalar` (Props/Pad.lean): Padding with one given value.
* `C20_pad_per_tensor` (Props/Pad.lean): Padding with one value per row of each tensor.
* `C20_sentinel_absorbed` (Props/Pad.lean): Deviation from C20 in machine arithmetic: if the subtraction of 1 does not change the minimum `m` (floats above `2^53` in absolute value), every entry equal to the minimum is replaced by the pad value.
* `C20_pad_dates` (Props/Pad.lean): `pad_date_tensors`: rows of dates are extended by copies of their last date.

## C21 Linear interpolation passes through the knots, is exact on straight lines, stays within the neighbouring data and extrapolates as documented

At a knot the interpolated value is the knot's ordinate; for data sampled from an affine function the interpolant equals it inside the range; between knots the value lies between the neighbouring ordinates; outside the range the value is the boundary ordinate plus the given slope times the distance (flat by default). (for every strictly increasing knot list, ordinates and query)

* `C21_tpu` (Props/LinearInterpolation.lean): `optimize_for_tpu` does not change the result.
* `C21_left` (Props/LinearInterpolation.lean): Left of (or at) the first knot: the first ordinate plus the left slope times the distance (0 by default).
* `C21_right` (Props/LinearInterpolation.lean): Right of the last knot: the last ordinate plus the right slope times the distance.
* `C21_cell` (Props/LinearInterpolation.lean): Between two neighbouring knots: the value on the chord.
* `C21_cases` (Props/LinearInterpolation.lean): The three cases above cover every query: it is at or left of the first knot, right of the last one or in a cell between two neighbouring knots.
* `C21_knot` (Props/LinearInterpolation.lean): At a knot the interpolant is the ordinate of the knot.
* `C21_between` (Props/LinearInterpolation.lean): Between neighbouring knots the value lies between the two ordinates.
* `C21_affine` (Props/LinearInterpolation.lean): Data on a straight line are reproduced inside the range, and everywhere if the slopes outside are that of the line.
* `C21_monotone` (Props/LinearInterpolation.lean): Monotone data give a monotone interpolant (slopes outside not negative).

## C22 Piecewise constant functions evaluate to the left-continuous value of the right piece

find_interval_index and the piecewise constant evaluation return the value of the unique piece containing the argument (left-continuous or right-continuous according to the flag), constant outside the jump range. (for every strictly increasing jump list, value list and argument)

* `C22_left_continuous` (Props/Piecewise.lean): Left-continuous evaluation: the argument is in piece `i`, that is `t_{i-1} < x ≤ t_i` (no condition on the missing side for the first and the last piece): the value is `v_i`.
* `C22_right_continuous` (Props/Piecewise.lean): Right-continuous evaluation: the argument is in piece `i`, that is `t_{i-1} ≤ x < t_i`: the value is `v_i`.
* `C22_unique_piece` (Props/Piecewise.lean): Every argument lies in exactly one piece (left-continuous pieces).
* `C22_conventions_agree` (Props/Piecewise.lean): The two conventions differ only at the jumps.
* `C22_find_interval_index` (Props/Piecewise.lean): `find_interval_index`, half-open intervals: the index `k` of the interval `[x_k, x_{k+1})`, `-1` before the first one.
* `C22_find_interval_index_closed` (Props/Piecewise.lean): `find_interval_index`, last interval closed: the right end of the last interval belongs to it, nothing else changes.

## C23 Integration of piecewise constant functions is the integral

integrate(x1, x2) equals the definite integral of the piecewise constant function, hence is additive in adjacent intervals and zero on empty ones. (for every jump list, values, and x1 <= x2)

* `C23_additive` (Props/Piecewise.lean): Additivity in adjacent intervals, in any order of the end points.
* `C23_empty` (Props/Piecewise.lean): Empty intervals.
* `C23_one_piece` (Props/Piecewise.lean): An interval inside one piece: length times value.
* `C23_integral` (Props/Piecewise.lean): `integrate(x1, x2)` is the integral of the function from `x1` to `x2` (for `x1 > x2` with the usual sign), whichever continuity convention is used.

## C24 Simpson rule is exact on cubic polynomials

Composite Simpson integration returns the exact integral of every polynomial of degree at most three, for every admissible number of points, and is linear in the integrand. (for all limits, all cubic polynomials, all odd numbers of points >= 3)

* `C24_admissible` (Props/Simpson.lean): Admissible numbers of points: odd and at least 3; everything else is rejected.
* `C24_panels` (Props/Simpson.lean): The rule in textbook form: the sum over panels of `(f(l) + 4 f(m) + f(r)) * dx / 3`.
* `C24_linear` (Props/Simpson.lean): Linear in the integrand.
* `C24_cubic` (Props/Simpson.lean): Exact on cubics, over any field of characteristic 0: the result is the increment of the antiderivative.
* `C24_cubic_integral` (Props/Simpson.lean): Exact on cubics: the result is the integral.
* `C24_constant` (Props/Simpson.lean): Constants: the weights add up to `3 (n - 1)`, so that the rule gives the length of the interval.

## C25 Sobol points are equidistributed in every coordinate

In every dimension, the first 2^m points (in index order) of the Sobol sequence hit every dyadic interval [k/2^m, (k+1)/2^m) exactly once (up to the documented zero point), and all points lie in [0,1). (for every dimension with a primitive polynomial/direction numbers table with odd m_i < 2^i, every m, and every aligned block of indices)

* `C25_sobol_sample` (Props/DigitalNet.lean): C25 (`qmc/sobol.py`): in every coordinate, the samples of `sobol_sample`, plain or with a digital shift, are stratified in base 2 and lie in `[0, 1)`.
* `C25_sequence_indices` (Props/DigitalNet.lean): the points of chosen `sequence_indices` are the points of the sequence with these indices.
* `C25_recurrence` (Props/DigitalNet.lean): the direction numbers follow the published recurrence `m_j = 2 a_1 m_{j-1} ^ ... ^ 2^(s-1) a_{s-1} m_{j-s+1} ^ 2^s m_{j-s} ^ m_{j-s}` where the coefficients are the bits of the polynomial (bit `i` goes with `m_{j-s+i}`).
* `C25_sobol_impl` (Props/DigitalNet.lean): C25 (`random_ops/sobol/sobol_impl.py`): sample `i` is the point of index `skip + 1 + i`; the samples are stratified in every coordinate on every aligned block of indices covered, and lie in `[0, 1)`.
* `C25_implementations_agree` (Props/DigitalNet.lean): the two implementations agree: sample `i` of `sobol_impl.sample` with `skip` is point `skip + 1 + i` of `sobol_sample`, whatever number of results (hence digits) either is asked for.

## C26 Halton points are equidistributed in every coordinate

In a coordinate with base b every block of b^m consecutive aligned indices has exactly one point in each interval [k/b^m,(k+1)/b^m); points lie in [0,1); randomisation by digit permutation preserves this. (for every base >= 2, m, block)

* `C26_halton` (Props/Halton.lean): in each coordinate, with base `b` and number of digits `S`, the unrandomised Halton points, numbered from 1, are stratified in base `b` as long as the indices fit in `S` digits, and lie in `[0, 1)`.
* `C26_randomized` (Props/Halton.lean): the same for the randomised points, for every choice of digit permutations and of uniform numbers in `[0, 1)` for the zero correction.
* `C26_sequence_indices` (Props/Halton.lean): point `i` for chosen `sequence_indices` is the point of that index.

## C27 Digital shift and matrix scrambling keep digital nets equidistributed

Applying a digital shift or left-multiplying generating matrices by a lower triangular unit diagonal scramble keeps the one-dimensional stratification of the net, and all samples stay in [0,1). (for every shift, scrambling matrix, net whose matrices are invertible)

* `C27_intervals_permuted` (Props/Scrambling.lean): scrambling and shifting permute the elementary intervals of each level: the points of the randomised net in an interval are those of the plain net in another interval of the same length.
* `C27_stratified` (Props/Scrambling.lean): one-dimensional stratification is kept.
* `C27_net` (Props/Scrambling.lean): `(t, m, s)`-nets stay `(t, m, s)`-nets.
* `C27_range` (Props/Scrambling.lean): the randomised samples lie in `[0, 1)`; with the tent transform in `[0, 1]`.
* `C27_tent_range` (Props/Scrambling.lean): the tent transform maps `[0, 1)` to `[0, 1]` ...
* `C27_tent_reaches_one` (Props/Scrambling.lean): C27 (deviation): ... and reaches 1, so that samples with `apply_tent_transform` need not lie in `[0, 1)`.

## C28 Brent root search never leaves the bracket, never lies about convergence and reports consistent values

Starting from a sign-changing bracket, the returned estimate lies in the initial interval, the reported objective value is the function at the estimate, at most max_iterations iterations are made, the function changes sign on the maintained bracket, and converged implies |f(root)| <= tolerance or bracket width within position tolerance. (for every function, bracket and tolerance)

* `C28_result` (Props/Brent.lean): for every objective, every bracket with a sign change and every stopping policy, the estimate stays in the bracket, the reported value is the objective at the estimate, the number of iterations is bounded, `converged` says exactly whether the value is within `function_tolerance`, and the objective changes sign between the estimate and another point of the bracket (or vanishes at the estimate).
* `C28_terminates` (Props/Brent.lean): with the default stopping policy the search succeeds when it is allowed at least `2 (right - left) / absolute_root_tolerance` iterations: either the value is within `function_tolerance`, or the objective changes sign between the estimate and a point closer than `absolute_root_tolerance + relative_root_tolerance * |estimate|`.
* `C28_batch` (Props/Brent.lean): with the default stopping policy the result for each element of a batch is the result of searching for it alone.

## C29 Newton root finder: converged flags are truthful and batch members do not interact

If an element is reported converged the Newton step at the returned point is within the tolerance, the iteration count never exceeds the maximum, and each batch element's result is what it would be alone. (for every function, starting point and batch)

* `C29_converged` (Props/Newton.lean): truthfulness: an element is reported converged exactly when one of its first `N` Newton iterates (counting the starting point) has a step within the tolerance. The position returned then is the first such iterate, and it has not failed.
* `C29_not_converged` (Props/Newton.lean): unconverged elements: the position is the Newton iterate after exactly the maximum number of iterations, and the `failed` flag says whether it is not a finite number.
* `C29_batch` (Props/Newton.lean): batches: the result for a batch is the list of the results of the elements run alone.
* `C29_line` (Props/Newton.lean): on a straight line with nonzero slope the root is found from every starting point, in two iterations.

## C30 Binomial tree prices: European put-call parity, American dominates European and exercise value

The CRR tree satisfies discrete put-call parity exactly, American prices are at least European prices, and an American option is never worth less than its immediate exercise value. (for every spot, strike, positive volatility, rates and number of steps)

* `C30_european_expectation` (Props/Crr.lean): the European price is the discounted expectation of the payoff under the risk-neutral binomial law of the share price with Cox-Ross-Rubinstein moves.
* `C30_put_call_parity` (Props/Crr.lean): European put-call parity holds exactly in the tree.
* `C30_european_bounds` (Props/Crr.lean): the step is fine enough for the tree to be free of arbitrage. Then European prices lie between the no-arbitrage bounds.
* `C30_american_ge_european` (Props/Crr.lean): when the step is fine enough for the up-probability to be a probability, an American option is worth at least the European one.
* `C30_american_ge_exercise_partial` (Props/Crr.lean): C30 (partial): an American option is worth at least its exercise value discounted over one step, and so at least its exercise value when the rate is not positive. The full claim is false for positive rates: `C30_american_below_exercise`.
* `C30_american_below_exercise` (Props/Crr.lean): Deviation: the code discounts the exercise value together with the continuation value, so the price of an American put that is deep in the money is below what exercising it at once pays.
* `C30_american_call_without_dividends` (Props/Crr.lean): with a rate that is not negative and no dividends, early exercise of a call is worthless.
* `C30_expired` (Props/Crr.lean): an expired option is worth its payoff.

## C31 Black-Scholes prices satisfy put-call parity and no-arbitrage bounds, and equal the discounted expectation of the payoff

call - put = discount * (forward - strike); call lies between discounted intrinsic value and discounted forward; the price equals discount times the expectation of the payoff under the lognormal (normal) law. (for every forward, strike, volatility, expiry, discount factor)

* `C31_expectation` (Props/VanillaPrices.lean): the price is the discount factor times the expected payoff, under the lognormal or the normal law with mean equal to the forward price.
* `C31_rejects` (Props/VanillaPrices.lean): the arguments are rejected exactly when both or neither of spot and forward, or both rate and factor are given.
* `C31_put_call_parity` (Props/VanillaPrices.lean): put-call parity.
* `C31_bounds` (Props/VanillaPrices.lean): no-arbitrage bounds. A call is worth at least its discounted intrinsic value and, in the lognormal model, at most the discounted forward; a put is worth at least its discounted intrinsic value and, in the lognormal model, at most the discounted strike.

## C32 A vanilla option is an asset-or-nothing minus strike times a cash-or-nothing option

option_price(call) = asset_or_nothing(call) - strike * binary(call), and binary call + binary put = discount factor, asset call + asset put = discounted forward, also when spots and dividends are supplied. (for every parameter set and both supply modes (forwards or spots))

* `C32_asset_expectation` (Props/BinaryPrices.lean): the price of an asset-or-nothing option is the discount factor times the expected payoff.
* `C32_binary_expectation_partial` (Props/BinaryPrices.lean): C32 (partial): the price of a binary option is the discount factor times the expected payoff, if the forward is given or there are no dividends. With a spot and dividends it is not: `C32_binary_ignores_dividends`.
* `C32_decomposition_partial` (Props/BinaryPrices.lean): C32 (partial): a vanilla call is an asset-or-nothing call less `strike` cash-or-nothing calls, and a vanilla put is `strike` cash-or-nothing puts less an asset-or-nothing put, if the forward is given or there are no dividends.
* `C32_call_plus_put` (Props/BinaryPrices.lean): a binary call and a binary put together pay one unit for certain; an asset-or-nothing call and put together are the asset. (In every supply mode.)
* `C32_binary_ignores_dividends` (Props/BinaryPrices.lean): Deviation: `binary_price` carries a spot to expiry without taking off the dividends. So for every option on a spot with a dividend rate other than zero (positive volatility and expiry), the decomposition of the vanilla call fails.

## C33 Knock-in plus knock-out equals vanilla

With zero rebate the sum of the knock-in and knock-out barrier prices equals the vanilla price, for up/down and call/put in both strike/barrier orders; barrier prices do not depend on the unit of time. (for every parameter set)

* `C33_in_out_vanilla` (Props/Barrier.lean): without rebate, the knock-in and the knock-out option together are worth as much as the vanilla option.
* `C33_knock_out_expectation` (Props/Barrier.lean): without rebate, a knock-out option is worth the discounted expectation of its payoff over the paths that never touch the barrier.
* `C33_knock_in_expectation_partial` (Props/Barrier.lean): a knock-in option is worth the vanilla option less the discounted expectation of the payoff over the paths that never touch the barrier, plus the discounted rebate on these paths. Missing: the down-and-in put with the strike above the barrier and a rebate, see `C33_down_in_put_rebate`.
* `C33_at_barrier_out` (Props/Barrier.lean): at the barrier a knock-out option is worth its rebate.
* `C33_down_in_put_rebate` (Props/Barrier.lean): C33 (deviation): at the barrier a knock-in option has just become the vanilla option, but the code adds the rebate to a down-and-in put with the strike above the barrier. That row of the table selects the rebate columns of a knock-out option.
* `C33_time_unit_partial` (Props/Barrier.lean): prices do not depend on the unit of time, for options without rebate and for knock-in options. Missing: knock-out options with a rebate, see `C33_time_unit_rebate`.
* `C33_time_unit_rebate` (Props/Barrier.lean): C33 (deviation): the price of a knock-out option with a rebate depends on the unit of time, for every option that is alive and every positive interest rate. The exponent `b` lacks a square root.
* `C33_bounds` (Props/Barrier.lean): while the barrier has not been reached, a barrier option without rebate is worth at least nothing and at most as much as the vanilla option.
* `C33_crossed` (Props/Barrier.lean): C33 (deviation): the code does not notice that the barrier has been crossed already. The price of a knock-out option beyond the barrier is then minus a positive multiple of the price at the mirrored spot on the other side, so it is not positive.

## C34 Variance swap replicating weights replicate the log contract at the strikes

The portfolio of puts and calls given by replicating_weights has payoff at every strike equal to the log-contract payoff 2*(x/S - 1 - log(x/S))-type target (up to the documented ends). (for every strictly monotone strike list and reference)

* `C34_replicates` (Props/VarianceSwaps.lean): at every strike the portfolio pays the log contract, less its value at the first strike (which is zero if the first strike is the reference). Between strikes the portfolio interpolates linearly. Before the first strike it pays nothing.
* `C34_weights_positive` (Props/VarianceSwaps.lean): if the first strike is on the right side of the reference, every weight is positive.
* `C34_dominates` (Props/VarianceSwaps.lean): within the range of the strikes, the portfolio with the first strike at the reference never pays less than the log contract.
* `C34_fair_strike_flat` (Props/VarianceSwaps.lean): with a flat volatility, the fair strike is the variance plus the expected replication error, the expectation of the difference between the payoffs of the option portfolio and the log contract.

## C35 Monotone convex interpolation reproduces the input curve

Interpolating forwards preserves the average forward on every interval (so yields at knot times are reproduced), the instantaneous forward is continuous at the knots and is the derivative of yield times time; the result is a number for every valid input. (for every strictly increasing times and discrete forwards)

* `C35_interval_partial` (Props/MonotoneConvex.lean): everything about one regular interval: the result is given by a continuous forward and an antiderivative of it that starts from zero and arrives at the discrete forward times the length; the forward takes the prescribed values at the knots.
* `C35_number_partial` (Props/MonotoneConvex.lean): The result is a number on every regular interval.
* `C35_flat_start_nan` (Props/MonotoneConvex.lean): Deviation from C35. If the forward at the left knot agrees with the discrete forward and that at the right knot does not, the result is not a number on the whole interval: the code divides zero by zero. `Regular` above excludes just this case.
* `C35_average_partial` (Props/MonotoneConvex.lean): The average forward of every regular interval is the discrete forward.
* `C35_inputs_agree` (Props/MonotoneConvex.lean): Yields and discrete forwards are interchangeable inputs.
* `C35_knots_partial` (Props/MonotoneConvex.lean): The given yields are reproduced at the knots.
* `C35_yield_partial` (Props/MonotoneConvex.lean): Yield times time is the integral of the instantaneous forward from now.
* `C35_derivative_partial` (Props/MonotoneConvex.lean): Inside of an interval the instantaneous forward is the derivative of yield times time.
* `C35_continuous_partial` (Props/MonotoneConvex.lean): The instantaneous forward is continuous at the interior knots, and its value there is the interpolated one.
* `C35_jump` (Props/MonotoneConvex.lean): Deviation from C35. If the forward at the right knot agrees with the discrete forward and that at the left knot does not, the forward is not continuous at the left knot: the limit from the left is the interpolated forward, the value is the discrete one.

## C36 Constant-forward interpolation reproduces knot yields and is piecewise linear in yield*time

The interpolated yield equals the reference yield at reference times, times*yield is linear between references, extrapolation is flat. (for every strictly increasing positive reference times)

* `C36_knot` (Props/ConstantForward.lean): at a positive reference time the yield is the reference yield. For reference time zero see `C36_zero_time`.
* `C36_constant_forward` (Props/ConstantForward.lean): between two neighbouring reference times the product of time and yield is on the chord, so the forward rate from the left one to the query is the forward rate of the whole interval.
* `C36_constant_forward_any` (Props/ConstantForward.lean): the forward rate between any two queries in the same interval is the forward rate of the interval.
* `C36_flat_outside` (Props/ConstantForward.lean): outside the range of the reference times the yield is that of the nearest one. For first time zero see `C36_zero_time`.
* `C36_flat_curve` (Props/ConstantForward.lean): a flat curve is reproduced.
* `C36_zero_time` (Props/ConstantForward.lean): C36 (deviation): if the first reference time is zero, as in the documented example, the result at time zero and before is the quotient of zero by zero.

## C37 Swaps: par rate makes the swap worthless, receiver = -payer, linear in notional

Pricing an interest rate swap at the rate returned by ir_swap_par_rate_and_annuity gives zero value; exchanging legs flips the sign; prices are additive and homogeneous. (for every schedule and curve)

* `C37_exchange` (Props/Swap.lean): exchanging the legs flips the sign, and a swap of equal legs is worth nothing.
* `C37_ir_exchange` (Props/Swap.lean): exchanging the legs of an interest rate swap flips the sign.
* `C37_additive` (Props/Swap.lean): swap prices are additive in the cashflows.
* `C37_homogeneous` (Props/Swap.lean): interest rate swap prices are homogeneous in the notionals.
* `C37_equity_exchange` (Props/Swap.lean): the receiver of the equity leg is the counterparty of its payer.
* `C37_equity_homogeneous_partial` (Props/Swap.lean): without dividends the equity leg is homogeneous in the notional. Missing: dividends, see `C37_equity_dividends_not_scaled`.
* `C37_equity_dividends_not_scaled` (Props/Swap.lean): C37 (deviation): a dividend is not multiplied with the notional, so a swap on twice the notional does not have twice the cashflows.
* `C37_equity_total_return` (Props/Swap.lean): without dividends and with unit notional, compounding the cashflows of the equity leg gives the total return.
* `C37_par` (Props/Swap.lean): the value of paying a fixed coupon and receiving the floating rate is the notional times the difference between par rate and coupon times the annuity. In particular a swap at the par rate is worth nothing.
* `C37_par_zero` (Props/Swap.lean): the par rate makes the swap worthless.
* `C37_par_telescopes` (Props/Swap.lean): for consecutive periods the par rate times the annuity is the difference of the first and the last discount factor.

## C38 Cubic spline passes through its knots and has continuous first and second derivatives

For natural, clamped and fixed-first-derivative boundaries, the interpolant equals the data at the knots, is twice continuously differentiable at interior knots and satisfies the boundary conditions. (for every strictly increasing knots and data)

* `C38_natural` (Props/CubicSpline.lean): The default and the natural boundary: the interpolant is the cubic spline whose second derivative is zero at both ends.
* `C38_first_derivative_partial` (Props/CubicSpline.lean): Prescribed first derivatives at both ends. The code sets the right hand side of a row to zero if the segment before its knot is flat (it means to treat repeated points), so flat segments must not be followed by others: see `C38_kink`.
* `C38_clamped_partial` (Props/CubicSpline.lean): The clamped boundary: zero first derivative at both ends.
* `C38_missing_derivative` (Props/CubicSpline.lean): The derivatives must be given.
* `C38_kink` (Props/CubicSpline.lean): Deviation from C38. With prescribed first derivatives (clamped: both zero) and a flat segment followed by one that is not flat, the interpolant is not differentiable at the knot between them.
* `C38_flat_last_segment` (Props/CubicSpline.lean): Deviation from C38. If the last segment is flat, the derivative at the right end is zero whatever was prescribed.
* `C38_outside` (Props/CubicSpline.lean): Outside of the knots the interpolant is constant, whatever the coefficients.
* `C38_unique` (Props/SplineUnique.lean): the natural cubic spline is unique, so the interpolant of the code agrees with every natural cubic spline through the data.
* `C38_affine` (Props/SplineUnique.lean): data on a straight line are reproduced between the first and the last knot.

## C39 Simulation time grids contain every requested time

prepare_grid returns a sorted grid in which every requested time is present (within the tolerance) at the reported index, and the recording mask marks exactly the reported indices. (for every sorted times list, step and tolerance)

* `C39_mask` (Props/PrepareGrid.lean): the mask has one entry per grid point and marks exactly the reported indices.
* `C39_time_step_partial` (Props/PrepareGrid.lean): time step grids. The grid is sorted, its points are more than the tolerance apart and every requested time is at the reported index up to the tolerance. Missing: without the hypothesis on the transitivity of closeness the last claim is false, see `C39_chain`.
* `C39_fine_partial` (Props/PrepareGrid.lean): every time from zero to the last requested time is less than time step plus tolerance after some grid point. The hypothesis on closeness is the one of `C39_time_step_partial`.
* `C39_separated` (Props/PrepareGrid.lean): the hypothesis on closeness holds if different requested times are more than twice the tolerance apart and so is the time step.
* `C39_chain` (Props/PrepareGrid.lean): C39 (deviation): several times in a row closer than the tolerance collapse to the first one, which can be further than the tolerance from the time that was asked for.
* `C39_num_times` (Props/PrepareGrid.lean): grids with a given number of points. For times that are not negative and a time step of at most the last of them, the grid is sorted, has one point more than the maximum of the numbers of steps and times, starts at zero and contains every requested time at the reported index.
* `C39_num_times_unsorted` (Props/PrepareGrid.lean): C39 (deviation): for a time step longer than the last time the grid is not sorted.
* `C39_given_grid` (Props/PrepareGrid.lean): a supplied grid. For times up to the last grid point the reported index is that of a nearest grid point.

## C40 Custom loops compute the iterated state and the exact chain-rule Jacobian

for_loop returns the state after the requested number(s) of iterations of the body, one entry per requested count, and the accumulated Jacobian is the product of the step Jacobians (state part and parameter part). (for every body, state, increasing list of iteration counts)

* `C40_state` (Props/CustomLoops.lean): the state after the loop is the iterated state, for every number of iterations.
* `C40_jacobian` (Props/CustomLoops.lean): if the tape gives the Jacobian of each step, the Jacobian of the loop is that of the map from initial state and parameters to the final state.
* `C40_gradient` (Props/CustomLoops.lean): the custom gradient contracted with a direction is the directional derivative of the weighted output.
* `C40_accumulates` (Props/CustomLoops.lean): for increasing numbers of iterations the accumulating loop returns, for each of them, exactly what the plain loop returns for this number.
* `C40_accumulated_gradient` (Props/CustomLoops.lean): the gradient of the accumulating loop is the derivative of the weighted sum over all requested numbers of iterations.

## C41 Rank-1 lattice rules stratify every coordinate and integrate waves exactly

The samples are the points n z / N (plus the shift) modulo 1; they lie in [0,1); a coordinate whose generator is coprime to N has exactly one point in each interval [k/N,(k+1)/N) for every shift; the average of exp(2 pi i h.x) over the points is 1 if N divides h.z and 0 otherwise. (for every generating vector, number of points, shift and frequency)

* `C41_point` (Props/LatticeRule.lean): The samples are the lattice points `n z / N`, shifted, modulo 1.
* `C41_range` (Props/LatticeRule.lean): All samples lie in the unit interval; with the tent transform the right end is included.
* `C41_stratified` (Props/LatticeRule.lean): If the component of the generating vector has no common factor with the number of points, every one of the `N` equal parts of the unit interval contains exactly one point, whatever the shift.
* `C41_multiples` (Props/LatticeRule.lean): Without a shift the points are the multiples of `1 / N`, each exactly once.
* `C41_waves` (Props/LatticeRule.lean): The lattice rule integrates trigonometric polynomials: the average of a wave over the points is 1 if its frequency is orthogonal to the generating vector modulo `N`, otherwise 0, as it should be for all but the constant.

## C42 Implied volatility is the unique inverse of the option price in the volatility

For valid option arguments (exactly one of spot and forward, positive expiry and discount factor, positive forward and strike in the lognormal model) option_price is strictly increasing in the volatility, a price strictly within the no-arbitrage bounds is attained by exactly one positive volatility and no other price is attained. The objective handed to Newton's method in implied_vol vanishes exactly at that volatility, the vega handed to it is the derivative of the objective, and a volatility that is reported as converged reprices the option up to the tolerance times vega. (all prices, strikes, forwards or spots, expiries, discount factors, calls and puts, lognormal and normal model, all initial volatilities, tolerances and iteration limits, all batches)

* `C42_increasing` (Props/ImpliedVol.lean): option prices are strictly increasing in the volatility.
* `C42_exists_unique` (Props/ImpliedVol.lean): existence and uniqueness. A price strictly within the no-arbitrage bounds is the price for exactly one positive volatility; other prices are not prices for any.
* `C42_objective` (Props/ImpliedVol.lean): what the root finder is given. At a positive volatility the objective is the price difference in units of the larger of forward and strike, undiscounted. Its roots are exactly the implied volatilities: negative ones never qualify.
* `C42_vega_partial` (Props/ImpliedVol.lean): partial: without discounting, the vega handed to the root finder is the derivative of the objective. For other discount factors see `C42_vega_discounted`.
* `C42_vega_discounted` (Props/ImpliedVol.lean): C42 (deviation): with a discount factor other than 1 the vega handed to the root finder is not the derivative of the objective: the objective is undiscounted, but the vega is divided by the discount factor.
* `C42_converged` (Props/ImpliedVol.lean): what "converged" means. The volatility returned reprices the option: the error in the price is less than the tolerance times the true vega divided by the discount factor, up to the relative tolerance. (A negative volatility can be reported only if the price itself is within this error.)
* `C42_linear_rate` (Props/ImpliedVol.lean): C42 (deviation): because of the wrong vega the iteration converges only linearly when there is discounting: the derivative of the iteration at the implied volatility is one minus the discount factor, where Newton's is zero.

## C43 The fast implied volatility approximation exactly inverts Black's formula with Polya's distribution function

For a lognormal option with valid arguments whose price lies strictly within the no-arbitrage bounds, implied_vol with FAST_APPROX returns a positive volatility, and Black's formula in which the normal distribution function is replaced by Polya's approximation 1/2 + sign(x)/2 sqrt(1 - exp(-p x^2)) reproduces the given price exactly at this volatility. (all prices within the bounds, strikes, forwards or spots, expiries, discount factors, calls and puts, all polya factors p >= 1/2 (the default is 2/pi))

* `C43_inverse` (Props/ImpliedVolApprox.lean): the volatility returned by the fast approximation is positive, and Black's formula with Pólya's distribution function gives back exactly the price for it; for every price strictly within the no-arbitrage bounds and every factor in the exponent that is at least one half (the default is `2 / π`).

## C44 Yields from present values are found by Newton's method without overshooting and invert the present values

pv_from_yields gives for each group the sum of its cashflows discounted at the yield of the group. If the cashflows are not negative, not in the past and something is paid in the future, the present value is strictly decreasing in the yield so the yield is unique. yields_from_pv returns for all groups the Newton iterate after the same number of steps; after at least one step the yield is at most the true yield; when it stops before the iteration limit every last step is within the tolerance and the repricing error is at most the tolerance times the dollar duration. Starting from the present values of given yields, the yields are recovered in the limit of many iterations, for every positive or negative yield. (all cashflows, times, groups, present values, yields, tolerances and iteration limits)

* `C44_present_values` (Props/Yields.lean): `pv_from_yields` gives the present value of every group at its own yield.
* `C44_single` (Props/Yields.lean): without groups there is a single present value.
* `C44_decreasing` (Props/Yields.lean): the present value is strictly decreasing in the yield, with derivative minus the dollar duration, so there is at most one yield.
* `C44_yields` (Props/Yields.lean): what `yields_from_pv` returns: the Newton iterates of all groups after the same number `m` of steps. Either all iterations are used up or all last steps are within the tolerance. After at least one step the yield never overshoots: the cashflows are worth at least the present value, so the yield is at most the true one. In case of a stop after at least two steps they are worth at most the tolerance times the dollar duration more.
* `C44_round_trip` (Props/Yields.lean): round trip. Starting from the present values of given yields, with tolerance zero, the yields are recovered in the limit of many iterations.

## C45 A finite difference step solves the difference equation with exact parabola derivatives and the boundary conditions

On every increasing grid with at least four points, uniform or not, a step of the weighted scheme (implicit, explicit, Crank-Nicolson) of the one dimensional parabolic solver returns values that satisfy the Dirichlet, Neumann or Robin conditions at the new time. Old and new values, completed by boundary values for the mid time, satisfy (w - v) / dt = theta L v + (1 - theta) L w at every inner point, where L takes its derivatives from the parabolas through three neighbouring points and uses the coefficients at the mid time. Grid functions that satisfy these equations are reproduced exactly. Where no condition is given (default), the equation without second derivative holds at the boundary with a one-sided difference. (all grids, values, coefficients (inner and outer), boundary conditions, weights and time steps)

* `C45_step` (Props/Parabolic.lean): a step with the weighted scheme (implicit, explicit, Crank-Nicolson). The grid is increasing and has at least four points; the boundary conditions are Dirichlet, Neumann, Robin or default (absent), in any combination. The new values satisfy the boundary conditions at the new time. Old and new values, completed by boundary values that satisfy the conditions at the mid time, satisfy the difference equation at every inner point: the derivatives in space are those of the parabolas through three neighbours.
* `C45_default_partial` (Props/Parabolic.lean): default boundary condition (absent): at the boundary point the equation without the second derivative holds, with a one-sided difference. What is missing: this holds only if the two steps of the grid next to the boundary are equal, see `C45_default_lower_spacing`.
* `C45_default_lower_spacing` (Props/Parabolic.lean): deviation: on every grid whose first two steps differ, the default condition at the lower boundary is wrong. The equation is `V_t + V_x = 0` with the solution `V = x - (t - t1)`; an explicit step of any size gives another value at the boundary.
* `C45_exact` (Props/Parabolic.lean): grid functions that satisfy the difference equation for the weighted mean are reproduced exactly. In particular steady solutions that are parabolas are kept by every scheme, and Crank-Nicolson is exact for solutions that are linear in time and parabolas in space.

## C46 Discrete maximum and comparison principle of a finite difference step

If the drift is small compared to the diffusion on the grid, the zeroth order coefficient is not positive and the explicit part of the step is small enough, then a backward step with Dirichlet conditions does not fail, keeps all values between any bounds of the old values and boundary values (which discounting does not violate), and is monotone in the values and the boundary values. (all grids, values, coefficients, boundary values, weights and time steps under the conditions)

* `C46_maximum` (Props/MaximumPrinciple.lean): maximum principle: a backward step with Dirichlet conditions under the stability conditions succeeds, and the new values are between any bounds of the old values and of the boundary values (bounds that discounting does not violate).
* `C46_comparison` (Props/MaximumPrinciple.lean): comparison: larger values and larger boundary values give larger results.

## C47 The finite difference solvers step exactly from the start to the end time

With a constant time step the backward solver performs ceil((start - end) / dt) steps starting at start, start - dt, ..., all of length dt but the last one, which ends at the end time; with a number of steps it performs that many equal steps; forward likewise. The final time is the end time and the step counter is advanced by the number of steps; transformations are applied after each step at the new time. With a callable step the end time is never passed. If the end is on the wrong side of the start nothing happens. (all start and end times, time steps, numbers of steps, step functions, values and transformations)

* `C47_backward_dt` (Props/FdSolvers.lean): backward with a constant step: the steps begin at `start`, `start - dt`, .., they are all of length `dt` except that the last one ends exactly at `end`; there are `⌈(start - end) / dt⌉` of them.
* `C47_backward_steps` (Props/FdSolvers.lean): backward with a number of steps: `n` equal steps from `start` to `end`.
* `C47_forward_dt` (Props/FdSolvers.lean): forward with a constant step.
* `C47_forward_steps` (Props/FdSolvers.lean): forward with a number of steps.
* `C47_backward_callable` (Props/FdSolvers.lean): steps from a callable: the solver never goes past `end`; if it performs fewer than `maximum_steps` steps it stops exactly at `end`. A property of the values that every step keeps holds for the result.
* `C47_no_steps` (Props/FdSolvers.lean): `end` on the wrong side of `start`: nothing happens.
* `C47_negative_start` (Props/FdSolvers.lean): deviation: for a negative start time the backward solver goes forward, with one step to time 0.

## C48 Crank-Nicolson, extrapolation and their composition converge with second order, and extrapolation damps stiff components

On an eigenvector of the space discretization each scheme acts as a rational function of z = lambda dt: (1 + theta z) / (1 - (1 - theta) z) for the weighted scheme and 2 / (1 - z/2)^2 - 1 / (1 - z) for extrapolation. For theta <= 1/2 and for extrapolation the factor is at most one in size for all z <= 0; the extrapolation factor tends to 0 and the Crank-Nicolson factor to -1 as z goes to minus infinity. Crank-Nicolson, extrapolation and the oscillation damped composition are within |z|^3 of exp(z), and the solver with n equal steps gives the exact solution up to (lambda T)^3 / n^2. (all tridiagonal systems, eigenvectors and eigenvalues, times, numbers of steps and numbers of initial extrapolation steps)

* `C48_weighted_factor` (Props/Amplification.lean): one step multiplies an eigenvector of the space discretization by a rational function of `z`.
* `C48_extrapolation_factor` (Props/Amplification.lean): 
* `C48_stable` (Props/Amplification.lean): the implicit, Crank-Nicolson and extrapolation schemes are stable for every step size: no component grows.
* `C48_damping` (Props/Amplification.lean): stiff components are damped by the extrapolation scheme, while Crank-Nicolson lets them oscillate.
* `C48_second_order` (Props/Amplification.lean): Crank-Nicolson, extrapolation and the composition of both (the default scheme of the solver) are of second order.
* `C48_convergence` (Props/Amplification.lean): convergence: the solver with `n` equal steps of a second order scheme, applied to `dv/dt = A v` with final value an eigenvector, gives the exact solution up to an error of order `1 / n ^ 2`.

## C49 Gaussian quadrature tables integrate polynomials of full degree

For every supported number of points n and all polynomials p of degree below 2n and all limits a, b, gauss_legendre(p, a, b, n) equals the integral of p over [a, b] up to 10^-24 times half the length times the sum of the absolute coefficients of p after the affine change of variables to [-1, 1] (that is, up to the decimals of the table). The Kronrod rule with n = 2m+1 points does so for degree at most 3m+1 with 10^-20. All weights are positive. (all table sizes, all real polynomials of the stated degree, all real limits)

* `C49_legendre` (Props/Gauss.lean): every supported Gauss-Legendre rule with `n` points integrates all polynomials of degree below `2 n` over every interval, up to the accuracy of the decimals in the table (error `10^-24` per coefficient).
* `C49_kronrod` (Props/Gauss.lean): the Kronrod rules with `n = 2 m + 1` points integrate all polynomials of degree at most `3 m + 1`.
* `C49_positive` (Props/Gauss.lean): the weights of all rules are positive, so integrals of positive functions are positive.

## C50 Adaptive Gauss-Kronrod sums estimates over a partition

The adaptive integral of f over [a, b] is the sum of the Kronrod estimates on accepted intervals; accepted intervals and the intervals left over at the maximal depth are a partition of [a, b] by bisection; on accepted intervals with positive estimate the difference to the Legendre estimate is at most tolerance times the estimate; if some level below the maximal depth is accepted entirely, nothing is left over and local errors e(u-l) add to at most e(b-a). (all integrands, limits a <= b, tolerances, depths and table sizes)

* `C50_adaptive_partial` (Props/Gauss.lean): the adaptive rule is the sum of the estimates on accepted intervals. Accepted intervals and those left over when the maximal depth is reached form a partition; accepted intervals with a positive estimate satisfy the tolerance. What is missing: the tolerance is not enforced where the estimate is negative (`C50_negative`), and the intervals left over are not counted (`C50_depth`).
* `C50_error` (Props/Gauss.lean): if every interval of length `(b - a) / 2^d` is accepted for some `d` below the maximal depth, and the rule has error at most `e (u - l)` on every accepted interval, then the result has error at most `e (b - a)`. `F` is an antiderivative.
* `C50_negative` (Props/Gauss.lean): deviation: if the estimate on the whole interval is negative, it is returned whatever the error, for every tolerance.
* `C50_depth` (Props/Gauss.lean): deviation: intervals that are still bad when the maximal depth is reached are dropped; with depth 1 the result is 0.

## C51 Hull-White paths have the exact moments of the model

For a mean reversion k not 0 and a piecewise constant volatility with increasing non-negative jump times, one step of the sampler from time s to t has the conditional mean and variance of the exact solution of the Hull-White equation: variance = integral from s to t of exp(-2k(t-u)) sigma(u)^2 du, mean = exp(-k(t-s)) x + f(t) - exp(-k(t-s)) f(s) + convexity terms; the samples returned for requested times are the states of the recursion over the union of requested times and volatility jumps, at exactly the requested times. (all mean reversions, volatilities, initial curves, sorted requested times and normal draws)

* `C51_moments` (Props/HullWhite.lean): the moments from one time to the next are those of the stochastic differential equation, for every piecewise constant volatility.
* `C51_paths` (Props/HullWhite.lean): the sampled rate at each requested time is the initial forward rate plus the exact mean of the state plus a combination of the normal draws whose squared weights sum to the exact variance of the state, whatever the grid.
* `C51_constant` (Props/HullWhite.lean): the well known moments for a constant volatility.

## C52 Hull-White bond prices fit the curve and satisfy the pricing equation

discount_bond_price(r, t, T) equals the discount factor of the initial curve at t = 0 and r = f(0); is 1 at t = T; is strictly decreasing in r for T after t; its expectation under the model, discounted by the initial curve, gives back the initial curve; and between volatility jumps it satisfies the pricing partial differential equation of the Hull-White model with its exact drift. drift_fn is that drift if the volatility is constant. (all curves (differentiable where needed), mean reversions, piecewise constant volatilities, rates and times)

* `C52_initial_curve` (Props/HullWhiteBonds.lean): at time 0 and the initial short rate the bond prices are those of the initial curve.
* `C52_maturity` (Props/HullWhiteBonds.lean): a bond is worth 1 at its maturity.
* `C52_decreasing` (Props/HullWhiteBonds.lean): later bonds are cheaper relative to the initial curve where rates are higher: the price is strictly decreasing in the short rate.
* `C52_forward_expectation` (Props/HullWhiteBonds.lean): with a normal state of mean 0 and variance `y(t)`, the law in the `t`-forward measure, the expected bond price is the forward price of the initial curve.
* `C52_pricing_equation` (Props/HullWhiteBonds.lean): between the jumps of the volatility the bond price solves the pricing equation `P_t + (f' + k f + y - k r) P_r + sigma^2 / 2 P_rr = r P`.
* `C52_drift_constant_partial` (Props/HullWhiteBonds.lean): for a constant volatility the drift function is the one of the pricing equation.
* `C52_drift_jump` (Props/HullWhiteBonds.lean): deviation: for a volatility with a jump the drift function uses the current volatility as if it had always held. With the volatility 0 before time 1 and `sigma` after it, the drift exceeds the right one.

## C53 Hull-White bond options are discounted expected payoffs

The analytic price of a European call (put) on a zero coupon bond equals the discount factor to expiry times the expectation of the payoff of the model's own bond price, the short rate at expiry being normal with the forward rate as mean and the exact variance; put-call parity holds. (all positive strikes, expiries before maturities, curves, mean reversions and volatilities with positive variance)

* `C53_bond_option_partial` (Props/HullWhiteOptions.lean): the price of a European option on a bond is the discounted expectation of its payoff, where the bond price at expiry is the model's own bond price for a normal short rate with the exact variance. What is missing: no volatility (`C53_no_variance`).
* `C53_parity` (Props/HullWhiteOptions.lean): put-call parity.
* `C53_no_variance` (Props/HullWhiteOptions.lean): deviation: without variance the payoff of the forward price is returned, not discounted.

## C54 Hull-White caps and floors are sums of expected caplet payoffs

The analytic price of a cap (floor) is the sum over its periods of notional times the discounted expectation of the payoff daycount times the positive part of the difference of rate and strike, paid at the end of the period; caplets that start before 0 are 0; cap minus floor is the value of the swap. (all lists of caplets with positive daycount fractions and 1 + daycount * strike positive, all notionals)

* `C54_cap_floor_partial` (Props/HullWhiteOptions.lean): a cap (floor) is the sum of the discounted expectations of its caplets (floorlets). Caplets are `(strike, expiry, maturity, daycount fraction)`. What is missing: as for bond options.
* `C54_parity` (Props/HullWhiteOptions.lean): cap-floor parity: the difference is the swap of the floating rate against the strike.

## C55 Jamshidian's decomposition prices swaptions

There is exactly one short rate at which the fixed leg is worth the floating leg; if the strikes are the bond prices for that rate, the sum of bond options is notional times the discounted expectation of the positive part of the value of the swap (payer) or of its negative (receiver); payer minus receiver is the forward swap. (all non-empty lists of payments after expiry with non-negative coupons, all curves, mean reversions and volatilities)

* `C55_any_rate` (Props/HullWhiteOptions.lean): whatever rate the root finder returns, the price is the discounted expectation of the positive part of the swap at expiry, less the value the swap has at this rate.
* `C55_swaption_partial` (Props/HullWhiteOptions.lean): Jamshidian's decomposition. If the break-even rate is a root, the price is the discounted expectation of the payoff of the swaption, the positive part of the value of the swap at expiry. What is missing: the case without variance, a deviation as for bond options. Rates that are no exact roots are `C55_tolerance`.
* `C55_tolerance` (Props/HullWhiteOptions.lean): the error of the price is at most the discounted notional times the value of the swap at the rate that the root finder returned.
* `C55_batch` (Props/HullWhiteOptions.lean): each price of a batch, with the break-even rates found by Brent's method. If the value of the swap has different signs at the ends of the bracket, the search stays within it; whenever it reports success, the price is the discounted expectation of the payoff up to the tolerance of the search times the discounted notional.
* `C55_parity` (Props/HullWhiteOptions.lean): payer minus receiver is the forward swap.
* `C55_break_even` (Props/HullWhiteOptions.lean): there is exactly one break-even rate.

## C56 Discount factors of simulated short rate paths

cumsum_using_matvec and cumprod_using_matvec are running sums and products; the discount factor of a path at simulation time t_i is exp of minus the sum of r_j (t_j - t_(j-1)) over all steps from 0 to t_i; and the value of exercising a Bermudan swaption depends on is_payer_swaption. (all lists of times and rates)

* `C56_cumsum` (Props/PathDiscount.lean): `cumsum_using_matvec` gives the running sums.
* `C56_cumprod` (Props/PathDiscount.lean): `cumprod_using_matvec` gives the running products of positive numbers.
* `C56_path_discount_partial` (Props/PathDiscount.lean): both versions of the path discount factors are `exp (-∑ r dt)` over the steps between the simulation times. What is missing: the step from time 0 to the first simulation time, see `C56_first_step`.
* `C56_first_step` (Props/PathDiscount.lean): deviation: with a constant rate the factor is `exp (-r (t_i - t_0))`: nothing is discounted up to the first simulation time `t_0`.
* `C56_never_discounted` (Props/PathDiscount.lean): deviation: the first simulation time is never 0: it is an expiry or a multiple of the step. So with a positive constant rate every discount factor is too large.
* `C56_bermudan_receiver` (Props/PathDiscount.lean): deviation: a Bermudan receiver swaption is exercised as a payer swaption.

## C57 Least squares Monte Carlo prices follow an exercise policy fitted by least squares

The price returned by least_square_mc is the mean over the pricing paths of the discounted payoff at the exercise index of a policy with these properties: at the last exercise time everything left is exercised; at an earlier time a path is exercised exactly if its payoff exceeds the positive part of the least squares regression, over the in-the-money calibration paths, of the discounted payoff of continuing under the same policy. The two experimental versions return the same price. The polynomial basis contains each monomial with exponents up to the degree exactly once. (all paths, payoffs, basis functions, discount factors other than zero, exercise times and numbers of calibration paths)

* `C57_price` (Props/Lsm.lean): the price is the mean over the pricing samples of the discounted payoff under an exercise policy of Longstaff and Schwartz.
* `C57_versions` (Props/Lsm.lean): the three versions of the algorithm agree (the oldest one has no calibration samples).
* `C57_upper` (Props/Lsm.lean): the price is never above the mean of the best discounted payoff on each path, if discounted payoffs are below `best`.
* `C57_basis_powers` (Props/Lsm.lean): the polynomial basis has each monomial with exponents up to the degree exactly once.
* `C57_samples` (Props/Lsm.lean): with calibration samples, the regression uses exactly the first `m` samples and the price exactly the others, so that no sample is used for both; otherwise all samples are used for both.

## C58 Path samplers return the states of the scheme at the requested times

euler_sampling.sample and milstein_sampling.sample return, for each requested time, the state of the scheme at the grid point that belongs to it (equal to it for a given number of steps, at most the tolerance before it for a given time step), for the while loop and for the loop with watched parameters alike; and the Euler states satisfy X(n+1) = X(n) + a(t(n), X(n)) dt + b(t(n), X(n)) sqrt(dt) z(n). (all drifts, volatilities, dimensions, initial states, normal draws, and increasing requested times)

* `C58_recording` (Props/Sampling.lean): for any scheme, if the positions of the requested times in the grid increase, the loop returns the states at these positions.
* `C58_for_loop` (Props/Sampling.lean): for any scheme the loop with `watch_params` (property C40) returns the same states.
* `C58_for_loop_milstein` (Props/Sampling.lean): the loop of the Milstein sampler with `watch_params` returns the same states, if the last point of the grid is the one that is requested when there is only one.
* `C58_euler_partial` (Props/Sampling.lean): the states of the Euler sampler form an Euler path, with the coefficients at the end of each step. Missing: the documentation has the coefficients at the start of the step, see `C58_end_of_step`.
* `C58_autonomous` (Props/Sampling.lean): if the coefficients do not depend on time, the sampled states are the documented Euler path.
* `C58_end_of_step` (Props/Sampling.lean): C58 (deviation): the coefficients are taken at the end of the step, not at its start as documented.
* `C58_times` (Props/Sampling.lean): the samples belong to the requested times. For any scheme, if the grid is sorted and has a point at most `tol` before each requested time at its reported index, and requested times are more than `tol` apart, the sample for a time is the state at that grid point.
* `C58_num_steps` (Props/Sampling.lean): with a number of steps each sample is the state at a grid point equal to the requested time.
* `C58_time_step` (Props/Sampling.lean): with a time step each sample is the state at a grid point at most the tolerance before the requested time, if requested times are more than twice the tolerance apart and so is the time step.
* `C58_same_point` (Props/Sampling.lean): C58 (deviation): with a supplied grid and two requested times next to the same grid point, the sample for the second one is the state at another grid point. Here the times 0.9 and 1.1 on the grid 0, 1, 2 give the states at 1 and 2.

## C59 The Milstein step is that of the literature

One step of milstein_sampling is X + (a - 1/2 sum_j L^j b^j) dt + sum_j b^j dW_j + sum_(j1,j2) L^(j1) b^(j2) J(j1,j2) with L^j = sum_i b^(i,j) d/dx_i and multiple Stratonovich integrals J with J(i,j) + J(j,i) = dW_i dW_j; in one dimension X + a dt + b dW + 1/2 b b' (dW^2 - dt). (all coefficients, derivatives, states, time steps and normal draws)

* `C59_one_dim` (Props/Milstein.lean): in one dimension the step is the Milstein step.
* `C59_one_dim_mean` (Props/Milstein.lean): in one dimension the mean of the step is that of the Euler step.
* `C59_constant_partial` (Props/Milstein.lean): in several dimensions the step is the Milstein step if the volatility does not depend on the state. Missing: other volatilities, see `C59_diagonal`, `C59_contraction` and `C59_symmetric`.
* `C59_diagonal` (Props/Milstein.lean): C59 (deviation): the correction of the drift lacks the factor one half. If each state has its own Wiener process and a volatility that depends on this state only, the step is the Milstein step minus half of the product of volatility and derivative times the time step.
* `C59_diagonal_mean` (Props/Milstein.lean): C59 (deviation): so the mean of the step is too low by half of the product of volatility and derivative times the time step, where `C59_one_dim_mean` has no such term.
* `C59_symmetric` (Props/Milstein.lean): C59 (deviation): the symmetric part of the multiple integrals is scaled by the time step once too often.
* `C59_contraction` (Props/Milstein.lean): C59 (deviation): the derivatives of the volatility are contracted with the wrong index. Even with the right multiple integrals the terms of higher order are wrong. The witness is the SABR model with exponent 0, volatility of volatility 1 and correlation 3/5 at volatility 1.

## C60 Geometric Brownian motion is sampled with its exact law

GeometricBrownianMotion.sample_paths and MultivariateGeometricBrownianMotion.sample_paths return values whose logarithms at the requested times are the exact means (integral of drift rate minus half of the squared volatility) plus combinations of the normal draws whose covariances are the integrals of the volatilities times correlation, jointly for all times; the mean growth between times is the exponential of the integral of the drift rate; values are positive. (all constant or piecewise constant drift rates and volatilities, correlation matrices with a Cholesky factor, sorted times, initial values and draws)

* `C60_paths` (Props/Gbm.lean): the sampled values at the requested times have the exact joint law. There are weights, the same for all times, such that the logarithm at each time is the exact mean plus the weighted draws up to this time, and the squared weights up to each time sum to the integral of the squared volatility.
* `C60_positive` (Props/Gbm.lean): the values are positive for a positive initial value.
* `C60_growth` (Props/Gbm.lean): given the path up to a time, the mean of the value at the next time is the current value times the exponential of the integral of the drift rate. `prev` is the value at the time before.
* `C60_coefficients` (Props/Gbm.lean): the drift and volatility functions of the process.
* `C60_multi` (Props/Gbm.lean): the multivariate process has the exact joint law at all requested times. The logarithm of each component is its exact mean plus weighted draws, and the sums of products of the weights up to a time are the exact covariances of the logarithms at this time.

## C61 The Heston sampler matches the moments of the variance and records the requested times

In HestonModel.sample_paths every step draws a non-negative variance whose mean and variance are exactly those of the square root process, in both branches of the quadratic-exponential scheme; the log spot moves by the integrated equation with trapezoidal rule for the variance; each step uses the parameters in force during the step; the samples are the states at the requested times. The volatility matrix has the covariance of the model and expected_total_variance is the integral of the mean variance. (all positive mean reversions and long run variances, non-zero volatilities of variance, correlations, piecewise constant parameters, times and draws)

* `C61_variance_moments` (Props/Heston.lean): the variance drawn by a step has the mean and the variance of the square root process.
* `C61_moments_exist` (Props/Heston.lean): the equations of the moments have a solution.
* `C61_nonneg` (Props/Heston.lean): a step keeps the variance non-negative.
* `C61_log_spot` (Props/Heston.lean): the logarithm of the spot moves by the solution of its equation given the variances at both ends, where the integral of the variance is replaced by the trapezoidal rule.
* `C61_drift` (Props/Heston.lean): the drift of the logarithm of the price is minus half of its variance, so that the price itself has no drift, and the drift of the variance is the mean reversion to `theta`.
* `C61_covariance` (Props/Heston.lean): the covariance of the volatility matrix, with correlation `rho`.
* `C61_total_variance` (Props/Heston.lean): the expected total variance is the integral of the mean of the variance.
* `C61_times` (Props/HestonPaths.lean): without a supplied grid, the samples are the states of one path at the requested times: the path starts with the initial state and follows the steps of the scheme, with the parameters that the code evaluates for each step.
* `C61_parameters_partial` (Props/HestonPaths.lean): if the grid has no repeated point, every step uses the parameters in force during the step. Missing: repeated points, see `C61_old_parameters`.
* `C61_old_parameters` (Props/HestonPaths.lean): C61 (deviation): if a requested time is a jump of the parameters, the grid has a repeated point and the step after the jump uses the parameters from before the jump. Here the value `b` of `theta` after time 1 has no influence on the samples at the times 1 and 2.
* `C61_given_grid` (Props/HestonPaths.lean): C61 (deviation): with a supplied grid and the requested times 0 and 1, the state at time 1 is returned as the first sample, and the second sample is never written.

## C62 Joined Ito processes have the documented covariance and the solvers get the equations of the process

In JoinedItoProcess every component process keeps its drift as a function of its own coordinates, and the covariance of two coordinates is that of the component volatilities driven by Brownian motions with the block diagonal correlation matrix of corr_structure; a component whose own motions are uncorrelated keeps its covariance. The coefficients that fd_solver_backward passes to the solver are those of the generator of the sampled process with minus the discount rate, and the equation of fd_solver_forward is its adjoint. (all lists of processes of any dimensions, all correlation structures of the same total dimension with a Cholesky factor, all times, states and volatility matrices)

* `C62_drift` (Props/ItoProcess.lean): each process keeps its drift, as a function of its own coordinates.
* `C62_covariance` (Props/ItoProcess.lean): the covariance of the joined process. Two processes (the same or different ones) have the covariance of their own volatilities with the Brownian motions correlated by the block matrix of `corr_structure`.
* `C62_correlation` (Props/ItoProcess.lean): the correlations of the Brownian motions are those of the matrix of the block, and zero between different blocks.
* `C62_marginal` (Props/ItoProcess.lean): a process whose own Brownian motions are not correlated with each other keeps its covariance in the joined process.
* `C62_generator` (Props/ItoProcess.lean): the coefficients of the backward equation are those of the sampled process. For every function with gradient `g` and second derivatives `H` at the grid point, one Euler step changes its quadratic expansion in the mean by `dt` times the terms of the equation, up to `dt^2`.
* `C62_discounting` (Props/ItoProcess.lean): the zeroth order term is minus the discount rate, and there is none without discounting.
* `C62_forward_adjoint` (Props/ItoProcess.lean): the forward equation is the adjoint of the backward one. With one state variable, densities that move by the forward equation `p_t + (a p)'' + (b p)' = 0` and values that move by the backward equation `v_t + a' v'' + b' v' = 0` (the coefficients as computed) have a product whose change in time is a derivative in space, so the expectation is constant when the boundary terms vanish.

## C63 The Cox-Ingersoll-Ross sampler draws from the exact law

In CirModel.sample_paths each step draws the next state from the exact transition law of dX = (theta - k X) dt + sigma sqrt(X) dW given the previous state: the expectation of exp(-l X) solves Kolmogorov's equation with the right initial value for every l >= 0. Several steps have the law of one step, mean and variance are those of the process, samples are non-negative and in the order of the requested times, and stateless seeds are never used twice. (all positive theta, all mean reversions (also zero and negative), all non-zero sigma, all non-negative states, all positive time steps, all l >= 0)

* `C63_exact_law_partial` (Props/Cir.lean): the sampled state after time `t` has exactly the law of the square root process with the drift and the volatility of the model: for every `l ≥ 0` the expectation of `exp (-l X)` solves Kolmogorov's equation with the initial value, including the unchanged state at `t = 0`.
* `C63_steps` (Props/Cir.lean): two steps have the law of one step over the sum of the times, so that the law at a requested time does not depend on the other requested times.
* `C63_moments` (Props/Cir.lean): the mean and the second moment of the sampled state.
* `C63_no_volatility` (Props/Cir.lean): without volatility the sampler keeps the state, although the equation `dx = (theta - k x) dt` moves it.
* `C63_path` (Props/Cir.lean): the samples are the states after the steps to the requested times, in order, and non-negative for non-negative draws.
* `C63_seeds` (Props/Cir.lean): with a stateless seed all the draws of a path use different seeds.

## C64 A Douglas ADI step solves the difference equations of the multidimensional PDE

A step of multidim_parabolic_equation_step with douglas_adi_scheme(theta) is an explicit Euler step with the whole spatial operator (central differences, mixed derivatives by four points, one-sided differences on default boundaries) followed by one implicit correction per dimension with weight theta, where the values on the boundaries are those that the boundary conditions at the time in question give. The conditions at the new time hold after the step; steady states are preserved exactly for every step size and weight; in one dimension the step is the weighted scheme; the differences are exact for polynomials of degree two; theta outside of [0, 1] is rejected; a backward heat equation can always be solved. (all numbers of dimensions, all grid sizes of at least four points, all coefficients (present or absent, inner and outer) and Robin, Dirichlet, Neumann or default conditions depending on time and place, all weights and time steps for which the lines can be solved)

* `C64_scheme` (Props/Adi.lean): what a step computes. There are a grid function `u0` that extends the given values by the boundary conditions at the first time, and stages `y 0, .., y n` with extensions `e 0, .., e n` by the boundary conditions at the second time, such that `y 0` is an explicit step with the whole operator, stage `d + 1` corrects the part of dimension `d` implicitly, and the result is the extension of the last stage.
* `C64_theta` (Props/Adi.lean): the weight of the implicit part must be between zero and one.
* `C64_boundary` (Props/Adi.lean): the boundary conditions at the new time hold after the step, on every line of inner points and of the boundaries of earlier dimensions.
* `C64_extension_unique` (Props/Adi.lean): the values in the inner grid and the boundary conditions determine the values on the grid.
* `C64_steady` (Props/Adi.lean): a steady state of the difference equations is preserved by a step of any size and any weight: if the coefficients and conditions are the same at both times, and the operator vanishes on `u`, which satisfies the boundary conditions, then the result is `u`.
* `C64_one_dimension` (Props/Adi.lean): in one dimension a step is the weighted (theta) scheme.
* `C64_solvable` (Props/Adi.lean): the lines can be solved if the matrices are diagonally dominant.
* `C64_heat_solvable` (Props/Adi.lean): for a heat equation backward in time, with Dirichlet or default conditions, every step can be solved.
* `C64_exact` (Props/Adi.lean): the differences are exact for polynomials of degree two in all variables: for `a + b x + x M x` they give the gradient and the matrix of second derivatives.

## C65 A stream of fixed coupons is priced as the present value of its own coupons

For every batch of fixed coupon streams, the price of each stream is the sum over its own coupon periods of notional * rate * year fraction * discount factor at the payment date, counting the payments that are not before the valuation date. The coupon dates are those obtained from the start date forwards (or around an irregular first or last coupon), independently of the other streams of the batch and of the padding of the schedules. Setting up a stream with valid dates succeeds. (all batches of any size, all dates from year 1, all periods in days, weeks, months and years, with or without an irregular first or last coupon, all three day counts, all notionals, rates and curves)

* `C65_fixed` (Props/Instruments.lean): the price of every stream of a batch is the present value of its own fixed coupons: one coupon for every period of the stream's schedule (also if other streams of the batch have more coupons), with payment not before the valuation date.
* `C65_dates_unique` (Props/Instruments.lean): the coupon dates of a stream are determined by its start, end, period and irregular coupon.
* `C65_total` (Props/Instruments.lean): the stream can be set up, unless the last coupon is irregular, the period is in days or weeks, and the batch has several streams (then the schedules are computed backwards and may leave year 1, see `C15_backward`).
* `C65_single_coupon_deviation` (Props/Instruments.lean): Deviation: if the only coupon of every stream is the irregular first one (first coupon date = end date), there are no coupons at all, and the price is zero.
* `C65_penultimate_ignored_deviation` (Props/Instruments.lean): Deviation: with a first coupon date, the penultimate coupon date has no effect.

## C66 A stream of floating coupons is priced with its own fixings and forward rates

For every batch of floating coupon streams, the price of each stream is the present value of the coupons not before the valuation date, where a coupon pays multiplier * (rate + basis) over its period, with the fixing if its period has started and the forward rate of its reference period otherwise. On a single curve a plain stream before its start is worth notional * (D(start) - D(end)). A batch with a fixing can be priced. (all batches of any size, all dates from year 1, all coupon periods and reference terms, with or without an irregular first or last coupon, all notionals, bases, multipliers and curves)

* `C66_floating_partial` (Props/Floating.lean): C66 (partial): the price of every stream of a batch is the present value of its own coupons, which pay `multiplier * (rate + basis)`, if (1) there is no basis or no coupon has been paid, and (2) the reference period of every future coupon is as long as the coupon period. See the deviation theorems for what happens otherwise.
* `C66_plain` (Props/Floating.lean): on a single curve, before its start, a plain stream is worth `notional * (D(start) - D(end))`.
* `C66_past_basis_deviation` (Props/Floating.lean): Deviation: coupons paid before the valuation date still count with their basis.
* `C66_reference_period_deviation` (Props/Floating.lean): Deviation: the rate used for a future coupon is the forward rate of the reference period times the quotient of the lengths of the reference period and of the coupon period.
* `C66_fixing_batch_deviation` (Props/Floating.lean): Deviation: with a fixing, a batch of several streams with several coupons cannot be priced.
* `C66_month_end_deviation` (Props/Floating.lean): Deviation: for a stream starting on 31 January the reference periods do not fit together, and the stream is not worth `notional * (D(start) - D(end))`: the reference period of the second coupon ends on 28 March, the coupon on 31 March.

## C67 Swaps, bonds, notes, rate agreements and Eurodollar futures are worth what their cashflows are worth

The price of a swap is the value received minus the value paid, so the two sides have opposite values; the annuity is the value of unit coupons; a swap at its par rate is worth zero; on a single curve before its start a swap is worth notional * (D(start) - D(end)) minus the fixed coupons. A bond is worth its coupons and principal that are not in the past; a plain floating rate note is worth its notional at the start date; a forward rate agreement on a single curve is worth notional * (D(start) - (1 + rate * tau) * D(end)); a Eurodollar future is priced at 100 * notional * (1 - forward rate). (all batches, dates, rates, notionals, day counts and curves)

* `C67_two_sides` (Props/Swaps.lean): the two sides of a swap have opposite values.
* `C67_annuity` (Props/Swaps.lean): the annuity of a swap is the present value of the fixed coupons for the rate one (and, for the method `annuity`, the notional one).
* `C67_par_rate_partial` (Props/Swaps.lean): C67 (partial): a swap whose fixed rate is its par rate is worth nothing, if no fixed payment is in the past. (Otherwise see `C67_par_rate_deviation`: past payments still count in the annuity.)
* `C67_bond_partial` (Props/Swaps.lean): C67 (partial): the price of a bond is its value, if it has not matured.
* `C67_matured_bond_deviation` (Props/Swaps.lean): Deviation: the principal of a bond which has matured still counts.
* `C67_note` (Props/Swaps.lean): on a single curve, before its start, a plain floating rate note is worth its notional at the start date.
* `C67_swap` (Props/Swaps.lean): on a single curve, before its start, a swap of a plain floating leg against fixed coupons is worth `notional * (D(start) - D(end))` minus the value of the coupons.
* `C67_fra` (Props/Swaps.lean): the price of a forward rate agreement is the value, paid at settlement, of the difference between the forward rate and the agreed rate over the accrual period.
* `C67_fra_single_curve` (Props/Swaps.lean): on a single curve, a forward rate agreement is worth one unit at the start of the accrual period minus one unit and the agreed interest at its end.
* `C67_fra_unspecified` (Props/Swaps.lean): without term and maturity the contract is refused.
* `C67_eurodollar` (Props/Swaps.lean): the price of a Eurodollar future is `100 * notional * (1 - forward rate)`.
* `C67_par_rate_deviation` (Props/Swaps.lean): Deviation: after the first fixed payment the par rate is the value of the remaining floating coupons divided by an annuity which still counts the payment; the swap with this rate is not worth zero.

## C68 Futures on overnight rates settle on the rates of the business days of the reference period

The price is 100 * (1 - R), where R compounds (or averages) the overnight rate of every business day of the reference period, each rate accruing up to the next business day or the end of the period. The accrual periods add up to the reference period: with equal overnight rates the averaging future settles at this rate, without holidays the compounding future settles at the simple rate of the whole period, and if no rate is negative the compounding future is not worth more than the averaging one. (all reference periods, all calendars that roll forward, all day counts and curves)

* `C68_calendar` (Props/Overnight.lean): the default calendar, and every other calendar by formula, qualifies.
* `C68_settlement_partial` (Props/Overnight.lean): if the first and the last day of the reference period are business days, the future is priced at 100 times one minus the settlement rate: the rate of every business day is compounded (or averaged) over the days up to the next business day.
* `C68_constant_rate` (Props/Overnight.lean): if all overnight rates of the curve agree, the future on their average is settled at this rate.
* `C68_no_holidays` (Props/Overnight.lean): without holidays, compounding the overnight rates replicates the curve: the future is settled at the simple rate of the whole reference period.
* `C68_compounding` (Props/Overnight.lean): if no overnight rate is negative, the compounding future is not worth more than the averaging one.
* `C68_two_days_deviation` (Props/Overnight.lean): a reference period of two days has only one reset: the second day is dropped from the schedule, and the rate of the first day accrues over both.
* `C68_holiday_at_end_deviation` (Props/Overnight.lean): if the last day of the reference period is a holiday, the last reset is rolled past the end of the period: the rate of Friday 3 January 2020 accrues up to Monday 6 January, and the rate of that Monday, which is outside the period, accrues over minus one day.

## C69 Caps, floors and swaptions are worth the discounted lognormal expectation of their payoffs

CapAndFloor.price gives, for every contract of a batch, the sum over its periods with payment after the valuation date of notional times year fraction times discount factor times the value of the caplet or floorlet, which is the payoff at the fixing when the period has started, and otherwise the expectation of the payoff for a lognormal rate with mean equal to the forward rate. A cap minus a floor is the swap of the rate against the strike; the value is not below the intrinsic value. Swaption.price is the annuity times the lognormal expectation of the payoff of the swap rate, and a payer minus a receiver is the swap. (all batches, dates, tenors, day counts, curves, strikes, volatilities and valuation dates)

* `C69_cap_floor_partial` (Props/CapFloor.lean): C69 (partial): a batch of caps and floors with a common notional is worth the sum of its caplets with payment after the valuation date, every contract with its own dates, strike and volatilities.
* `C69_caplet_parity` (Props/CapFloor.lean): a caplet minus a floorlet pays the rate minus the strike.
* `C69_parity` (Props/CapFloor.lean): a cap minus a floor is the swap which pays the strike for the rate, over the payments after the valuation date.
* `C69_parity_single_curve` (Props/CapFloor.lean): before the start of the first period, on a single curve, a cap minus a floor is worth `notional * (D(start) - D(end))` minus the value of the strike.
* `C69_caplet_bounds` (Props/CapFloor.lean): a caplet is worth at least its payoff at the forward rate, and at most the rate; a floorlet at most the strike.
* `C69_bounds` (Props/CapFloor.lean): a cap or floor with a positive notional is not worth less than its intrinsic value, and nothing less than zero.
* `C69_market_volatility_deviation` (Props/CapFloor.lean): Deviation: without `pricing_context` no cap can be priced, whatever volatilities the market supplies.
* `C69_zero_notional_deviation` (Props/CapFloor.lean): Deviation: a cap with the notional zero is priced with the notional one.
* `C69_notionals_deviation` (Props/CapFloor.lean): Deviation: a batch of several caps with several caplets cannot be priced with one notional per cap.
* `C69_scalar_strike_deviation` (Props/CapFloor.lean): Deviation: a batch of several caps with several caplets cannot be priced with a common strike.
* `C69_swaption_notional_deviation` (Props/Swaptions.lean): Deviation: the value of every swaption of a batch is multiplied by the notional of the last swap of the batch instead of its own notional.
* `C69_swaption_partial` (Props/Swaptions.lean): C69 (partial): the value of a batch of swaptions whose swaps all have the same notional.
* `C69_swaption_parity` (Props/Swaptions.lean): a payer swaption minus a receiver swaption is the swap.
* `C69_swaption_volatility_deviation` (Props/Swaptions.lean): Deviation: without `pricing_context` no swaption can be priced.
* `C69_payment_today_deviation` (Props/Swaptions.lean): A payment on the valuation date counts in a stream of coupons, but not in a cap.

## C70 Rate curve: discount factors, interpolated rates and forward rates are consistent

RateCurve discounts to each of its maturities with the rate supplied for it, discount factors are positive and one on the valuation date, interpolated rates stay within the bounds of the supplied ones, a flat curve is flat, and simple forward rates over consecutive periods compound to the ratio of the discount factors. Rates with periodic compounding are converted so that the discount factor of a maturity is (1 + r/n)^(-n t). (all maturities in increasing order, rates, valuation dates, day counts and compounding frequencies)

* `C70_positive` (Props/RateCurve.lean): discount factors are positive, and one on the valuation date, whatever the interpolation.
* `C70_nodes` (Props/RateCurve.lean): the curve of continuously compounded rates discounts to every maturity with the rate given for it.
* `C70_flat` (Props/RateCurve.lean): a flat curve of continuously compounded rates has the same rate for all dates.
* `C70_forward` (Props/RateCurve.lean): the forward rate is the rate for which the discount factor of the start is that of the maturity with simple interest.
* `C70_rollover` (Props/RateCurve.lean): rolling over at the forward rates of consecutive periods is the discount factor of the whole.
* `C70_bounds` (Props/RateCurve.lean): interpolated rates stay between the bounds of the rates supplied.
* `C70_compounding_deviation` (Props/RateCurve.lean): deviation for periodically compounded rates: the discount factor of a maturity is right only if the rate is zero or happens to be equal to the time in years.
* `C70_from_discounts` (Props/RateCurve.lean): the curve made from a discounting function discounts with it, and its forward rates are consistent with it.
* `C70_from_discounts_rate_deviation` (Props/RateCurve.lean): Deviation: the rates of the curve made from a discounting function are all zero.

## C71 Brownian bridge no-touch probabilities

brownian_bridge_single gives the ratio of the density of a Brownian motion killed at the barrier to the free density: it is the heat kernel minus its mirror image divided by the heat kernel. It is in (0, 1) for points on the same side, zero on the barrier, monotone, and consistent in time: splitting the bridge at an intermediate time and averaging the product of the two probabilities over the normal law of the position on the same side gives the probability of the whole. brownian_bridge_double is the truncated sum over the images in two barriers; it converges with an explicit error bound in n_cutoff, and the limit vanishes on both barriers. (all start and end points, variances > 0, barriers and cutoffs)

* `C71_single_images` (Props/BrownianBridge.lean): the no-touch probability times the density of the end point is the difference of the heat kernels of the start and of its mirror image, that is, the density of the Brownian motion killed at the barrier.
* `C71_single_bounds` (Props/BrownianBridge.lean): no-touch probabilities are symmetric, zero on the barrier, and between zero and one if both points are on the same side.
* `C71_single_monotone` (Props/BrownianBridge.lean): on the same side of the barrier, the probability decreases in the variance, and increases with the distance.
* `C71_single_markov` (Props/BrownianBridge.lean): consistency in time: the probability not to touch the barrier between the ends is the expectation, over the position of the bridge at an intermediate time (which has a normal law), on the same side of the barrier, of the product of the probabilities for both parts.
* `C71_single_opposite` (Props/BrownianBridge.lean): Outside of the documented range: for ends on opposite sides of the barrier the formula gives a negative number.
* `C71_double_images` (Props/BrownianBridge.lean): the probability times the density of the end point is the sum of the heat kernels of the images of the start under the reflections in the two barriers, with their signs.
* `C71_double_symmetric` (Props/BrownianBridge.lean): the probability for two barriers is symmetric in the end points, and zero at the upper barrier, for every cutoff.
* `C71_double_cutoff` (Props/BrownianBridge.lean): between the barriers, the sum converges as the cutoff grows, and the error of the cutoff `n` is at most `2 ∑ exp (-2 (n + j)² (U - L)² / v)`.
* `C71_double_barriers` (Props/BrownianBridge.lean): without a cutoff the probability is zero at both barriers.

## C72 Nelson-Siegel-Svensson yields are means of the forward curve

The interpolated yield at a time t > 0 is the mean over [0, t] of the instantaneous forward rate b0 + b1 e^(-s/tau1) + b2 (s/tau1) e^(-s/tau1) + b3 (s/tau2) e^(-s/tau2); it tends to b0 + b1 as t goes to 0 and to b0 as t goes to infinity. (all parameters with nonzero (for the limits positive) decay times and all positive times)

* `C72_mean_forward` (Props/Svensson.lean): the yield is the mean of the instantaneous forward rates up to the maturity.
* `C72_limits` (Props/Svensson.lean): short yields approach `beta0 + beta1`, long yields approach `beta0`.
* `C72_between` (Props/Svensson.lean): without the terms in `beta2` and `beta3` the yield lies between `beta0` and `beta0 + beta1`.
* `C72_zero_deviation` (Props/Svensson.lean): Deviation: at the time zero, where the limit is `beta0 + beta1`, the code divides zero by zero.

## C73 Raw SVI smile

The total variance of the raw SVI parameters is computed for exactly one way of giving the moneyness (log-moneyness, or forwards and strikes), is invariant under scaling of forward and strike, convex in the log-moneyness, has the minimum a + b sigma sqrt(1 - rho^2) and asymptotes with slopes b (rho + 1) and b (rho - 1); the implied volatility squared times the expiry is the total variance. (all parameters with b >= 0 (for the minimum sigma >= 0 and rho^2 < 1), all moneyness and expiries > 0)

* `C73_moneyness` (Props/Svi.lean): exactly one way to give the moneyness is accepted, and both ways agree.
* `C73_scale` (Props/Svi.lean): the variance depends on the forward and the strike only through their ratio.
* `C73_minimum` (Props/Svi.lean): the least total variance is `a + b σ √(1 - ρ²)`, at `m - ρ σ / √(1 - ρ²)`.
* `C73_convex` (Props/Svi.lean): the smile is convex.
* `C73_asymptotes` (Props/Svi.lean): the asymptotes of the smile have the slopes `b (ρ + 1)` on the right and `b (ρ - 1)` on the left.
* `C73_implied_volatility` (Props/Svi.lean): the implied volatility has the total variance of the smile, wherever that is not negative; by `C73_minimum` this is everywhere if `a + b σ √(1 - ρ²)` is not negative.

## C74 Realized volatility

realized_volatility gives the square root of the sum of squared log returns divided by the time steps, or the sum of absolute relative returns divided by the time steps, times the scaling factor; the scale the path is given in does not matter, nor does multiplying the path by a constant; n steps of constant growth g give sqrt(n) |log g| and n |g - 1|; the total log return is bounded by sqrt(n) times the statistic. (all positive paths of any length, times and scaling factors)

* `C74_log` (Props/RealizedVolatility.lean): with logarithmic returns the statistic is the square root of the sum of the squared logarithms of the returns, each divided by the time step; it is the same for a path given as logarithms.
* `C74_abs` (Props/RealizedVolatility.lean): with absolute returns the statistic is the sum of the absolute returns, each divided by the time step; it is the same for a path given as logarithms.
* `C74_scale` (Props/RealizedVolatility.lean): multiplying the path by a constant does not change the statistic.
* `C74_constant_growth` (Props/RealizedVolatility.lean): a path which grows at a constant rate, with unit time steps.
* `C74_total_return` (Props/RealizedVolatility.lean): the total logarithmic return over `n` steps is at most `√n` times the realized volatility.

## C75 Geometric Asian options

asian_option_price gives the discounted expected payoff of the geometric mean of the past fixings and of the prices at the sampling times, where the price is lognormal and driven by a Brownian motion (jointly normal values with covariance min(s, t)). With the expiry as the only sampling time it is the vanilla price; put-call parity holds with a forward at most the geometric mean of the forwards; exactly the unsupported arguments are refused. (all admissible arguments, any number of sampling times in any order and of past fixings, every probability space carrying the Brownian motion)

* `C75_expectation` (Props/AsianPrices.lean): the price of a geometric Asian option is the discounted expected payoff of the geometric mean of the past fixings and of the prices at the sampling times, for a lognormal price driven by a Brownian motion.
* `C75_brownian` (Props/AsianPrices.lean): there is such a Brownian motion for all sampling times, so `C75_expectation` is about every admissible option.
* `C75_single` (Props/AsianPrices.lean): with the expiry as the only sampling time and no past fixings the price is the vanilla price.
* `C75_put_call_parity` (Props/AsianPrices.lean): put-call parity, and the forward price of the geometric mean is at most the geometric mean of the forwards.
* `C75_rejects` (Props/AsianPrices.lean): exactly these arguments are refused.

## C76 Bjerksund-Stensland values a call exercised at a flat boundary

In bjerksund_stensland the exponent beta is a root of the characteristic polynomial and larger than one if the cost of carry b is below the rate r; the exercise boundary then exists, lies below that of the perpetual option, and is at least its limit at expiry exactly when b t + 2 sigma sqrt(t) >= 0. The function phi solves the Black-Scholes equation, vanishes at the boundary and tends to its payoff at expiry; hence the 1993 value is that of a call exercised when the spot first reaches the boundary, with value matching there. In the 2002 formula psi vanishes and values match at the second boundary. Prices are homogeneous in spot and strike, symmetric under exchange of put and call, European for calls with dividend rate <= 0, the payoff at expiry, and arguments are rejected exactly as documented. Deviations: every put with rate zero (the default) is not a number, and for long expiries with negative carry prices are negative. (all real inputs with positive volatility, spot and strike; all expiries)

* `C76_beta` (Props/AmericanApprox.lean): `beta` is a root of the characteristic polynomial of the Black-Scholes operator, and larger than one if the cost of carry is smaller than the rate.
* `C76_split` (Props/AmericanApprox.lean): the time is split by the golden section, the first part being the longer one.
* `C76_boundary` (Props/AmericanApprox.lean): the exercise boundary exists if the cost of carry is smaller than the rate; it is then below the boundary of the perpetual option, the limit for expiry zero is below it too and is at least the strike.
* `C76_phi` (Props/AmericanApprox.lean): `phi` with level `h` and barrier `x` is the value of a contract that pays the power `gamma` of the spot at expiry if it is then below `h` and has stayed below the barrier: it solves the Black-Scholes equation, vanishes at the barrier, and tends to this payoff.
* `C76_1993` (Props/AmericanApprox.lean): the 1993 value below the boundary `x` is the value of a call that is exercised as soon as the spot reaches `x`: it solves the Black-Scholes equation, is the exercise value at the boundary, and tends to the payoff at expiry.
* `C76_2002_boundary` (Props/AmericanApprox.lean): in the 2002 formula, for every level `h` and every approximation of the bivariate distribution, `psi` vanishes at the second boundary, and the value there is the exercise value.
* `C76_homogeneous` (Props/AmericanApprox.lean): prices are homogeneous in spot and strike, in both variants, as long as the boundaries are not negative.
* `C76_european` (Props/AmericanApprox.lean): with a dividend rate that is not positive a call is priced as the European call.
* `C76_expiry` (Props/AmericanApprox.lean): at expiry the price is the payoff.
* `C76_rejects` (Props/AmericanApprox.lean): the arguments are rejected exactly when both or neither of spot and forward, or both rate and factor are given.
* `C76_exercise` (Props/AmericanApprox.lean): at or above the boundary a call is worth its exercise value, in both variants.
* `C76_put_call_symmetry` (Props/AmericanApprox.lean): put-call symmetry. For a positive rate a put is the call with spot and strike, and rate and dividend rate exchanged.
* `C76_put_zero_rate_nan` (Props/AmericanApprox.lean): Deviation: with the rate zero, which is the default, no put with time to expiry has a price (not a number), whatever the dividend rate, if it is not negative.
* `C76_negative_prices` (Props/AmericanApprox.lean): Deviation: for a negative cost of carry and a long time to expiry, `b t + 2 sigma √t < 0`, the boundary is below the strike, and between them the price of the call is negative.
* `C76_negative_put` (Props/AmericanApprox.lean): Deviation: the price of a put with strike 95 on a spot of 100 with volatility 10% and rate 10%, expiring in five years, is -5.
* `C76_cbnd` (Props/Cbnd.lean): up to the error of the quadrature rule, the code's bivariate distribution function is the probability that two standard normal variables with correlation `rho` are below `dh` and `dk`. (The documentation says above.)
* `C76_cbnd_cases` (Props/Cbnd.lean): for uncorrelated variables it is exactly the product of the distribution functions, and it is symmetric.

## C77 Barone-Adesi-Whaley: value matching, smooth pasting and bounds

In adesi_whaley the exponent is the positive (call) or negative (put) root of the quadratic of the approximation, larger than one for calls with nonnegative dividend rate. At any critical price the value of holding exceeds the exercise value by the function whose root is searched and has exactly its slope; the premium solves the equation of the approximation. With nonnegative dividend rate the option is worth at least the European option, and at least the exercise value plus the remaining gap where it is held. A price reported as converged comes from a positive critical price whose gap is within the tolerance. Calls with dividend rate <= 0 are European; prices at expiry are payoffs; arguments are rejected exactly as documented. Deviation: at rate zero the exponent differs from its limit. (all real inputs with positive volatility, strike, expiry and critical price, nonzero rate; all tolerances and iteration counts)

* `C77_exponent` (Props/AdesiWhaley.lean): the exponent is the root, positive for calls and negative for puts, of the quadratic of the approximation `q^2 + (n - 1) q - m / k = 0`, with `m = 2 r / sigma^2`, `n = 2 (r - d) / sigma^2`, `k = 1 - exp(-r t)`. For a call with nonnegative dividend rate it is larger than one.
* `C77_value_matching` (Props/AdesiWhaley.lean): value matching: at the critical price, holding the option is worth more than exercising it by the value of the function whose root is searched.
* `C77_smooth_pasting` (Props/AdesiWhaley.lean): smooth pasting: for every critical price the slope of the value of holding the option is that of the exercise value there.
* `C77_premium_equation` (Props/AdesiWhaley.lean): the early exercise premium solves the equation of the approximation, `sigma^2 s^2 / 2 A'' + (r - d) s A' = r / k A`.
* `C77_premium_nonneg` (Props/AdesiWhaley.lean): with a nonnegative dividend rate the early exercise premium is not negative: the option is worth at least the European option where it is held.
* `C77_at_least_exercise` (Props/AdesiWhaley.lean): where it is held, the option is worth at least its exercise value plus the gap left at the critical price by the root search.
* `C77_converged` (Props/AdesiWhaley.lean): a price reported as converged comes from a positive critical price at which the gap between holding and exercising is within the tolerance of the root search (divided by its slope); the option is held on the right side of it.
* `C77_european` (Props/AdesiWhaley.lean): with a dividend rate that is not positive a call is priced as the European call, and reported as converged.
* `C77_rejects` (Props/AdesiWhaley.lean): the arguments are rejected exactly when both or neither of spot and forward, or both rate and factor are given.
* `C77_expiry` (Props/AdesiWhaley.lean): at expiry the price is the payoff.
* `C77_zero_rate_deviates` (Props/AdesiWhaley.lean): Deviation: for rates tending to zero the exponent of a call tends to the root of the quadratic with `m / k` replaced by its limit `2 / (sigma^2 t)`, but for the rate zero (the default) the code computes a smaller number, the root of the quadratic with 0 in its place.
* `C77_failed_search` (Props/AdesiWhaley.lean): Deviation: if the root search ends in a value that is not a number, the exercise value is returned, negative for an option out of the money.

## C78 SABR implied volatilities and prices are Hagan's formulas

The lognormal and normal volatilities of implied_volatility equal Hagan's formulas (A.69) for the shifted forward and strike, with the factor zeta/xhat equal to zeta divided by the integral of 1/sqrt(1-2 rho y+y^2) where |zeta| exceeds the threshold, and within the threshold of it everywhere; the factor is positive and within |zeta| of 1. The volatilities scale with the units, depend on the shift only through forward and strike, are exact without volatility of volatility for beta 1 (lognormal) and beta 0 (normal), have the at-the-money values of the formula, and are symmetric under exchange of forward and strike with a change of sign of rho when rho*beta is zero. Their sign is that of the expansion in the expiry. Option prices are expectations of the payoff under the law with that volatility, and put-call parity holds. Deviation: the volatility can be negative for documented arguments, and the price is then the intrinsic value. (all real alpha>0, beta, volvol, |rho|<1, positive shifted forward and strike, all expiries and thresholds >= 0)

* `C78_ratio` (Props/Sabr.lean): the factor `zeta / xhat` is that of Hagan's formula, with `xhat` the integral of `1 / √(1 - 2 rho y + y²)`, where `zeta` exceeds the threshold; everywhere the difference is at most the threshold. It is positive, differs from one by at most `|zeta|`, and is unchanged when `zeta` and the correlation change their signs.
* `C78_hagan` (Props/Sabr.lean): the volatilities are those of Hagan's formulas (A.69) for the shifted forward and strike, in which the factor `zeta / xhat` is replaced by that of the code, which differs from it by at most the threshold, and not at all where `zeta` exceeds the threshold.
* `C78_scaling` (Props/Sabr.lean): scaling. When forward, strike and shift are multiplied by `lam` and `alpha` by `lam ^ (1 - beta)`, the lognormal volatility stays and the normal volatility is multiplied by `lam`.
* `C78_shift` (Props/Sabr.lean): the shift only moves forward and strike.
* `C78_exact` (Props/Sabr.lean): without volatility of the volatility the approximation is exact for the two processes whose law is known: for `beta = 1` the lognormal volatility, and for `beta = 0` the normal volatility, is `alpha`, for every strike and expiry.
* `C78_at_the_money` (Props/Sabr.lean): at the money.
* `C78_symmetry` (Props/Sabr.lean): where the term with `rho * beta` vanishes, exchanging forward and strike has the effect of changing the sign of the correlation; the smile is symmetric if the correlation is zero.
* `C78_price` (Props/Sabr.lean): where the volatility is not negative, the price is the expectation of the payoff under the law with that volatility. The put-call parity holds in any case.
* `C78_sign` (Props/Sabr.lean): the sign of the volatility is that of the expansion in the expiry.
* `C78_negative_volatility` (Props/Sabr.lean): the volatility can be negative for documented arguments, and the price is then the payoff of the forward. Here the volatility of the forward is constant, so that the lognormal volatility is exact; the normal volatility is `-1`, and the call at the money is worth nothing.

## C79 SABR calibration stays within its bounds and starts where it should

The transformation of a parameter is a strictly increasing bijection of the reals with the open interval between its bounds, and inverse to the transformation of starting values. Whatever the optimizer returns, calibrated parameters are strictly between their bounds and beta is unchanged unless it is calibrated; an optimizer returning its start returns the caller's parameters. The default alpha gives a volatility of ten per cent at the mean forward. Losses are nonnegative and zero exactly where all volatilities, or prices, match. With validate_args the call fails exactly if a starting value is outside its bounds. With the default bounds the result is always admissible. Deviation: a starting value on its bound, which validate_args accepts, gives an infinite start. (all quotes, bounds, starting values, optimizers and targets)

* `C79_constrained` (Props/SabrCalibration.lean): the transformed parameter runs strictly increasing through the whole open interval between the bounds.
* `C79_round_trip` (Props/SabrCalibration.lean): a starting value strictly between its bounds is transformed to a finite position, and the position back to it. A starting value on a bound has no finite position.
* `C79_in_bounds` (Props/SabrCalibration.lean): whatever the optimizer returns, the calibrated parameters lie strictly between their bounds, and `beta` is the given one unless it is to be calibrated.
* `C79_start` (Props/SabrCalibration.lean): an optimizer which returns its starting point returns the parameters the caller supplied, if these are strictly between their bounds.
* `C79_default_alpha` (Props/SabrCalibration.lean): the default for `alpha` makes the lognormal volatility at the mean forward 10 per cent, and is strictly between its bounds.
* `C79_vol_loss` (Props/SabrCalibration.lean): the loss of the volatility based calibration is never negative, and is zero exactly where the model has all the implied volatilities of the quotes.
* `C79_price_loss` (Props/SabrCalibration.lean): the loss of the price based calibration is never negative, and is zero exactly where the model prices are the quoted ones, if none of these prices is `-1` or less.
* `C79_rejects` (Props/SabrCalibration.lean): with `validate_args` the calibration fails exactly if some starting value is outside its bounds; without, it never fails. `beta` is checked also if it is not calibrated.
* `C79_zero_start` (Props/SabrCalibration.lean): with the default bounds, calibrated parameters are admissible for the pricing formula; but a starting value of zero for the volatility of the volatility, which the documentation and `validate_args` allow, gives an infinite starting position.

## C80 Grids: spacing, ends and extra points

uniform_grid gives on each axis the asked number of points from the minimum to the maximum with equal gaps, strictly increasing; log_uniform_grid gives positive points with equal ratios; rectangular_grid returns the given axes and rejects an empty list; shapes and, with validate_args, bounds and sizes are rejected exactly as documented. The grids with an extra point are on each axis the sorted list of that grid and the point; ends stay if the point is between them; the result is strictly increasing exactly if the point is not yet in the grid. Deviation: a point already in the grid is added a second time, giving a gap of zero. (all dimensions, bounds, sizes >= 2 and extra points)

* `C80_uniform` (Props/Grids.lean): a uniform grid has on each axis the asked number of points, from the minimum to the maximum, with equal gaps.
* `C80_log_uniform` (Props/Grids.lean): a grid uniform in the logarithm has equal ratios.
* `C80_rejects` (Props/Grids.lean): what the constructors reject.
* `C80_extra_point` (Props/Grids.lean): the grid with an extra point is on each axis the sorted list of the uniform grid and the point.
* `C80_log_extra_point` (Props/Grids.lean): the same for the grid uniform in the logarithm, for positive extra points.
* `C80_extended` (Props/Grids.lean): an extra point between minimum and maximum leaves the ends where they are; the extended grid is strictly increasing exactly if the point was not a point of the grid already.
* `C80_repeated_point` (Props/Grids.lean): an extra point which is a point of the grid is added a second time, so that the grid has a gap of zero.

## C81 Two-dimensional interpolation: natural splines in y, linear in x

Interpolation2D takes the data at all knots; on the line of each x knot it is the natural cubic spline of the row, continued by constants; between x knots it is the linear interpolation of the two row splines and outside it equals the first or last row; functions a + b x + c y + d x y are reproduced inside the data. (all increasing x data, rows of at least three increasing y knots (different for each row), all values and points)

* `C81_row` (Props/Interpolation2D.lean): on the line of an entry of `x_data` the value is that of the natural cubic spline of its row, continued by constants.
* `C81_knots` (Props/Interpolation2D.lean): the data are interpolated.
* `C81_between` (Props/Interpolation2D.lean): between two entries of `x_data` the value is the linear interpolation of the splines of the two rows; outside, it is the spline of the first or the last row.
* `C81_bilinear` (Props/Interpolation2D.lean): values of a function `a + b x + c y + d x y` are reproduced in the rectangle covered by the data.

## C82 Heston option prices: characteristic function and Attari's formula

The argument of the complex logarithm in char_fun never meets the branch cut, no denominator vanishes, and the exponents solve the Riccati equations of the Heston model with zero initial values, so exp(iux) times char_fun solves the backward Kolmogorov equation with terminal value exp(iux); char_fun is 1 at zero and bounded by 1. For every law of the log price with a first moment and mean forward whose characteristic function is char_fun, the integrand is integrable and forward - strike*(0.5 + integral/pi) is exactly the expectation of the call payoff; the part of the integral outside [lower, upper] is at most 1/upper + lower*(1+E|X-k|), and the returned price differs from the discounted expectation by at most strike*eps/pi*discount where eps is the error of the quadrature. Put-call parity holds exactly for every quadrature. Forward and discount factor are those of the arguments, and the call fails exactly for the documented combinations or if the integration fails. (all mean reversions > 0, volvol > 0, |rho| <= 1, all real u, all expiries >= 0, all laws, strikes and forwards > 0)

* `C82_no_branch_cut` (Props/HestonOption.lean): The argument of the logarithm never meets the branch cut, so that the principal logarithm is the continuous one ("the little Heston trap").
* `C82_riccati` (Props/HestonOption.lean): The exponents of the characteristic function solve the equations of Riccati.
* `C82_backward_equation` (Props/HestonOption.lean): `e^{iux}` times the characteristic function of the code is a solution of the backward equation of the model, with terminal value `e^{iux}`: it is the conditional characteristic function of the logarithm of the spot divided by the forward.
* `C82_at_zero` (Props/HestonOption.lean): At zero the characteristic function of the code is one.
* `C82_bounded` (Props/HestonOption.lean): The characteristic function of the code is bounded by one.
* `C82_attari` (Props/HestonPrice.lean): The formula of Attari: with the exact integral over the positive numbers the code computes the expectation of the payoff under every law whose characteristic function is the given one.
* `C82_truncation` (Props/HestonPrice.lean): The part of the integral beyond the limits of the integration is small.
* `C82_rejects` (Props/HestonPrice.lean): A price is returned exactly if one of the spot and the forward is given, not both the rate and the factor of the discount, and the integration returns a value.
* `C82_default` (Props/HestonPrice.lean): The integration returns a value for the defaults, and for an odd number of at least three points.
* `C82_price` (Props/HestonPrice.lean): The price is the discounted expectation of the payoff, up to the error of the integration.
* `C82_market` (Props/HestonPrice.lean): The forward and the discount factor that the price is made of: the discount factor is the given one or the one of the given rate, the forward is the given one or the spot carried to expiry, and the two discount arguments are interchangeable.
* `C82_put_call_parity` (Props/HestonPrice.lean): Put-call parity, exactly and for every rule of integration.

## C83 Heston calibration stays within its bounds and prices the quotes

Whatever the optimizer returns, each calibrated parameter lies strictly between its bounds; an optimizer returning its start returns the caller's parameters. The prices in the loss are those of the quoted options with the supplied market data; the loss is nonnegative and zero exactly where all prices match. The call fails exactly for the documented combinations of market data or, with validate_args, if a starting value is outside its bounds. With the default bounds the calibrated parameters satisfy the hypotheses under which the characteristic function is right and bounded. Deviation: a starting value on a bound, which validate_args accepts, gives an infinite start. (all quotes, market data, bounds, starting values and optimizers)

* `C83_rejects` (Props/HestonCalibration.lean): the calibration succeeds exactly if one of spots and forwards is supplied, not both discount rates and factors, and, with `validate_args`, all starting values are within their bounds.
* `C83_in_bounds` (Props/HestonCalibration.lean): whatever the optimizer returns, the calibrated parameters lie strictly between their bounds.
* `C83_start` (Props/HestonCalibration.lean): an optimizer which returns its starting point returns the parameters the caller supplied, if these are strictly between their bounds.
* `C83_value` (Props/HestonCalibration.lean): the prices in the loss are those of the quoted options with the market data supplied, provided that the discount factor, if it is supplied, is positive and the expiry not zero.
* `C83_loss` (Props/HestonCalibration.lean): the loss is never negative, and is zero exactly where the model prices are the quoted ones, if none of these prices is `-1` or less.
* `C83_admissible` (Props/HestonCalibration.lean): with the default bounds, calibrated parameters satisfy the hypotheses of C82: the characteristic function of the calibrated model is the right one and bounded by one.
* `C83_bound_start` (Props/HestonCalibration.lean): deviation: starting values on a bound pass the check of `validate_args` but give an infinite starting position, for instance an initial correlation of `-1` or an initial variance of zero with the default bounds.

## C84 The bond curve reprices the bonds it is built from

If bond_curve says that it has converged, there are positive discount factors at the expiries, each within the tolerance of the returned one, whose monotone convex curve gives every bond a value that differs from its price, discounted from settlement, by at most the tolerance times its last cashflow. One step leaves discount factors unchanged exactly if their curve reprices every bond; started at such a curve the construction returns it after one iteration. Zero-coupon bonds are priced exactly after at most two iterations whatever the start. A failed construction has not converged and returns neither rates nor factors; there are at most maximum_iterations steps, and fewer only with a flag. The call is rejected exactly for lists of different lengths, fewer than two bonds or, with validate_args, times that do not increase from settlement or a last cashflow that is not the largest. Deviations: the interpolation divides zero by zero on some curves, so that bonds with an exact curve fail even when started at it; a negative discount factor from the last permitted step is returned without the flag for failure. (all lists of bonds in the order of their expiries, all starting rates, tolerances and numbers of iterations)

* `C84_flags` (Props/BondCurve.lean): The flags of the result: a failed construction has not converged and has neither rates nor factors; there are at most as many iterations as permitted, and fewer only with one of the flags.
* `C84_converged_partial` (Props/BondCurve.lean): If the construction says that it has converged, then there are positive discount factors at the expiries, within the tolerance of the returned ones, whose interpolated curve reprices every bond: value of the cashflows and of the price differ by no more than the tolerance times the last cashflow.
* `C84_fixed_point_partial` (Props/BondCurve.lean): A step leaves the discount factors unchanged exactly if the curve reprices every bond.
* `C84_exact_start_partial` (Props/BondCurve.lean): If the starting rates give a curve that reprices every bond, they are returned after one iteration.
* `C84_zero_coupon` (Props/BondCurve.lean): For zero-coupon bonds the result is exact after at most two iterations whatever the starting rates: the discount factor is the price of one unit.
* `C84_irregular_start` (Props/BondCurve.lean): Deviation from C84. If a cashflow, or a settlement, falls into an interval in which the interpolation divides zero by zero, the construction fails whatever the prices.
* `C84_rejects` (Props/BondCurve.lean): The call is rejected exactly if the lists have different lengths, there are fewer than two bonds, or, with `validate_args`, some bond has times that do not increase from its settlement or a cashflow as large as its last.
* `C84_defaults` (Props/BondCurve.lean): Without settlement times the prices are paid now; without starting rates the construction starts at the yields to maturity.
* `C84_exact_start_fails` (Props/BondCurve.lean): Deviation from C84. These bonds are repriced exactly by the discount factors 1, 1 and 1/2 at the three years, in which all their cashflows are; but started there, as from any rates that are equal in the first two years only, the construction fails.
* `C84_unreported_failure` (Props/BondCurve.lean): Deviation from C84. A negative discount factor found in the last permitted iteration is returned without the flag for failure, and the rates that are returned are not numbers.

## C85 The bootstrapped swap curve reprices the swaps it is built from

If swap_curve_bootstrap says that it has converged, there are positive discount factors at the expiries, each within the tolerance of the returned one, whose interpolated curve gives every swap a value that differs from its price by at most the tolerance times the sensitivity of its value. One step leaves the discount factors unchanged exactly if the curve reprices every swap; started at such a curve the bootstrap returns it after one iteration. This holds for each way of discounting the legs and every interpolator that returns its samples. There are at most maximum_iterations steps and fewer only if it has converged. Deviations: settlement times are ignored; failure is never reported; legs that end at different times converge to a curve that does not reprice; swaps with one fixed payment are rejected, or take the sums of another swap; with only a floating discount curve the fixed leg uses that curve. (all lists of swaps in the order of their expiries, interpolators, discount curves, starting rates, tolerances and numbers of iterations)

* `C85_converged_partial` (Props/SwapCurve.lean): If the bootstrap says that it has converged, then there are positive discount factors at the expiries, within the tolerance of the returned ones, whose interpolated curve reprices every swap up to the tolerance times the sensitivity of its value.
* `C85_fixed_point` (Props/SwapCurve.lean): A step leaves the discount factors unchanged exactly if the curve reprices every swap.
* `C85_exact_start` (Props/SwapCurve.lean): Started at rates whose curve reprices every swap, the bootstrap returns them after one iteration.
* `C85_telescopes` (Props/SwapCurve.lean): A floating leg with periods that follow each other, discounted with the curve of its rate, is worth the discount factor of its start minus that of its end.
* `C85_never_failed` (Props/SwapCurve.lean): The number of iterations, and a deviation: the flag for failure is never set.
* `C85_unreported_failure` (Props/SwapCurve.lean): Deviation from C85. For a price that no curve with positive discount factors can explain, the result is not a number; the flag for failure is not set.
* `C85_legs_apart` (Props/SwapCurve.lean): Deviation from C85. If the legs end at different times, the bootstrap converges to a curve that does not reprice the swap.
* `C85_broadcast` (Props/SwapCurve.lean): Deviation from C85. If the longest swaps have one fixed payment, the sums of a single shorter swap are used for all of them: at rates of zero both swaps are repriced exactly, and the next discount factor of the second one is one half.
* `C85_settlement_ignored` (Props/SwapCurve.lean): Deviation from C85. The settlement times of the prices make no difference.
* `C85_fixed_discount_default` (Props/SwapCurve.lean): Deviation from C85. If only the floating leg is given a discount curve, the fixed leg is discounted with that curve, not with the curve that is being built.
* `C85_single_payments_rejected` (Props/SwapCurve.lean): Deviation from C85. Swaps with one fixed payment each are rejected with an error about shapes.
* `C85_discounting` (Props/SwapCurve.lean): The floating leg is discounted with its own curve if there is one; the fixed leg with its own curve, otherwise with that of the floating leg. Without any of these the curve that is being built is used.
* `C85_daycounts` (Props/SwapCurve.lean): Given daycount fractions are used; otherwise they are the lengths of the periods of the fixed leg.

## C86 The objective of the fitted swap curve is zero exactly if every swap is repriced

The objective that swap_curve_fit minimizes is the weighted sum of the squared differences between the value of each swap at its settlement time and its price. With positive weights it is not negative, and zero exactly if the curve reprices every swap; the default weights are positive and at most one. For prices as of now its zeros are exactly the curves that a step of the bootstrap leaves unchanged. Whatever the optimizer returns, the returned discount factors are those of the returned rates at the expiries. The call is rejected exactly if no starting rates are given. (all lists of swaps, weights, interpolators, discount curves, starting rates and optimizers)

* `C86_objective` (Props/SwapCurveFit.lean): The objective is the weighted sum of the squares of the errors of the values at the settlement times.
* `C86_zero_iff` (Props/SwapCurveFit.lean): With positive weights, one for each swap, the objective is not negative, and it is zero exactly if the curve reprices every swap at its settlement time.
* `C86_default_weights` (Props/SwapCurveFit.lean): The default weights are positive and at most one, so that the same holds with them.
* `C86_result` (Props/SwapCurveFit.lean): What is returned, for any optimizer: its result, with the discount factors of its rates at the expiries.
* `C86_rejects` (Props/SwapCurveFit.lean): Without rates to start from the fit is rejected, and only then.
* `C86_bootstrap` (Props/SwapCurveFit.lean): For prices as of now, the zeros of the objective are exactly the curves that a step of the bootstrap leaves unchanged.
* `C86_zero_weight` (Props/SwapCurveFit.lean): Deviation from C86. A weight of zero drops a swap from the objective, so that a zero says nothing about it.

## C87 The conjugate gradient method descends, tells the truth and solves quadratic problems in finitely many steps

Whatever line search is used, provided it returns a point of the line and does nothing if told so: the value and gradient that minimize returns are those at the position it returns; a member said to have converged has every component of its gradient within the tolerance, or has changed its position or value by no more than their tolerances; every direction descends, by at least three quarters of the square of the gradient; there are at most max_iterations iterations and fewer only if the condition for stopping holds. On a quadratic objective in n dimensions whose eigenvalues are within a factor of two divided by psi_1 and at most that number, the minimum is found to the tolerance in at most n iterations, without the line search. Deviations: the first step of a member depends on the other members; a converged member can lose its flag; a failed member moves on; the first test uses another norm than documented. (all dimensions, objectives, starts, parameters, tolerances and line searches)

* `C87_consistent` (Props/ConjugateGradient.lean): For every member of a batch, the returned value and gradient are those at the returned position.
* `C87_truthful` (Props/ConjugateGradient.lean): If a member is said to have converged, the gradient at its position is within the tolerance in every component, or the position or the value have changed by no more than their tolerances since a previous iterate that had not converged.
* `C87_iterations` (Props/ConjugateGradient.lean): There are at most `max_iterations` iterations; with fewer, the condition for stopping holds.
* `C87_direction` (Props/ConjugateGradient.lean): The next direction descends, whatever the step: its product with the new gradient is at most minus three quarters of the square of the gradient, if the previous direction did not ascend.
* `C87_descent` (Props/ConjugateGradient.lean): In a run from one start all directions descend, whatever the line search returns on the line.
* `C87_quadratic` (Props/ConjugateGradient.lean): On a quadratic objective with eigenvalues between `lo` and `hi`, with `psi_1 hi` at most two and at most `2 lo` (ten and ten times `lo` for the defaults), the method finds the minimum in at most as many iterations as there are dimensions: it does not fail, says that it has converged, and every component of the gradient is within the tolerance. The line search is not needed.
* `C87_batch_interaction` (Props/ConjugateGradient.lean): deviation. The members of a batch are not independent: the test at L526 uses the flags from before the quadratic step. Alone, the first step for `x ^ 2 / 2` at `1` is the exact one; together with a linear objective it is twice as long, and no progress is made.
* `C87_lost` (Props/ConjugateGradient.lean): deviation. A member that has converged does not stay so: while another member goes on, its flag is computed from a step that is not taken. `50 x ^ 2` at `0.005` satisfies the tolerance `1`, and after an iteration it is at the same point but no longer counts as converged.
* `C87_failed_forgotten` (Props/ConjugateGradient.lean): deviation. A member whose line search has failed is not left alone: at the next iteration of a batch the search is skipped, the flag is cleared, and the member moves by the first guess without any test of it.
* `C87_first_test` (Props/ConjugateGradient.lean): deviation. The test before the first iteration uses the Euclidean norm of the gradient, not the largest component as documented: with the components `0.9` and the tolerance one the start is not accepted.

## C88 Market data of the pricing platform: rate curves, fixings and curve selection

A rate curve with increasing times gives back its discount factors at its nodes for every interpolation method, whether rates or discount factors are interpolated; its rates and factors are consistent, D = exp(-r t); the forward rate F between two dates satisfies (1 + tau F) D(end) = D(start); new nodes are accepted exactly if there is one per node. Day count conventions, business day rules and periods of the platform map to those of the library. A fixing is the one of the first fixing date on or after the date asked for, or the last. Curves are told apart by a signature that is injective on known currencies and rate indices; each row of a batch of curves with as many nodes gives, with Actual/365 and the interpolation of the last curve, the discount factors of its own curve. Deviations: curves with different numbers of nodes cannot be batched although they are padded; the day count convention of a curve is lost in a batch; dates and times cannot be mixed; quarters have no counterpart. (all curves, dates, times, conventions, fixing tables, batches)

* `C88_nodes` (Props/PlatformMarket.lean): The discount factor of a node date is the given one, for every interpolation method and for both kinds of interpolation. A node on the valuation date must have the discount factor one if rates are interpolated.
* `C88_rate_and_factor` (Props/PlatformMarket.lean): Rates and discount factors agree: the discount factor is the exponential of minus the rate times the time.
* `C88_forward` (Props/PlatformMarket.lean): The forward rate between two dates accrues over the given year fraction to the ratio of the discount factors.
* `C88_forward_times` (Props/PlatformMarket.lean): Times instead of dates: the year fraction is the difference of the times and a given one is ignored.
* `C88_mixed_fails` (Props/PlatformMarket.lean): Deviation from C88: a date for one end and a time for the other is accepted by both checks but fails afterwards.
* `C88_set_nodes` (Props/PlatformMarket.lean): New discount factors are accepted exactly if there is one for each node, and nothing else changes.
* `C88_yield` (Props/PlatformMarket.lean): The yield of a node is the annually compounded rate that gives its discount factor.
* `C88_daycounts` (Props/PlatformMarket.lean): The four conventions of the platform.
* `C88_mask` (Props/PlatformMarket.lean): The mask: the distinct values in increasing order, and every entry of the mask points to the value at its place.
* `C88_curve_types` (Props/PlatformMarket.lean): Curve selection: the curves kept have strictly increasing signatures, and the mask sends every place to a given curve with the signature of the curve at that place.
* `C88_signature` (Props/PlatformMarket.lean): Curves with the same signature are looked up under the same keys of the market data.
* `C88_fixings` (Props/PlatformMarket.lean): Past fixings are a left-continuous step function: the fixing of the first fixing date that is not before the date asked for, and the last fixing after all of them.
* `C88_fixings_missing` (Props/PlatformMarket.lean): Without data the fixing is zero; without a day count convention there is an error.
* `C88_batch_partial` (Props/PlatformMarket.lean): for curves with the same number of nodes, the same interpolation and the day count Actual/365 (see `C88_padding_lost` and `C88_daycount_lost`): row `i` of the batched curve is the curve the mask selects.
* `C88_padding_lost` (Props/PlatformMarket.lean): Deviation from C88: two curves with different numbers of nodes cannot be used in one batch, although the discount factors are padded for it (the padded dates are discarded).
* `C88_daycount_lost` (Props/PlatformMarket.lean): Deviation from C88: the day count convention of a curve is dropped when the batch is built, so the discount factor changes.
* `C88_conventions` (Props/PlatformMarket.lean): Every known business day rule has a convention, and the end of month flag is set exactly by the `EOM` rules; periods keep their unit and amount.
* `C88_quarter_fails` (Props/PlatformMarket.lean): Deviation from C88: quarters are a period type of the platform but have no counterpart in the library.

## C89 Cashflow streams of the pricing platform

A fixed stream is worth the sum over the coupons ending on or after the valuation date of notional times rate times year fraction times discount factor. The rate of a floating coupon is zero if it is paid before the valuation date, the forward rate over its accrual period if it has not begun, and the past fixing otherwise; the price is the discounted sum. A floating stream that has not begun, without spread, whose coupons accrue to their ends, discounted on its own curve, is worth notional times D(start) - D(end). Generated schedules are the rolled start, the regular dates and the rolled end, in order. In a batch with several curves each row gets the fixing of its own curve. Deviations: paid coupons still count with their spread; past fixings are multiplied by the year fraction twice; a stream of one coupon counts twice; the short last coupon of a generated schedule pays the interest of a full period; with the end of month rule the dates may go beyond the end and back; a first coupon date loses the accrual before it; a penultimate date is ignored; a schedule function is not called. (all dates, notionals, rates, spreads, curves, conventions, batches)

* `C89_fixed` (Props/PlatformStreams.lean): A fixed stream is worth the sum of the discounted payments that are not before the valuation date.
* `C89_rates` (Props/PlatformStreams.lean): The rates of a floating stream with two or more coupons.
* `C89_floating` (Props/PlatformStreams.lean): The price of a floating stream with two or more coupons.
* `C89_fixing_coupon` (Props/PlatformStreams.lean): The past fixing is looked up for the coupon that has begun and has not been paid: with coupon dates in order, coupon `k` with `d k < v ≤ d (k + 1)`.
* `C89_telescope` (Props/PlatformStreams.lean): A floating stream without spread that has not begun, whose coupons accrue to their ends and which is discounted with the curve it refers to, is worth the difference of the discount factors of its start and its end. (Coupons of length zero may occur.)
* `C89_past_spread` (Props/PlatformStreams.lean): Deviation from C89: a coupon that has been paid before the valuation date still counts with its spread.
* `C89_double_accrual` (Props/PlatformStreams.lean): Deviation from C89: the fixing that enters the rate of a coupon is the annualized rate times the year fraction of the coupon, and the coupon rate is multiplied by the year fraction once more.
* `C89_single_coupon` (Props/PlatformStreams.lean): Deviation from C89: a floating stream with one coupon is counted twice.
* `C89_schedule` (Props/PlatformStreams.lean): Generated schedules (no irregular coupon, no end of month rule): the rolled start, the regular forward schedule and the rolled end, in order. An entry of `q` is a row, its settlement days, and the row with start and end moved by that many business days.
* `C89_irregular_exclusive` (Props/PlatformStreams.lean): First and penultimate coupon dates cannot both be given.
* `C89_first_coupon_date` (Props/PlatformStreams.lean): Deviation from C89: with a first coupon date the accrual from the start to that date is lost; the schedule does not depend on the start.
* `C89_penultimate_ignored` (Props/PlatformStreams.lean): Deviation from C89: the penultimate coupon date has no effect beyond the direction.
* `C89_schedule_fn` (Props/PlatformStreams.lean): Deviation from C89: a schedule function is not called without a penultimate coupon date.
* `C89_end_of_month` (Props/PlatformStreams.lean): Deviation from C89: with the end of month rule the last regular date is moved beyond the end, and the schedule goes back from it to the end: 31 March, 30 April, 31 May, 14 May.
* `C89_weekend_start` (Props/PlatformStreams.lean): Deviation from C89: a start on a Saturday and no adjustment is refused.
* `C89_stub` (Props/PlatformStreams.lean): Deviation from C89: the last, shorter coupon of a generated schedule pays the interest of a whole reset period, because the repeated end makes it the last but one.
* `C89_batch_fixings` (Props/PlatformStreams.lean): Fixings of a batch with several curves: every row gets the fixing of its own curve, in its place.

## C90 Interest rate swaps of the pricing platform: grouping, batching, price, annuity and delta

Grouping puts every swap in exactly one group, the one of its key, in order. Making batches from protocol buffers never fails, and a batch has exactly the dates, names and leg terms of its swaps in order; a swap that pays floating and receives fixed is stored with exchanged legs and negated amounts, which does not change its price. The price is the receive leg minus the pay leg; a payer swap that has not begun, on one curve, is worth N(P(T0) - P(Tn)) - N R A with the annuity A, and the par rate makes it zero. There is no annuity without exactly one fixed leg. The delta is the price change divided by the shock, and bumped nodes fall with the bump and are unchanged for bump zero. Deviations: a period of years is stored as as many months; there is no annuity or par rate when the discount curves are a list, as they are for swaps made from coupon specifications; there is no delta for a given curve type; the annuity counts payments of the past. (all lists of protocol buffers, legs, curves, dates, shocks)

* `C90_groups` (Props/PlatformSwap.lean): Grouping sorts the contracts by their keys and loses none: each group has the contracts with its key, in order.
* `C90_batches` (Props/PlatformSwap.lean): Batches from protocol buffers: never an error, every swap is in the batch of its key, and every batch has the dates, names and terms of its swaps, in order; a swap that pays floating and receives fixed is stored with its legs exchanged and its amounts negated.
* `C90_periods_partial` (Props/PlatformSwap.lean): Periods other than years are stored as they are.
* `C90_years` (Props/PlatformSwap.lean): Deviation from C90: a period of years becomes as many months, although the multiplier is documented as the one of a conversion.
* `C90_flip` (Props/PlatformSwap.lean): Exchanging the legs and negating their amounts does not change the price.
* `C90_annuity_partial` (Props/PlatformSwap.lean): The annuity, where the discount curve is a single curve.
* `C90_fixed_rate` (Props/PlatformSwap.lean): The fixed rate is that of the fixed leg, whichever leg this is; a swap of two floating legs has none.
* `C90_annuity_legs` (Props/PlatformSwap.lean): No annuity without exactly one fixed leg.
* `C90_annuity_fails` (Props/PlatformSwap.lean): Deviation from C90: for a list of discount curves, which a swap made from coupon specifications always has, there is neither an annuity nor a par rate.
* `C90_delta` (Props/PlatformSwap.lean): The delta is the change of the price of the swap divided by the shock.
* `C90_delta_curve` (Props/PlatformSwap.lean): Deviation from C90: no delta for a given curve type.
* `C90_value` (Props/PlatformSwap.lean): A swap that has not begun, with a floating leg that accrues to its coupon ends, on one curve: paying fixed it is worth `N (P(T₀) − P(Tₙ)) − N R A` with the annuity `A`; the par rate is the rate for which this is zero.
* `C90_bump` (Props/PlatformSwap.lean): The bumped nodes: no bump gives back the nodes of the curve, and a larger yield a smaller discount factor.
* `C90_annuity_past` (Props/PlatformSwap.lean): Deviation from C90: the annuity counts payments before the valuation date, while the price of the fixed leg does not.
* `C90_decimal` (Props/SimulationStep.lean): A decimal number of a message is its units plus its billionths.

## C91 Forward rate agreements of the pricing platform

The price is notional times year fraction times (F - K) discounted, with F from (1 + tau F) P(end) = P(start); on one curve this is N(P(start) - (1 + tau K) P(end)) in the convention of the code, it is zero exactly for K = F, and an empty period is worth nothing. Long and short positions are opposite. For every rule without end of month the accrual period starts the settlement days after the fixing date moved by the rule, and ends on the start plus the term, moved by the rule. Batches from protocol buffers have exactly the terms of their agreements in order. Deviations: the position documented as lending at the fixed rate loses when the fixed rate rises; with an end of month rule the end can be a day of the weekend; terms of years become months. (all dates, rates, notionals, curves, terms, lists of protocol buffers)

* `C91_price` (Props/PlatformFra.lean): The price is the difference of the forward rate `F` with `(1 + τ F) P(end) = P(start)` and the fixed rate, over the period and discounted: from the start with the discount curve and from the end with the reference curve.
* `C91_one_curve` (Props/PlatformFra.lean): On one curve: the value of receiving the notional at the start and returning it with the fixed interest at the end.
* `C91_fair` (Props/PlatformFra.lean): The agreement is worth nothing exactly at the forward rate.
* `C91_empty` (Props/PlatformFra.lean): An empty accrual period is worth nothing.
* `C91_positions` (Props/PlatformFra.lean): Long and short positions are opposite.
* `C91_sign` (Props/PlatformFra.lean): Deviation from C91: `short_position` is documented as lending at the fixed rate, but the value of the position falls when the fixed rate rises.
* `C91_dates` (Props/PlatformFra.lean): The accrual period for the rule FOLLOWING: it starts the settlement days after the first weekday on or after the fixing date, and ends on the first weekday on or after the start plus the term.
* `C91_dates_rules` (Props/PlatformFra.lean): The accrual period for every rule without end of month: the fixing date and the start plus the term are moved by the rule, and the start is the settlement days after the moved fixing date.
* `C91_end_of_month` (Props/PlatformFra.lean): Deviation from C91: with an end of month rule the end is moved to the last day of the month after it has been rolled, so it can be a Sunday although the rule asks for a business day, and it is moved whether or not the start is the end of a month.
* `C91_batches` (Props/PlatformFra.lean): Batches from protocol buffers: every agreement is in the batch of its key, and every batch has the terms of its agreements, in order (with years stored as months, `C90_years`).
* `C91_init` (Props/PlatformFra.lean): The constructor takes the accrual period from the dates above and the year fraction of this period from the day count convention.

## C92 Swaptions of the pricing platform

The Hull-White pricer gets the times of the expiry, the floating periods and the fixed payments in days from the valuation divided by 365, the year fractions of the legs, the fixed rate for each payment, the side and the notional of the paid leg: paying fixed is a payer swaption, paying floating a receiver swaption. The rate for the time of a date is read at that date; times are rounded to the nearest day, halves to the even one. Swaptions from protocol buffers: one instrument per key of the underlying swaps with the expiries, names and swaps of all its swaptions in order (the single batch taken is the only one). Deviation: a swaption to receive fixed made from a protocol buffer is priced as a short payer swaption, worth at most zero, while its value is at least zero. (all swaps, dates, lists of protocol buffers, model parameters)

* `C92_args` (Props/PlatformSwaption.lean): The arguments for a swap with one fixed and one floating leg: times are days from the valuation divided by 365, the coupon is the rate of the fixed leg for each of its payments, paying fixed is a payer swaption, paying floating a receiver swaption, and the notional is the one of the leg that is paid.
* `C92_round` (Props/PlatformSwaption.lean): Rounding is to a nearest integer, and to the even one if there are two.
* `C92_rate_date` (Props/PlatformSwaption.lean): The rate for the time of a date is read at that date.
* `C92_batches` (Props/PlatformSwaption.lean): Swaptions from protocol buffers: one instrument for each key of the underlying swaps, with the expiries, names and swaps of all swaptions of this key, in order (the first batch of swaps is the only one).
* `C92_receiver` (Props/PlatformSwaption.lean): Deviation from C92: a swaption to receive the fixed rate has a value of at least zero, but made from a protocol buffer it is stored with exchanged legs and negated amounts (C90) and priced as a short payer swaption, which is worth at most zero.

## C93 Heath-Jarrow-Morton models: bond prices without arbitrage, state covariance, discount factors

The zero coupon bond price as function of the states x and y solves the pricing equation whose drift, diffusion and discount rate are those used by the sampler of the quasi-Gaussian model, for every volatility function, any number of factors, any correlation L L^T and differentiable discount curve. It is one at maturity, equals the ratio of initial curve prices for zero states, and its logarithmic maturity derivative at t is the short rate of the sampler. The matrices y of all sampled states stay symmetric. In the Gaussian model with piecewise constant volatilities the closed form of y is the covariance integral, moves with the drift of the base class between jumps, and bond prices as a function of x alone solve the pricing equation. Discount factors on a grid are exp of minus the sum of right-end (quasi-Gaussian) or left-end (Gaussian) rates times steps. The root of a correlation matrix with eigenvalues at least 1e-5 is exact. Deviations: smaller eigenvalues are raised to 1e-5, so perfectly correlated factors get variances 1+5e-6; factors whose volatilities have different jump times give a wrong and asymmetric matrix y. (all states, times, parameters, volatility functions, curves, numbers of factors)

* `C93_bond_equation` (Props/Hjm.lean): Bond prices have no arbitrage: for a symmetric state `y` they solve the pricing equation with the drifts and the covariance of the sampler and the short rate.
* `C93_bond_ends` (Props/Hjm.lean): A bond is worth one at maturity; for the zero state, in particular today, bond prices are those of the initial curve.
* `C93_short_rate` (Props/Hjm.lean): The short rate is the forward rate for the time of the state.
* `C93_symmetric` (Props/Hjm.lean): The matrices `y` of all states of the sampler are symmetric.
* `C93_sqrt_partial` (Props/Hjm.lean): The root of the correlation matrix: the matrix itself if its eigenvalues are at least `1e-5`, otherwise the one with all eigenvalues raised to `1e-5`.
* `C93_sqrt_perfect` (Props/Hjm.lean): Deviation from C93: two perfectly correlated factors, with the eigenvalues 2 and 0, are simulated with the variances `1 + 5e-6`.
* `C93_discounts` (Props/Hjm.lean): Discount factors on a grid: the quasi-Gaussian model takes the rate at the end of each step, the Gaussian model the one at its start.
* `C93_state_y_partial` (Props/Hjm.lean): The matrix `y` of the Gaussian model, for volatilities with common jumps, is the covariance of the factors.
* `C93_state_y_drift` (Props/Hjm.lean): Between the jumps the matrix moves as in the sampler of the base class.
* `C93_gaussian_bond` (Props/Hjm.lean): Bond prices of the Gaussian model, for volatilities with common jumps, solve the pricing equation of its one state `x`.
* `C93_jumps` (Props/Hjm.lean): Deviation from C93: two factors with constant volatilities one, correlation one and mean reversions 1/2, given with jumps at 1 and at 2. At the time 3/2 the covariance is `1 - e^{-3/2}`, but the matrix has a larger and a smaller value, and is not symmetric.
* `C93_step` (Props/SimulationStep.lean): A step of the sampler, for draws with mean zero and unit covariance, moves the state `x` in the mean by the drift times the step; the covariance of the rest is the step times the product of the diffusion matrix with its transpose; `y` moves by its drift.

## C94 Options in Heath-Jarrow-Morton models: bond options, caps and floors, swaptions

The flat gather indices are in the order of the shape [samples, options, dim]. Every bond option of a batch is priced as the mean over paths of its own payoff at its own expiry and maturity, times the path's discount factor from the first sampled time. A cap or floor is the sum over periods that do not start in the past of notional times the mean of the discounted caplet value, the payoff of the simple rate over the period. A European swaption by simulation is the notional times the mean of the discounted payoff for bond prices of the path at the expiry; payer minus receiver is the mean discounted swap. The finite difference method has the same payoff, steps from each grid time to the one before, and for one expiry and a number of steps has a sorted time grid from zero containing the expiry; with an odd number of points the price is read at state zero. Deviations: nothing is discounted up to the first sampled time (C56); given times without the expiry silently use the next later time; swaptions that expired in the past are not set to zero; with an even number of points the price is read half a step off; without step size and number the documented default fails. (all batches of options, paths, numbers of samples, grids)

* `C94_indices` (Props/HjmOptions.lean): The flat list of indices is in the order of the shape `[samples, options, dim]`: at the place of sample `s`, option `k` and dimension `d` are the entries `s`, `k`, `k` and `d` of the four lists.
* `C94_bond_options_partial` (Props/HjmOptions.lean): Options on bonds: each option of the batch is priced as the mean over the paths of its own payoff, for the bond prices at its own expiry and maturity, with the path's discount factor from the first sampled time to the expiry.
* `C94_cap_floor_partial` (Props/HjmOptions.lean): A cap (floor) is the sum over its periods that do not start in the past of the notional times the mean over the paths of the discounted value of the caplet (floorlet) at the start of the period.
* `C94_swaption_partial` (Props/HjmOptions.lean): Each swaption of a batch is priced as the notional times the mean over the paths of the discounted payoff, for the bond prices of the path at the expiry, if no other times are given.
* `C94_parity` (Props/HjmOptions.lean): Payer minus receiver swaption is the mean of the discounted swap values.
* `C94_times` (Props/HjmOptions.lean): Deviation from C94: for given times without the expiry the next later time takes its place. Expiry 3/2, times 1 and 2: the bond and discount factor are those of time 2.
* `C94_past` (Props/HjmOptions.lean): Deviation from C94: swaptions that expire in the past are not set to zero.
* `C94_fd_point_partial` (Props/HjmOptions.lean): With an odd number of grid points the finite difference price is read at the state zero.
* `C94_fd_even` (Props/HjmOptions.lean): Deviation from C94: with an even number of points it is read half a grid step above zero.
* `C94_fd_default` (Props/HjmOptions.lean): Deviation from C94: without step and number of steps there is no time grid, where the documentation has one hundred steps.
* `C94_fd_steps` (Props/HjmOptions.lean): From each point of the time grid the solver steps to the point before: the time is found on the grid, and the step there is the distance to the point before.
* `C94_fd_grid` (Props/HjmOptions.lean): With a number of steps the time grid of a single expiry is sorted, starts at zero, ends with the expiry and has the number of steps.
* `C94_fd_payoff` (Props/HjmOptions.lean): The finite difference method has the same payoff as the simulation.

## C95 Local volatility from an implied volatility surface

The local volatility computed from prices makes the call prices satisfy Dupire's forward equation wherever they are convex in the strike and the calendar condition holds; in terms of the surface it is the square root of the positive part of Dupire's formula in implied volatilities for the forward of the discount curve. A flat surface is its own local volatility; a surface without strike dependence gives the time derivative of total variance. The asset grows at rate minus dividend yield and its correlations are those of the Cholesky factor. The precomputed model samples only on its own grid. Deviations: the formula in implied volatilities multiplies d1 by the time instead of its square root, so it is right only at time 1 or without strike slope; its d1 and the moneyness of quotes use the instantaneous rate as if it were the average rate, right exactly for a flat curve; the precomputed version uses at a grid time the volatilities of the grid time before. (all smooth surfaces, discount curves, dividend yields, times and strikes)

* `C95_dupire` (Props/LocalVolatility.lean): The local volatility computed from prices makes the call prices satisfy Dupire's equation, wherever they are convex in the strike and the calendar condition holds.
* `C95_prices` (Props/LocalVolatility.lean): In terms of the implied volatility surface, the local volatility computed from prices is the square root of the positive part of Dupire's local variance for the forward price of the discount curve.
* `C95_d1` (Props/LocalVolatility.lean): `d1` of the code that works with implied volatilities is `d1` of Black's formula exactly if the discount factor is that of a flat curve with the instantaneous rate.
* `C95_iv_partial` (Props/LocalVolatility.lean): Partial: the formula in implied volatilities is Dupire's only for the time 1 or where the surface has no slope in the strike. Missing: other times, see `C95_time_deviates`, and curves that are not flat, see `C95_curve_deviates`.
* `C95_flat` (Props/LocalVolatility.lean): A flat surface is its own local volatility, for every discount curve and by both formulas.
* `C95_term` (Props/LocalVolatility.lean): A surface that does not depend on the strike: both formulas give the derivative of the total variance.
* `C95_time_deviates` (Props/LocalVolatility.lean): Deviation: no rates, spot and strike 1, time 4, implied volatility `1/2 + (k - 1)/10`. The local variance is 25/119, the formula in implied volatilities gives 25/140: it multiplies `d1` by the time, not by its square root.
* `C95_curve_deviates` (Props/LocalVolatility.lean): Deviation: the discount factor `exp (-t^2)`, spot and strike 1, time 1, implied volatility `1 - (k - 1)/10`. The local variance is 240/283, the formula in implied volatilities gives 48/43: it uses the instantaneous rate 2 in place of the average rate 1.
* `C95_moneyness` (Props/LocalVolatility.lean): The moneyness under which `from_market_data` files a quote is the logarithm of strike over forward exactly if the discount factor is that of a flat curve with the instantaneous rate.
* `C95_precomputed_row` (Props/LocalVolatility.lean): Deviation: the precomputed version uses at a grid time after the first the volatilities of the grid time before it, and the same row up to and including the next grid time.
* `C95_precomputed_stale` (Props/LocalVolatility.lean): 
* `C95_precomputed_deviates` (Props/LocalVolatility.lean): Deviation, concretely: the implied volatility `1 + t`, grid times 0 and 1. At the time 1 the local variance is 8, the precomputed version gives 3.
* `C95_precomputed` (Props/LocalVolatility.lean): If the tables hold the implied volatilities of the grid times, the precomputed version at a time `t` evaluates the same quotient, at the time `t`, with the volatilities of row `i`.
* `C95_martingale` (Props/LocalVolatility.lean): The asset price grows at the rate minus the dividend yield: the drift of the logarithm plus half the squared length of the volatility row.
* `C95_correlation` (Props/LocalVolatility.lean): The instantaneous correlation of two assets is the product of their rows of the Cholesky factor.
* `C95_sample_grid` (Props/LocalVolatility.lean): The precomputed model always samples on its own grid and rejects every other choice.
* `C95_rate` (Props/LocalVolatility.lean): The rate of a flat curve.

## C96 Calibration of Hull-White and Heath-Jarrow-Morton models

Whatever the optimizer returns, mean reversions and volatilities lie strictly between their bounds, the Hull-White volatility keeps its jumps, and the hypersphere decomposition of any angles is a correlation matrix (positive semidefinite, unit diagonal, entries between -1 and 1). Conversely every choice of parameters between the bounds and every correlation matrix is the result of some position. The first position stands for the given parameters; the initial angles are between their bounds. The loss is not negative and zero exactly where the model gives the targets, and targets are scaled to between 0 and 1. Deviations: a missing notional fails where 1 is documented; a mean reversion with jumps always fails; if the largest target is zero the loss is never a number; batches of HJM models fail except batches of two without correlation; angles are clipped in the loss but not in the result. (all optimizers, positions, numbers of factors, correlation matrices, targets, models)

* `C96_hypersphere` (Props/RateCalibration.lean): The hypersphere decomposition gives a correlation matrix for any angles: positive semidefinite, ones on the diagonal, entries between -1 and 1.
* `C96_all_correlations` (Props/RateCalibration.lean): Every correlation matrix is given by angles within the bounds of the calibration.
* `C96_hjm_bounds` (Props/RateCalibration.lean): The parameters of the result lie strictly between their bounds, and its correlation matrix is a correlation matrix.
* `C96_hjm_onto` (Props/RateCalibration.lean): Every choice of mean reversions and volatilities strictly between the bounds and of a correlation matrix is the result for some position of the optimizer.
* `C96_initial_angles` (Props/RateCalibration.lean): The initial angles lie strictly between the bounds.
* `C96_clip` (Props/RateCalibration.lean): Positions between -25 and 25 give the same correlation matrix in the loss function and in the result. Deviation: beyond, the loss function uses another angle than the result.
* `C96_batches` (Props/RateCalibration.lean): Deviation: with its correlation (the default) only a single model can be calibrated, without it only a single model or a batch of exactly two.
* `C96_single` (Props/RateCalibration.lean): the initial guess for a single model holds one mean reversion and one volatility for each factor, and with the correlation one number for each initial angle.
* `C96_loss` (Props/RateCalibration.lean): The loss is never negative and is zero exactly where the model gives the targets, if some target is positive.
* `C96_scaled_targets` (Props/RateCalibration.lean): The scaled targets lie between 0 and 1 and the largest is 1, for targets that are not negative.
* `C96_zero_targets` (Props/RateCalibration.lean): Deviation: if the largest target is zero, the loss is not a number at any position.
* `C96_hw_bounds` (Props/RateCalibration.lean): Whatever the optimizer returns, the calibrated mean reversion and volatilities lie strictly between their bounds, the mean reversion is constant and the volatility has the jumps of the given one.
* `C96_hw_start` (Props/RateCalibration.lean): The first position stands for the given parameters: an optimizer that stays there returns them.
* `C96_hw_fails` (Props/RateCalibration.lean): Deviation: without a notional, where 1 is documented, and with a mean reversion that has jumps, which is documented as supported, the calibration fails.

## C97 Calibration of a raw SVI smile

Whatever the optimizer returns, the calibrated parameters have positive slope and width, correlation strictly between -1 and 1, and positive total variance at every strike; each valid smile is recovered exactly from its position and each position from its smile, so valid initial parameters are kept by an optimizer that does not move. The loss is not negative and zero exactly where all quoted volatilities are met. The heuristic start has its vertex at a quote of least total variance, correlation zero, width one half, and its level and slope are the least squares fit; where the fit is negative or undefined the start uses one. (all optimizers, quotes, weights, forwards, expiries, initial parameters)

* `C97_valid` (Props/SviCalibration.lean): Whatever the optimizer returns, the calibrated parameters are valid, and the total variance they give is positive at every strike.
* `C97_round_trip` (Props/SviCalibration.lean): Valid parameters have a finite position, from which they are recovered exactly; so every valid smile can be the result.
* `C97_positions` (Props/SviCalibration.lean): A position is recovered from its parameters.
* `C97_start` (Props/SviCalibration.lean): An optimizer that stays at its first position returns valid initial parameters.
* `C97_loss` (Props/SviCalibration.lean): The loss of weighted quotes is never negative and zero exactly where the volatilities of the smile are the quoted ones.
* `C97_estimate_vertex` (Props/SviCalibration.lean): The heuristic start has its vertex at a quote of least total variance, correlation zero and width one half.
* `C97_estimate_least_squares` (Props/SviCalibration.lean): The level and slope of the heuristic start minimise the sum of squared errors of the total variance among all smiles with the same vertex, correlation and width.
* `C97_bad_fit` (Props/SviCalibration.lean): A fitted slope that is negative is replaced by one, a fitted least variance that is negative by one; the other coordinates of the start do not depend on it.
* `C97_single_quote` (Props/SviCalibration.lean): Two quotes at the same distance from the vertex, or a single quote: the regression is undefined and the start has least variance and slope one.

## C98 Sampling of the SABR model

Exactly the documented parameters are accepted. The Euler scheme has the covariance of the SABR model, is a martingale in forward and volatility and keeps absorbed paths. In the other scheme the volatility is sampled exactly (mean and composition of steps), the integrated variance lies between those of the two end volatilities, forwards are never negative and stay at zero after absorption, the quadratic of a normal draw has mean and variance of the noncentral chi-square distribution with the degrees of freedom of the model, both ways to the next forward invert the change of variable, the gradient of the truncated distribution function is its derivative and the truncation misses the distribution function by at most the Poisson probability of the terms left out. Every requested time is reached by steps of the given length and a shorter last one, and the prepared draws are enough. (all parameters, states, draws, time steps and lists of requested times; all root finders)

* `C98_check` (Props/SabrPaths.lean): The parameters that are accepted.
* `C98_covariance` (Props/SabrPaths.lean): The volatility matrix of the Euler scheme has the covariance of the SABR model, away from the absorbing boundary.
* `C98_absorbed` (Props/SabrPaths.lean): The Euler scheme does not move a path whose forward is at or below zero.
* `C98_euler_martingale` (Props/SabrPaths.lean): Each step of the Euler scheme is a martingale in forward and volatility.
* `C98_negative` (Props/SabrPaths.lean): The Euler scheme reaches negative forwards, at which the path then stays.
* `C98_volatility_stops` (Props/SabrPaths.lean): The volatility stops with the forward, although its equation does not contain the forward.
* `C98_volatility` (Props/SabrPaths.lean): The step of the volatility is exact: it has the mean of the martingale, and two steps are one step of the whole length.
* `C98_integrated_variance` (Props/SabrPaths.lean): The integrated variance lies between those of the smaller and the larger of both volatilities.
* `C98_uniform_law` (Props/SabrPaths.lean): The distribution of the draws that are used as uniform ones.
* `C98_uniform_deviates` (Props/SabrPaths.lean): These draws are not uniformly distributed.
* `C98_absorption_deviates` (Props/SabrPaths.lean): A forward that is to be absorbed with a probability `q` below one half is absorbed with a larger probability.
* `C98_quadratic_moments` (Props/SabrPaths.lean): The quadratic of a normal draw has the mean and the variance of the noncentral chi-square distribution with `2 - b` degrees of freedom and noncentrality `a`.
* `C98_cev` (Props/SabrPaths.lean): Without correlation the degrees of freedom are those of the constant elasticity of variance model.
* `C98_inverse` (Props/SabrPaths.lean): Both ways to the next forward invert the change of variable in `a`.
* `C98_gradient` (Props/SabrPaths.lean): The gradient is the derivative of the truncated sum.
* `C98_gradient_zero` (Props/SabrPaths.lean): At zero the gradient is not a number.
* `C98_truncation` (Props/SabrPaths.lean): The truncated sum is at most the distribution function, and misses it by at most the probability of the terms left out.
* `C98_times` (Props/SabrPaths.lean): Every requested time is reached, by steps of the length asked for and a shorter last one, and the draws that are prepared are enough.
* `C98_nonneg` (Props/SabrPaths.lean): The forwards are never negative.
* `C98_stays_zero` (Props/SabrPaths.lean): A forward that has been absorbed stays at zero.
* `C98_volvol_deviates` (Props/SabrPaths.lean): A volatility of volatility of zero is accepted, but the forwards are not numbers.
* `C98_draws` (Props/SabrPaths.lean): The reshaped draws are the draws, each of them used once.
* `C98_draws_mixed` (Props/SabrPaths.lean): But the draws of a path are not those of one sample: the second path gets its first draw from the first sample and its last one from another.
* `C98_needs_draws` (Props/SabrPaths.lean): Without draws in advance the scheme fails for pseudo-random numbers.
* `C98_noncentrality` (Props/SabrPaths.lean): **C98, the noncentrality.** The root of the noncentrality is the variable `F^(1 - beta) / (1 - beta)` moved by the regression of its change on the change of the volatility, divided by the root of the integrated variance.
* `C98_dimension` (Props/SabrPaths.lean): **C98, the dimension.** The drift of the variable is that of a Bessel process with `2 - b` degrees of freedom for the part of the variance that is independent of the volatility.
* `C98_absorption` (Props/SabrPaths.lean): **C98, absorption.** A positive forward is set to zero when the uniform number is below the probability of absorption, which is one minus the chi-square distribution function with `b` degrees of freedom at the noncentrality; otherwise it is found by one of the two ways.
* `C98_equation` (Props/SabrPaths.lean): **C98, inversion.** The equation given to the root finder is solved exactly where the noncentral distribution function, as a function of the noncentrality, is one minus the uniform number, its gradient is the derivative of its value, and the search starts at the present state.
* `C98_scheme` (Props/SabrPaths.lean): **C98.** The scheme for the integrated variance is used where it is enabled, the parameters are constant and `beta` is not one.

## C99 American options by the method of Andersen and Lake

The fixed point equation iterated for the exercise boundary is equivalent to value matching in Kim's integral representation, and when the loop reports convergence the mismatch is bounded by the tolerance and the errors of the quadratures. The starting boundary is the limit of the boundary at maturity. For rates that are not negative a price is always computed. Calls and puts satisfy the McDonald-Schroder symmetry. At expiry or without rates the price is the European price, and a put without dividends is worth at least the European put. (all spots, strikes, rates, volatilities, expiries, boundaries, grids, tolerances and supported numbers of quadrature points)

* `C99_normal_cdf` (Props/AndersenLake.lean): The piecewise normal distribution function is the normal distribution function.
* `C99_types` (Props/AndersenLake.lean): deviation: the function accepts only double precision, since the branches of its selection have different types otherwise.
* `C99_integrands` (Props/AndersenLake.lean): Without the machine epsilon, `d_plus` and `d_minus` are the quantities of the Black-Scholes formula, and the integrands of the boundary and of the premium are those of the paper.
* `C99_quotient` (Props/AndersenLake.lean): Without the machine epsilon, the computed numerator and denominator differ from those of the fixed point equation by the rate times the error of the integration rule.
* `C99_rates` (Props/AndersenLake.lean): The boundary is computed with the given rates, except that both are `0.1` where both vanish.
* `C99_value_matching` (Props/AndersenLake.lean): The fixed point equation of the boundary is value matching: at the boundary the price is the payoff.
* `C99_denominator_positive` (Props/AndersenLake.lean): The denominator is positive if the dividend rate is not negative.
* `C99_defect` (Props/AndersenLake.lean): An approximate fixed point of the computed equation matches the value approximately. `N` and `D` are the computed numerator and denominator.
* `C99_converged` (Props/AndersenLake.lean): If the loop reports convergence, its result is one iteration of points that differ from it by at most the relative tolerance.
* `C99_initial` (Props/AndersenLake.lean): The starting value is the limit of the boundary at maturity if the dividend rate is at least the machine epsilon, or zero.
* `C99_initial_deviates` (Props/AndersenLake.lean): deviation: for a negative dividend rate the starting value is negative, though the limit of the boundary is the strike.
* `C99_grid` (Props/AndersenLake.lean): The times to maturity of the boundary are the `n` multiples of `tau / n`.
* `C99_boundary_total` (Props/AndersenLake.lean): For rates that are not negative the boundary can be computed, and it is at least the machine epsilon.
* `C99_total` (Props/AndersenLake.lean): For rates that are not negative a price is computed.
* `C99_arguments` (Props/AndersenLake.lean): The arguments are rejected exactly when both or neither of spot and forward, or both rate and factor are given; a forward, a discount factor and missing rates are replaced by the spot and rates they stand for.
* `C99_symmetry` (Props/AndersenLake.lean): Symmetry of McDonald and Schroder: a call is worth as much as the put with spot and strike, and both rates, exchanged.
* `C99_european` (Props/AndersenLake.lean): Without rates, or at expiry, the price is that of the European option.
* `C99_premium` (Props/AndersenLake.lean): A put without dividends is worth at least the European put.
* `C99_call_deviates` (Props/AndersenLake.lean): deviation: a call without dividends is worth as much as the European call, but the computed price is not larger, and it is smaller if the integration rule accepts its first estimate.
* `C99_negative_dividend` (Props/AndersenLake.lean): deviation: for a negative dividend rate the first iteration starts from the constant boundary `eps`. If the denominator computed from it is negative at a point of the grid, the function fails.
* `C99_negative_dividend_fails` (Props/AndersenLake.lean): deviation: an ordinary put with dividend rate -2 % and the default settings cannot be priced: the assertion that the denominator is not negative fails.

## C100 Local stochastic volatility

The covariance of the increments is that of the model with the given correlation. The grid runs from the lower to the upper bounds and increases strictly. After each step the joint density is not negative and integrates to one; the conditional variance is a mean over the grid, and the leverage satisfies L^2 E[v|S] = sigma^2 at the grid points. The coefficients of the partial differential equation are those of the Fokker-Planck equation with the leverage of the step before, and the loop fills each entry of the leverage table once. (all correlations, leverage functions, states, grids, densities, local volatilities, time steps and end times)

* `C100_cholesky` (Props/LocalStochVol.lean): The correlation matrix has a Cholesky factor exactly when the correlation is strictly between minus one and one, and the factor is a root of it.
* `C100_dynamics_partial` (Props/LocalStochVol.lean): The drift is that of the model; absent rates are zero. The covariance per unit of time is that of the model without correlation.
* `C100_correlation_deviates` (Props/LocalStochVol.lean): With a correlation the covariance of the code is that of the model exactly when the diffusions of the spot and of the variance are equal, because the factor is scaled by columns instead of rows: the variance of the spot is right, while the diffusion of the variance contains that of the spot.
* `C100_defaults_deviate` (Props/LocalStochVol.lean): The constructor fails without a data type, and the leverage function of market data fails with the documented defaults of the rates.
* `C100_grid` (Props/LocalStochVol.lean): The grid starts and ends at the bounds and increases strictly.
* `C100_grid_bounds` (Props/LocalStochVol.lean): In the original variables the grid reaches from the lower to the upper bound of the spot and of the variance.
* `C100_grid_default` (Props/LocalStochVol.lean): Without bounds the spot reaches from a hundredth to ten times the initial spot and the variance from 0.0001 to 5 times the initial variance.
* `C100_integration` (Props/LocalStochVol.lean): The integration is the sum over the cells of the grid.
* `C100_density` (Props/LocalStochVol.lean): After each step the density is not negative, and it integrates to one if it has any positive mass.
* `C100_conditional_variance` (Props/LocalStochVol.lean): The conditional variance is a weighted mean: it lies between any bounds of the variances of the grid. Without mass it is zero.
* `C100_leverage` (Props/LocalStochVol.lean): At a grid point with mass the leverage function satisfies `L^2 E[v | S] = sigma^2` and has the sign of the local volatility, unless the local volatility exceeds 10000; the interpolation returns the values of the grid points.
* `C100_leverage_zero` (Props/LocalStochVol.lean): A local volatility above 10000, or a point without mass, gives leverage zero.
* `C100_initial_leverage` (Props/LocalStochVol.lean): The leverage at the start is one everywhere.
* `C100_initial_value` (Props/LocalStochVol.lean): The density at the start is not negative and positive exactly near the initial point.
* `C100_coefficients` (Props/LocalStochVol.lean): The coefficients are those of the Fokker-Planck equation in the scaled variables; the mixed coefficient is half of it, since the solver adds it twice.
* `C100_scaling` (Props/LocalStochVol.lean): Scaling the variable divides the coefficient of a derivative by the scale.
* `C100_coefficients_deviate` (Props/LocalStochVol.lean): The coefficients which the stepper receives at the variance `y i` and the logarithm `x j` are those of the variance `y j`; so the coefficients of the spot are right exactly if the two variances are equal (at a positive leverage).
* `C100_steps_deviate` (Props/LocalStochVol.lean): The first dimension of the density is the variance, but the stepper takes its step from the grid of the spot: the entry of the matrix for the drift and diffusion of the variance has the first step of the spot.
* `C100_loop` (Props/LocalStochVol.lean): The loop takes `ceil(max_time / time_step)` steps and writes each of the entries after the first one exactly once, in order, with the leverage of the density at the time of the entry; the array has room for exactly these. All densities come from the leverage of the start.
* `C100_density_ignores_leverage` (Props/LocalStochVol.lean): The densities do not depend on how the leverage is computed, that is on the local volatility: the last density and the number of steps are the same for any two leverage computations.
* `C100_evolution_partial` (Props/LocalStochVol.lean): They are those of the specification if the solver does not depend on the leverage or there is a single step.
* `C100_evolution_deviates` (Props/LocalStochVol.lean): In general they differ after the second step.

## C101 Constant maturity swaps

The weight of the rate is the reciprocal of the annuity of the swap at a flat rate, discounted to the payment. The adjusted rates of the two simple convexity models are the exact means in the payment measure for an affine weight and a lognormal or normal rate. The replication adds the integrals of calls and puts with the weights of the exact replication formula. The price is the sum over the coupons of notional, day count, multiplier times adjusted rate plus basis, and discount factor; coupons that have ended are worth nothing and fixed coupons keep their rate. (all swap terms, rates, volatilities, expiries, laws of the rate with bounded support, coupons and valuation dates)

* `C101_weight` (Props/CmsSwap.lean): The weight of the rate is one over the annuity of the swap at a flat rate, discounted to the payment, also at the rate zero.
* `C101_weight_terms` (Props/CmsSwap.lean): With the terms of the swap in months or years: if the tenor has `n` periods of the fixed leg, the weight is the one of a swap with `n` coupons that is paid after one period of the coupons.
* `C101_convexity` (Props/CmsSwap.lean): The convexity adjustment of the two simple models is the exact rate in the payment measure if the weight of the rate is affine with value `discount / level` at the par rate: for a lognormal and for a normal rate.
* `C101_option_price` (Props/CmsSwap.lean): The option prices are the expectations of the payoffs in the two models, and the payoff itself at expiry.
* `C101_replication` (Props/CmsSwap.lean): The replication is the rate with the two integrals of options; the term with the first derivative cancels, since a call and a put at the money are worth the same.
* `C101_replication_exact` (Props/CmsSwap.lean): Why these integrals: with the exact integrals and the law `mu` of the rate, the options with the second derivative of `_f_atm` as weights give the rate in the payment measure, if the law lives between the bounds of the integrals.
* `C101_replication_weight` (Props/CmsSwap.lean): The weight in the code is the one of the exact replication.
* `C101_price` (Props/CmsSwap.lean): The price is the sum of the values of the coupons at their adjusted rates.
* `C101_plain_price_partial` (Props/CmsSwap.lean): Without a convexity model and without a basis the price counts the coupons which have not ended before the valuation, a coupon which has begun at the fixing and the others at the par rates.
* `C101_past_basis_deviates` (Props/CmsSwap.lean): A coupon which ended before the valuation is still counted with the basis.
* `C101_past_coupon_nan` (Props/CmsSwap.lean): With a convexity model the price is NaN as soon as a coupon has ended before the valuation (its rate is replaced by zero).
* `C101_fixed_rate_deviates` (Props/CmsSwap.lean): A rate which is already fixed is changed by the convexity adjustment of the simple models, since the time from the valuation to the start of the coupon is negative: it is kept only if the derivative of the weight or the annuity vanishes.
* `C101_term_years` (Props/CmsSwap.lean): A tenor or frequency in days or weeks counts as zero years.

## C102 Asian options in the model of Heston

The transform of the logarithm of the geometric mean solves the backward equation of the model between the sampling times, has the right jumps at them and the right value at expiry; it is one at zero, at one it is the positive forward, and with one sampling at expiry it is the transform of the plain option. If it is the transform of a law, the pricing formula is the expected discounted payoff of call or put. Past fixings enter as they do in the payoff, put-call parity holds for every rule of integration, and wrong arguments are refused. (all parameters of the model, strikes, sampling times, past fixings, rates, arguments of the transform, laws and numbers of points)

* `C102_riccati` (Props/HestonAsian.lean): On each interval the coefficient of the variance solves the equation of Riccati and the other one is its integral.
* `C102_transform_partial` (Props/HestonAsian.lean): `phi` is the transform of the sampled logarithm of the spot: between the sampling times it solves the backward equation of the model, if no value of `f` on the interval is a negative number or zero.
* `C102_forward` (Props/HestonAsian.lean): The mean of the averages of the future spots needs no condition on `f`: `phi(1, 0)` is a positive number and the transform of the model, unless `mean_reversion = rho * volvol` and there is no past fixing.
* `C102_forward_deviates` (Props/HestonAsian.lean): If `mean_reversion = rho * volvol` and there is no past fixing, the price is NaN.
* `C102_at_zero` (Props/HestonAsianPrice.lean): At zero the transform is one: it is the transform of a probability.
* `C102_inversion` (Props/HestonAsianPrice.lean): **C102, price.** If `phi` is the transform of a law of the logarithm of the mean, the formula, integrated over all positive numbers, is the expected payoff: of the call with the plus sign before half the forward minus half the strike, of the put with the minus sign.
* `C102_price` (Props/HestonAsianPrice.lean): The function prices with the integral of the rule in the place of the integral of the theorem before, the prefactor of the past fixings and the discount factor.
* `C102_parity` (Props/HestonAsianPrice.lean): Call minus put is the discounted difference of forward and strike, whatever the rule of integration.
* `C102_seasoned` (Props/HestonAsianPrice.lean): The prefactor carries the past fixings: the payoff on the geometric mean of the past fixings and of `m` more prices with the sum of logarithms `n x`, `n` being the number of all of them, is the prefactor times the payoff on `e ^ x` with the strike of the handler.
* `C102_rejects` (Props/HestonAsianPrice.lean): The arguments that are refused.
* `C102_market` (Props/HestonAsianPrice.lean): The market: the rate out of the discount factor, the discount factor and the spot out of the forward.
* `C102_single` (Props/HestonAsianSingle.lean): With one sampling time at the expiry `phi` is the characteristic function of the European option (C82) times a factor, which is one exactly if the principal logarithm of `f` is the continuous one.
* `C102_single_partial` (Props/HestonAsianSingle.lean): With one sampling time the transform is that of the European option as long as the continuous logarithm of `f` stays in the principal strip.
* `C102_branch_deviates` (Props/HestonAsianSingle.lean): With a long interval the principal logarithm in `phi` is not the continuous one: here `phi` differs from the characteristic function of the model (C82) by a factor, although the option is the European one.

## C103 Random draws have the requested shape, law and order

A draw of normal vectors has the shape of the samples, the batch and the dimension, each vector is the mean plus the scale matrix times its own normal numbers and so has the normal law with the given mean and covariance, independent between samples. Antithetic partners add up to twice the mean. Draws from low discrepancy sequences use each point of the sequence exactly once, all coordinates of one vector from one point, through the normal quantile function. Uniform draws take the points in order. The stateless shuffle is a permutation, each with the same probability. Missing or contradictory arguments are refused. (all shapes of samples and batches, dimensions, means, matrices, seeds, skips and generators)

* `C103_pseudo` (Props/RandomOps.lean): **C103, pseudo random draws.** With fitting shapes the result has the shape of the samples followed by the batch and the dimension, and each vector is the mean plus the scale matrix times the vector of normal numbers drawn for it; without scale matrix it is the mean plus the normal numbers.
* `C103_law` (Props/RandomOps.lean): **C103, law.** The mean plus the scale matrix times independent standard normal numbers has the normal law with this mean and the covariance `scale * scaleᵀ`; in particular with the covariance of which the scale is the Cholesky factor.
* `C103_draw_law` (Props/RandomOps.lean): **C103, law of the draws.** The generators are random. Where the numbers for an element are independent standard normal numbers, the drawn vector has the normal law with the mean and the covariance `scale * scaleᵀ` of this element, and where the vectors of numbers are independent, so are the drawn vectors.
* `C103_rejects` (Props/RandomOps.lean): **C103, refusals.** Nothing is drawn without mean and matrices, with two matrices, without seed for the stateless types, and, for the antithetic types, for an odd number of samples.
* `C103_antithetic` (Props/RandomOps.lean): **C103, antithetic draws.** For an even number of samples the first half are draws as above of half the size, and each sample of the second half is the reflection of its partner at the mean: partners add up to twice the mean.
* `C103_broadcast_deviates` (Props/RandomOps.lean): **C103, deviation.** The batch is taken from the mean alone. One mean for a batch of two matrices is not refused and not broadcast: for two draws the result has the shape of one draw for each matrix instead of two, and for three draws there is an error.
* `C103_quasi_position` (Props/RandomOpsQuasi.lean): **C103, points.** Each sample and each element of the batch use one point of the sequence, no point is used twice and all are used.
* `C103_quasi` (Props/RandomOpsQuasi.lean): **C103, draws from points.** With the types of low discrepancy sequences each drawn vector is the mean plus the scale matrix times the vector of normal quantiles of the coordinates of one point; the sequence starts at `skip`.
* `C103_quantile` (Props/RandomOpsQuasi.lean): **C103, quantile.** The transformation of the coordinates is the quantile function of the standard normal law.
* `C103_quantile_law` (Props/RandomOpsQuasi.lean): **C103, law of the quantiles.** Of a uniform number on the unit interval the transformation makes a standard normal number.
* `C103_uniform` (Props/RandomOpsQuasi.lean): **C103, uniform draws.** The tensor of uniform draws has the shape of the samples followed by the dimension; for the types of low discrepancy sequences each sample is one point, in the order of the samples, the sequence starts at `skip`. Antithetic draws and stateless draws without seed are refused.
* `C103_uniform_deviates` (Props/RandomOpsQuasi.lean): **C103, deviation.** `uniform` does not refuse the antithetic type with a seed: it returns the points of the Halton sequence, which do not depend on a seed.
* `C103_shuffle` (Props/RandomOpsShuffle.lean): **C103, shuffle.** The result has the same entries, in another order, and the same seed gives the same order, namely that of the drawn numbers.
* `C103_shuffle_law` (Props/RandomOpsShuffle.lean): **C103, law of the shuffle.** Where the drawn numbers are independent and uniform, each order of different entries has the same probability.

## C104 The legacy Brownian motion has independent normal increments with the given drift and covariance

BrownianMotion of models/legacy refuses a dimension below one and integrated coefficients without coefficients. With constant or missing coefficients its integrated drift over an interval is the drift times the length and its integrated covariance is the volatility times its transpose times the length, in the shape of the times with the dimensions appended. sample_paths starts from the initial state, and its increments are the drawn vectors; of independent standard normal numbers these are independent over paths and intervals and normal with these means and covariances. Where the integrated coefficients are not known, the Euler scheme runs on a sorted grid from zero that contains the requested times and has no gap above the grid step, and returns the states at the requested times in order; with constant coefficients the steps add up to the time. (for all dimensions, coefficients, times, numbers of paths, initial states, generators, grid steps and numbers drawn)

* `C104_coefficients` (Props/LegacyBrownian.lean): **C104, coefficients.** A Brownian motion with constant coefficients, or with missing ones, knows its integrated coefficients: over an interval the drift is multiplied with its length, and so is the product of the volatility with its transpose.
* `C104_rejects` (Props/LegacyBrownian.lean): **C104, refusals.** The constructor refuses a dimension of zero and integrated coefficients without coefficients. Exact sampling refuses decreasing and negative times.
* `C104_default_deviates` (Props/LegacyBrownian.lean): **C104, the default volatility deviates.** Without a volatility the covariance is that of a standard Brownian motion, but the volatility function returns a matrix of ones: its product with its transpose has the dimension in each entry.
* `C104_paths` (Props/LegacyBrownian.lean): **C104, paths.** The increments of the paths are the drawn vectors, for each way to draw; they start from the initial state.
* `C104_law` (Props/LegacyBrownian.lean): **C104, law.** Of independent standard normal numbers, sampling at increasing positive times makes paths of a Brownian motion: the increments of all paths over all intervals are independent, and normal with the drift times the length of the interval as mean and the volatility times its transpose times the length as covariance.
* `C104_euler` (Props/LegacyEuler.lean): **C104, the Euler scheme.** For positive sorted times the states are those of a scheme on a sorted grid which starts at zero, contains the times and has steps of at most the given size. One state is returned for each time, the state of the scheme at the point of the grid with this time.
* `C104_euler_constant` (Props/LegacyEuler.lean): **C104, the Euler scheme with constant coefficients.** The state at a time is the initial state, the drift times the time and the volatility times the sum of the normal numbers, each multiplied with the root of its step; the steps add up to the time.
* `C104_draws` (Props/LegacyEuler.lean): **C104, draws of the steps.** By default step `i` of the Euler scheme uses the normal numbers of call `i` of the generator, one for each path and component.
* `C104_stateless_deviates` (Props/LegacyEuler.lean): **C104, generators without a state deviate.** With stateless or quasi random numbers each step of the Euler scheme draws the same numbers. In one dimension the normal number is multiplied with the sum of the roots of the steps, for two steps of one half with the root of two in place of one.
* `C104_zero_time_deviates` (Props/LegacyEuler.lean): **C104, time zero deviates.** At the single time zero the Euler scheme returns zeros and not the initial state.
* `C104_quasi` (Props/LegacyQuasi.lean): **C104, exact sampling with quasi random numbers.** Path `n` at time number `m` is driven by the point number `m * N + n`: all times use the same coordinates of the points.
* `C104_quasi_deviates` (Props/LegacyQuasi.lean): **C104, quasi random numbers deviate.** In one dimension with `2 ^ q` paths, the uniform number of a path for the second time is that for the first time plus `1 / 2 ^ (q + 1)`: the second increment of a path is a function of the first one.

## C105 Broadcasting to a common shape gives the least common shape and repeats the elements

common_shape returns the least shape to which all arguments broadcast, and fails exactly when there is none. broadcast_tensors returns tensors of this shape in which each element is the element of the argument at the index it broadcasts from. broadcast_common_batch_shape does the same to the leading dimensions and leaves the trailing event dimensions as they are, and refuses event ranks of another number than the arguments. (for all numbers of arguments, shapes, elements and positive event ranks)

* `C105_common_shape` (Props/ShapeUtils.lean): **C105, the common shape.** For at least one tensor the common shape is the least shape to which all can be broadcast, and there is an error exactly if there is none. The least shape is unique.
* `C105_broadcast` (Props/ShapeUtils.lean): **C105, broadcast to the common shape.** All tensors get the common shape, and their entries are repeated; there is an error exactly if no common shape exists.
* `C105_batch` (Props/ShapeUtils.lean): **C105, broadcast of the batch.** With event ranks of at least one, all tensors get the least common shape of the batch dimensions, followed by their own event dimensions. Entries are repeated over the batch and the event indices are kept. Event ranks in the wrong number are refused, and so are batches without a common shape.
* `C105_event_rank_deviates` (Props/ShapeUtils.lean): **C105, an event rank of zero deviates.** `[:-0]` is empty and `[-0:]` is the whole list: a tensor with an event rank of zero is treated as one without a batch.

## C106 The iteration over nested dictionaries yields each leaf once with its path

iterate_nested yields exactly the pairs of the previous keys followed by the path of keys of a leaf, and this leaf; each path once, in depth first order, which is the lexicographic order of the positions of the keys. Empty dictionaries yield nothing. (for all nested dictionaries of any depth and all previous keys)

* `C106_iterate` (Props/NestedDict.lean): **C106.** The iteration over a nested dictionary yields exactly the leaves with the paths of their keys, after the previous keys; each leaf once, in depth first order.

## C107 The helpers of the quasi random sequences are exact and keep the uniform law

exp2 is the power of two cut at the largest number of the integer type, signed or unsigned. log2 inverts the power of two, and its ceiling is the least number of digits with which the results can be numbered. filter_tensor keeps a value exactly where the bit of the mask is set. tent_transform maps the unit interval to itself and preserves the uniform law on it, and in all coordinates on the unit cube. (for all type sizes, values, masks, bit indices, dimensions and measurable sets)

* `C107_exp2` (Props/QmcUtils.lean): **C107.** `exp2` is the power of two, cut at the largest number of the type.
* `C107_log2` (Props/QmcUtils.lean): **C107.** `log2` inverts the power of two.
* `C107_digits` (Props/QmcUtils.lean): **C107.** Up to `2 ^ 24` results the number of digits is the least one with which all results can be numbered.
* `C107_digits_deviates` (Props/QmcUtils.lean): **Deviation.** The number of results is cast to `float32`, which has 24 binary digits. For `2 ^ 24 + 1` results one digit is missing, and the last point repeats the first one, whatever the generating matrices.
* `C107_filter` (Props/QmcUtils.lean): **C107.** `filter_tensor` keeps the value exactly where the bit is set, for masks of both signs, and agrees with the filter of natural numbers.
* `C107_filter_nat` (Props/QmcUtils.lean): 
* `C107_tent` (Props/QmcUtils.lean): **C107.** The tent transform maps the unit interval to itself, is symmetric, and is the distance from the middle, turned over.
* `C107_tent_uniform` (Props/QmcUtils.lean): **C107.** The tent transform of a uniform number is uniform; so is the transform of all coordinates of a uniform point of the unit cube.

## C108 Operations on tensors of dates and periods move whole elements

concat, stack, where, expand_dims, reshape, identity, broadcast_to, transpose, squeeze, boolean_mask and indexing of a DateTensor move year, month, day and ordinal together: of tensors in which the four agree they make one in which they agree, each date of which is the date of an argument that the same operation takes from plain tensors, and they fail where it fails. Of PeriodTensors the quantities are combined, and different period types are refused, also in sums and differences. Adding periods one after the other is adding their sum, for days and weeks, and for months and years if the day is at most 28. (for all shapes, axes, permutations, masks, keys, dates and quantities)

* `C108_operations` (Props/TensorWrapper.lean): **C108.** All operations of the wrapper only move elements.
* `C108_keys` (Props/TensorWrapper.lean): **C108, keys.** A number as first key takes the slice of the first axis with this number, counted from the end if it is negative, and a slice the part from its start up to its stop; further keys apply to the further axes.
* `C108_dates` (Props/TensorWrapper.lean): **C108.** An operation that only moves elements moves the dates of date tensors, year, month, day and ordinal together: of consistent tensors it makes a consistent one, each date of which is a date of an argument, namely the same that the operation takes from plain tensors; it fails where it fails on plain tensors.
* `C108_one` (Props/TensorWrapper.lean): **C108.** The operations on one date tensor are those on lists of one.
* `C108_periods` (Props/TensorWrapper.lean): **C108.** Period tensors are combined only if they have the same type; the quantities are then combined as plain tensors.
* `C108_arithmetic` (Props/TensorWrapper.lean): **C108.** Sums and differences of period tensors of different types are refused; otherwise they are those of the quantities, with broadcasting.
* `C108_action` (Props/TensorWrapper.lean): **C108.** Adding periods one after the other is adding their sum, for days and weeks as long as no date before the first one is met, and for months and years if the day is at most 28.

## C109 Forward gradients, gradients and jacobians are the derivatives

fwd_gradient, which differentiates in reverse mode twice, gives the derivative of each value in the direction of the input gradients, by default the direction of ones; for a function of the entries one by one it gives the derivative in each entry, and applied twice the second derivative. gradients gives for each tensor the partial derivatives of the sum of the values weighted with the output gradients, value_and_gradient and make_val_and_grad_fn also the value. jacobian and value_and_jacobian give the jacobian of each row of the batch if the function acts on the rows one by one, and of a vector its jacobian. (for all functions, arguments, directions and weights, of all sizes)

* `C109_forward` (Props/Gradient.lean): **C109.** Two passes of reverse mode give the derivative in the direction of the input gradients, which is the sum of the partial derivatives by default.
* `C109_elementwise` (Props/Gradient.lean): **C109.** For a function that acts on the entries one by one, the forward gradient is its derivative in each entry, and so on for the second derivative.
* `C109_gradients` (Props/Gradient.lean): **C109.** The gradients with respect to a list of tensors are, one for each tensor, the partial derivatives of the sum of the values weighted with the output gradients.
* `C109_one` (Props/Gradient.lean): **C109.** For one tensor the gradient is that of the list of one, and `make_val_and_grad_fn` returns the value with it.
* `C109_jacobian` (Props/Gradient.lean): **C109.** For a function that acts on the rows of the batch one by one, the result is the jacobian of each row; the value is that of the function. A vector is a batch of one.
* `C109_jacobian_vector` (Props/Gradient.lean): **C109.** The jacobian of a vector is that of its row.
* `C109_jacobian_deviates` (Props/Gradient.lean): **Deviation.** The function may be any according to the documentation, but for one that mixes the rows the derivatives of all rows of the result are added: of the exchange of two rows, in which no row of the result depends on the same row of the argument, the jacobian is one.

## C110 American equity options of the pricing platform

The samples of bs_lsm_price are those of the Black-Scholes model with the volatility of the option and the rate of its discount factor, and the discounted samples have mean one. The price is the mean over the paths of the discounted payoffs under an exercise policy fitted by least squares to these payoffs, and with the default basis and without separate calibration samples it is at least the value of immediate exercise. The holder has the price times the amount, the other side the opposite. A volatility surface turns dates into times, goes through its nodes, and refuses dates and times together. Every option gets the market data of its currency and equity. Protocol buffers are put into batches by their key, with all terms in order. (for all options, Brownian motions, bases, volatility surfaces, market data and lists of protocol buffers)

* `C110_sample` (Props/PlatformAmerican.lean): **C110.** The rescaled samples are those of the Black-Scholes model with the volatility and the rate of the discount factor, for the initial price one, at the time `t T` with the Brownian motion `√T w`.
* `C110_discount` (Props/PlatformAmerican.lean): **C110.** The discount factors of the exercise times go from one to the discount factor of the expiry.
* `C110_martingale` (Props/PlatformAmerican.lean): **C110.** The discounted samples have the mean one: the model is free of arbitrage.
* `C110_price` (Props/PlatformAmerican.lean): **C110.** The price is the mean, over the paths of the Black-Scholes model, of the discounted payoffs under an exercise policy of Longstaff and Schwartz for these payoffs.
* `C110_immediate` (Props/PlatformAmerican.lean): **C110.** With the default basis and without separate calibration samples the price is at least the value of immediate exercise.
* `C110_position` (Props/PlatformAmerican.lean): **C110.** The value of a position: positive for the holder, who is marked short, and negative for the other side.
* `C110_surface` (Props/PlatformAmerican.lean): **C110.** Dates are turned into times by the day count convention, actual/365 if there is none; both or neither are refused.
* `C110_surface_nodes` (Props/PlatformAmerican.lean): **C110.** Without an interpolator the surface goes through its nodes.
* `C110_interpolator_deviates` (Props/PlatformAmerican.lean): **Deviation.** An interpolator is documented to take the strikes and the expiry times, in this order; it is called with the times first.
* `C110_market_partial` (Props/PlatformAmerican.lean): **C110.** If currencies and equities have the same order in the sorted lists of those that occur, the lookup gives every option the data of its currency and equity.
* `C110_market_fails` (Props/PlatformAmerican.lean): **Deviation.** The lists of the currencies and of the equities that occur, both sorted, are joined pair by pair. If there are more equities than currencies, as for two equities in the same currency, no price is computed.
* `C110_market_deviates` (Props/PlatformAmerican.lean): **Deviation.** Two options, on A in dollars and on B in euros, are priced with A in euros and B in dollars.
* `C110_arguments_deviates` (Props/PlatformAmerican.lean): **Deviation.** The arguments for the constructor made from protocol buffers have each currency and each equity once, and the constructor refuses them if these are not equally many, although it takes the three options themselves.
* `C110_batches` (Props/PlatformAmerican.lean): **C110.** Batches from protocol buffers: every option is in the batch of its key, and every batch has the terms of its options, in order.
* `C110_groups` (Props/PlatformAmerican.lean): **C110.** `group_protos` puts the same options together.

## C111 Bermudan swaptions in the Hull-White model

Every entry of a batch of Bermudan swaptions has, at its own exercise times, the payoff of the swap it exercises into with its own bond prices, and at the exercise times of the other entries no payoff. By simulation the price of an entry is the value of an exercise policy fitted by least squares to these payoffs. By finite differences the time grid has no repetitions, begins at zero, ends with the last exercise time and contains all exercise times; the solver visits its points one after the other from the end and takes at each the larger of the value and the payoff; the price is the notional times the value interpolated at the initial forward rate. The price does not depend on the other entries. (for all batches of swaptions of any shape, simulated paths, bases, time steps, grids and schemes)

* `C111_map` (Props/HwBermudan.lean): Payoffs are moved to the indices of their exercise times: for distinct exercise times of an entry of the batch, the result at the index of exercise `e` is the payoff of exercise `e`, and the flag is one there; everywhere else both are zero.
* `C111_bonds` (Props/HwBermudan.lean): The bond prices used for exercise `e` are those of the path at the time of exercise `e`, for the payment times of that exercise.
* `C111_payoff` (Props/HwBermudan.lean): At each of the exercise times of the batch an entry pays the positive part of its own swap, if it is one of its own exercise times, and nothing otherwise.
* `C111_price_partial` (Props/HwBermudan.lean): The price by simulation: there is an exercise policy of Longstaff and Schwartz on the exercise times of the batch, in the order in which they occur, for the payoffs of `C111_payoff` and the discount factors of the path, and the price is the notional times the mean of the discounted payoff under the policy. What is missing: the order (see `C111_order` and `C111_order_deviates`), and the discount factors begin at the first simulated time (see C56).
* `C111_order` (Props/HwBermudan.lean): 
* `C111_order_deviates` (Props/HwBermudan.lean): deviation: exercise times are visited in the order in which they occur in the batch. With a constant as the only regressor, the second swaption of the batch is worth 3/10, since the decision between times 2 and 3 is taken at time 3; alone it is worth 1/4, which is the most that can be had without looking ahead.
* `C111_fd_grid` (Props/HwBermudanFd.lean): The time grid of the finite differences, if its points are equal or more than the tolerance apart: it has no repetitions, begins at zero, ends with the last exercise time, contains all exercise times, and the recorded steps are the differences of neighbours.
* `C111_fd_visits` (Props/HwBermudanFd.lean): The solver visits the points of the grid from the last exercise time down to zero, one after the other, with the transformation at each point that is reached; the price is the notional times the value at the initial forward rate.
* `C111_indices` (Props/HwBermudanFd.lean): The flat list of indices of the finite differences: at the place of grid point `s` and item `k` are the entries `s`, `k` and `k`.
* `C111_fd_payoff` (Props/HwBermudanFd.lean): The payoffs on the grid of short rates, for a strictly increasing time grid that contains the exercise times: at an own exercise time the swap of that exercise, at the other times of the grid zero.
* `C111_fd_exercise` (Props/HwBermudanFd.lean): At every point of the time grid the values become the larger of holding on and exercising: the positive part of the own swap at the own exercise times, and zero otherwise.
* `C111_fd_final_partial` (Props/HwBermudanFd.lean): The solver begins with what exercising pays at the end of the grid, if the last of the times in the order of their occurrence is the largest. What is missing: the other orders, see `C111_fd_order_deviates`.
* `C111_fd_order_deviates` (Props/HwBermudanFd.lean): deviation: the order matters for finite differences too. For the batch of `C111_order_deviates` the solver starts at time 2 with what exercising pays at time 3.
* `C111_fd_tolerance_deviates` (Props/HwBermudanFd.lean): deviation: an exercise time that is less than the tolerance after another point of the grid is dropped, and the exercise takes place at the next point of the grid, here at 3/2 instead of 1 plus a hundred millionth.
* `C111_upper_deviates` (Props/HwBermudanFd.lean): deviation: for a payer swaption the value at the highest short rate is set, at an exercise time, to the value of the swap at the lowest short rate, without its positive part; if bond prices fall with the short rate and coupons are not negative, this is below the value of the swap there. At other times it is set to zero.
* `C111_lower` (Props/HwBermudanFd.lean): The lower boundary of a payer swaption is zero.
* `C111_receiver_deviates` (Props/HwBermudanFd.lean): deviation: receiver swaptions are priced as payer swaptions.

## C112 Correlated Hull-White factors

For several factors with constant mean reversions, piecewise constant volatilities and a piecewise constant correlation matrix, the sampled short rate of each factor at each requested time has exactly the mean and the variance of the model, whatever jumps the other factors and the correlation have; the rates of two factors at two requested times have the covariance of the model; the sampled discount curves are the bond prices given the sampled rates; the volatility function of the process is a root of the instantaneous covariance; parameters with the wrong number of factors are rejected. (for all numbers of factors, parameters, jumps, requested times, roots of the correlation matrix and uncorrelated unit draws)

* `C112_moments` (Props/VectorHullWhiteLaw.lean): the moments of each factor are those of its own volatility, whatever jumps the correlation has.
* `C112_forward` (Props/VectorHullWhiteLaw.lean): the rate added to the state is the instantaneous forward rate of the initial curve of the factor.
* `C112_paths` (Props/VectorHullWhiteLaw.lean): each requested time has its rates, which are the forward rates plus the means plus weighted draws; the squared weights add up to the variance.
* `C112_law` (Props/VectorHullWhiteLaw.lean): with unit draws every sampled rate has exactly the mean and, with ones on the diagonal of the correlation, the variance of the model.
* `C112_correlation_time` (Props/VectorHullWhiteLaw.lean): when no point of the grid occurs twice, each step uses the correlation that holds on the whole step.
* `C112_covariance_partial` (Props/VectorHullWhiteLaw.lean): C112 (partial): for factors with the same mean reversion the sampled rates at any two requested times have the covariance of the model. What is missing: different mean reversions, see `C112_covariance_deviates`, and points that occur twice in the grid, see `C112_late_correlation_deviates`.
* `C112_covariance_deviates` (Props/VectorHullWhiteLaw.lean): C112 (deviation): with different mean reversions the sampled rates of correlated factors are too strongly correlated, because the correlation is put on the draws of the step and not on the Brownian motions.
* `C112_late_correlation_deviates` (Props/VectorHullWhiteLaw.lean): C112 (deviation): when two volatilities jump at the same time this time occurs twice in the grid, the smallest step is zero and the correlation after a jump is used one step late.
* `C112_curves` (Props/VectorHullWhiteLaw.lean): each sampled curve value is the bond price of the model given the sampled rate.
* `C112_volatility` (Props/VectorHullWhiteLaw.lean): the volatility function of the process is a root of the covariance of the rates.
* `C112_inputs` (Props/VectorHullWhiteLaw.lean): which parameters are accepted, and which are sampled by Euler steps.
* `C112_batch_mean_reversion_deviates` (Props/VectorHullWhiteLaw.lean): C112 (deviation): a mean reversion that never jumps is sampled exactly, unless it is given as a batch of piecewise constant functions.

## C113 Draws for simulations and updates along an axis

The draws for a simulation have the shape steps, batch, paths, draws. Pseudo random draws are those of the generator, each used once. With a sequence of low discrepancy every path of every batch has a point of its own whose coordinates are the draws of all its steps. With antithetic paths the second half of the paths has the negative draws of the first half in every step and batch; an odd number of paths is refused. The Milstein scheme uses its increments and its three sets of auxiliary draws without overlap. An update along an axis replaces the entries with the given index, and only those, and keeps the shape of the tensor. (for all numbers of steps, paths and draws, batch shapes, generators, random types, tensors, axes and indices)

* `C113_pseudo` (Props/McDraws.lean): the pseudo random draw of a path at a step is the draw of the generator for this path with the number of the step and the draw.
* `C113_quasi` (Props/McDraws.lean): with a sequence of low discrepancy every path of every batch has a point of its own, whose coordinates are the draws of its steps.
* `C113_antithetic` (Props/McDraws.lean): antithetic paths: the second half of the paths has the negative draws of the first half, in every step and every batch.
* `C113_rejects` (Props/McDraws.lean): an odd number of antithetic paths and stateless draws without a seed are refused.
* `C113_milstein` (Props/McDraws.lean): the draws of the Milstein scheme are used once each: the increments and the three sets of auxiliary draws are all draws of the step, and different ones have different numbers.
* `C113_update` (Props/McDraws.lean): an update along an axis with more than one entry replaces the entries with the given index and no others; an index that does not exist replaces none.
* `C113_update_single` (Props/McDraws.lean): along an axis with a single entry the new tensor is returned, whether or not an update was asked for.
* `C113_update_shape_deviates` (Props/McDraws.lean): C113 (deviation): the result is documented to have the shape of the tensor. Along an axis with a single entry a new tensor that has to be broadcast is returned with its own shape.

## C114 Batches of American basket puts by regression Monte Carlo

A batch of options is priced at once and every option gets the price that the method gives for it alone: with its strike, its paths (own paths or paths shared by all options), its discount factors (none, one for each exercise, or one for each sample, option and exercise) and a regression on all monomials of its centred coordinates. For basket puts each price is the mean over the pricing samples of the discounted payoff under an exercise policy of Longstaff and Schwartz of this option, and it lies between zero and the strike when discount factors are in (0, 1] and the basket is never negative. (for all batch sizes, numbers of samples, times, dimensions and degrees, all strikes, paths and discount factors of compatible shapes)

* `C114_payoff` (Props/LsmBatch.lean): payoff: the put valuer gives the payoff of the basket put of every option on every sample.
* `C114_basis` (Props/LsmBatch.lean): basis: for every option, all monomials in its centred coordinates with exponents up to the degree, each exactly once (`C57_basis_powers`).
* `C114_alone` (Props/LsmBatch.lean): any payoff and basis of fitting shapes: every option of the batch gets the price that the method gives for it alone.
* `C114_prices` (Props/LsmBatch.lean): each price of a batch of American basket puts is the mean over the pricing samples of the discounted payoff of this option under an exercise policy of Longstaff and Schwartz for this option: its strike, its paths, its discount factors, a regression on the monomials in its coordinates.
* `C114_bounds` (Props/LsmBatch.lean): a price lies between zero and the strike, if discount factors lie in (0, 1], the mean of the assets is never negative and the strike is not.
* `C114_rank_two_fails` (Props/LsmBatch.lean): deviation: the code has a branch for discount factors of rank 2, but it always fails.
* `C114_scalar_fails` (Props/LsmBatch.lean): a scalar discount factor is accepted for a single exercise only.

## C115 Finite differences

A shift of an array moves every entry by the offsets and fills the rest with NaN. Central differences are the quotients of the neighbours inside the grid and NaN at its ends, and exact for polynomials: of degree two along the axis for first derivatives, three for second derivatives, two in each axis for mixed derivatives. The derivatives up to order two are listed once each. The Taylor approximation gives value and derivatives up to order two of every quadratic function exactly whenever its equations can be solved, also with nearest neighbours on a grid without structure that has enough points. The uniform grid covers the unit cube, and grids of more than ten million values are refused. The function of Rosenbrock has its only zero at the point of ones and is positive elsewhere. (for all dimensions, shapes, offsets, functions, steps, stencils, targets and points)

* `C115_shift` (Props/FiniteDifference.lean): `shift`: the entry at an index is the one at the index less the offsets, if there is one, and NaN otherwise.
* `C115_shift_lengths` (Props/FiniteDifference.lean): The two slices of every axis have the same length, so that the assignment is possible.
* `C115_central_first` (Props/FiniteDifference.lean): first derivatives: at inner points of the axis the difference of the neighbours, NaN at the ends.
* `C115_central_second` (Props/FiniteDifference.lean): second derivatives on one axis.
* `C115_central_mixed` (Props/FiniteDifference.lean): mixed derivatives at inner points.
* `C115_mixed_boundary` (Props/FiniteDifference.lean): mixed derivatives at the ends of one of the two axes.
* `C115_central_other` (Props/FiniteDifference.lean): no other derivatives are offered.
* `C115_central_exact` (Props/FiniteDifference.lean): exact for functions that are polynomials of degree two (first derivative) or three (second derivative) along the axis.
* `C115_mixed_exact` (Props/FiniteDifference.lean): mixed derivatives are exact for polynomials of degree two in each of the two coordinates.
* `C115_names` (Props/FiniteDifference.lean): the derivatives up to order two, each exactly once, as many as the triangular number.
* `C115_taylor` (Props/FiniteDifference.lean): the Taylor approximation gives the value and the derivatives up to order two of every quadratic function exactly, from any stencil for which the equations can be solved; otherwise it fails.
* `C115_nearest` (Props/FiniteDifference.lean): on a grid without structure the derivatives of a quadratic function are exact at every point with a solvable choice of neighbours.
* `C115_nearest_fails` (Props/FiniteDifference.lean): deviation: with exactly as many points as unknowns the search for neighbours fails, although the equations of these points can be solved.
* `C115_grid` (Props/FiniteDifference.lean): the grid has its first point at zero and its last at one on each axis, and neighbours at a distance of the step. A single point fails.
* `C115_size_deviates` (Props/FiniteDifference.lean): deviation: the number of values is computed in 64 bits, so that the limit of ten million does not stop a grid with 1000 points on each of 22 axes.
* `C115_size_partial` (Props/FiniteDifference.lean): the limit works as long as the number of values fits into 64 bits.
* `C115_rosenbrock` (Props/FiniteDifference.lean): the test function of Rosenbrock is never negative, and zero exactly at the point with all coordinates one (in dimension two or more).

## C116 Convergence of the finite difference solver

Let V be a smooth solution of V_t + a V_xx + b V_x + c V = 0 and let its values be prescribed at the end of the time interval and at the boundaries. The solver with a weighted scheme under the stability conditions succeeds, and its values differ from V at all grid points by at most the error of the given values, plus the error of the boundary values in the middle of the steps, plus the length of the time interval times the truncation error. With the implicit scheme the error is at most a constant times dt + h^2 on uniform grids without a condition on the time step, with Crank-Nicolson a constant times dt^2 + h^2; the constant does not depend on the grid or the number of steps. On any grids, uniform or not, whose mesh size tends to zero the values of the implicit scheme converge to V. (for all smooth solutions, coefficients, boundaries, grids, numbers of steps, time steps and weights)

* `C116_step` (Props/FdConvergence.lean): one step: the error grows by at most the length of the step times the truncation error.
* `C116_error` (Props/FdConvergence.lean): with `n` steps the solver succeeds, and the error at the end time is at most the error of the given values plus that of the boundary conditions in the middle of the steps plus the truncation error times the length of the time interval.
* `C116_error_dt` (Props/FdConvergence.lean): C116 with a given time step, the last step being shorter if necessary.
* `C116_implicit` (Props/FdConvergence.lean): order of the implicit scheme: the error is at most `K (dt + h^2 + sigma)` with the same `K` for all grids and numbers of steps; there is no condition on the time step.
* `C116_crank_nicolson` (Props/FdConvergence.lean): order of the Crank-Nicolson scheme: under the stability conditions the error is at most `K (dt^2 + h^2 + sigma)`.
* `C116_converges` (Props/FdConvergence.lean): convergence: on any grids whose mesh size tends to zero, with any number of steps tending to infinity, the values of the implicit scheme converge uniformly to the solution.

## C117 Binomial tree prices converge to Black-Scholes prices

As the number of steps grows, the law of the share price in the tree of option_price_binomial converges weakly to the lognormal law behind option_price. The price of a European call or put in the tree therefore converges to the value option_price returns for the same volatility, strike, expiry, spot, rate and dividend rate. The same limit holds for an American call without dividends at a rate that is not negative, and every American price in the tree is eventually at least the Black-Scholes price less any margin. (for all positive volatilities, strikes, expiries and spots, all rates and dividend rates, calls and puts)

* `C117_law` (Props/CrrLimit.lean): as the number of steps grows, the expectation that `C30_european_expectation` finds in the tree converges, for any payoff that is a bounded continuous function of the log price, to the expectation under the lognormal law of `C31_expectation`.
* `C117_put` (Props/CrrLimit.lean): the price of a European put in the tree converges to its Black-Scholes price.
* `C117_european` (Props/CrrLimit.lean): the price of a European option in the tree converges to its Black-Scholes price as the number of steps grows.
* `C117_american_call` (Props/CrrLimit.lean): the price of an American call without dividends, at a rate that is not negative, converges to the Black-Scholes price of the European call.
* `C117_american_ge` (Props/CrrLimit.lean): any other American option is eventually, up to any margin, worth at least its Black-Scholes price in the tree.

## C118 Monte Carlo prices from simulated paths converge to Black-Scholes prices

Let paths of the univariate geometric Brownian motion be computed by sample_paths from independent standard normal draws, with constant or piecewise constant drift and volatility. The average over the paths of any integrable function of the value at a requested time converges almost surely to its expectation under the lognormal law, and for bounded functions the mean square error of n paths is at most the squared bound divided by n. In particular the average of the discounted payoffs of a European option converges almost surely to the value option_price returns for the forward price and the root mean square volatility; with constant parameters, for the spot, the rates and the volatility. (for all probability spaces with such draws, all parameters, time grids, strikes, discount factors, calls and puts)

* `C118_expectation` (Props/MonteCarloLimit.lean): the expectation of a function of the value at a time, for a path computed from independent standard normal draws, is the expectation under the lognormal law with the forward value and the integrated variance. The function is integrable under the one law if it is under the other.
* `C118_average` (Props/MonteCarloLimit.lean): for independent draws the average over the paths of any function of the value at a time converges almost surely to the expectation under the lognormal law, if this exists.
* `C118_error` (Props/MonteCarloLimit.lean): the mean square error of the average over `n` paths of a bounded function is at most the squared bound divided by `n`.
* `C118_european` (Props/MonteCarloLimit.lean): the average of the discounted payoffs of a European option over the paths converges almost surely to the price that `option_price` returns for the forward price and the root mean square volatility of the process.
* `C118_black_scholes` (Props/MonteCarloLimit.lean): with constant parameters the limit is the price that `option_price` returns for the spot, the rates and the volatility.

## C119 Quadrature errors for smooth functions and convergence for continuous functions

For every function with a fourth derivative bounded by M, simpson with n points differs from the integral over [a, b] by at most M (b-a)^5 / (180 (n-1)^4); for every continuous function its results converge to the integral. For every supported number of points n the Gauss-Legendre rule differs from the integral of a function with 2n derivatives, the last bounded by M, by at most (b-a) (2 + 10^-24) M ((b-a)/2)^(2n) / (2n)! plus the accuracy of the table times the Taylor coefficients at the middle; the Gauss-Kronrod rules satisfy the same with 3m+2 derivatives (n = 2m+1) and so does the adaptive rule if all intervals of some level are accepted. Prices of the Heston model with the rule of Simpson converge to the discounted expectation of the payoff up to strike/pi*(1/upper + lower*(1+E|X-k|)) times the discount factor. (for all smooth or continuous functions, all limits, all admissible numbers of points)

* `C119_simpson` (Props/QuadratureError.lean): the classical error of the composite rule of Simpson with the best constant, for functions with a bounded fourth derivative.
* `C119_simpson_limit` (Props/QuadratureError.lean): the results of the rule of Simpson converge to the integral of every continuous function.
* `C119_legendre` (Props/QuadratureError.lean): the error of the Gauss-Legendre rules for functions with `2 n` derivatives: the remainder of the Taylor formula, and the accuracy of the decimals in the table times the Taylor coefficients.
* `C119_kronrod` (Props/QuadratureError.lean): the same for the Gauss-Kronrod rules.
* `C119_adaptive` (Props/QuadratureError.lean): adaptive integration of a function with bounded derivatives: if all intervals of some level are accepted, the result is the integral up to the error of the rule on the whole interval.
* `C119_heston` (Props/QuadratureError.lean): prices in the model of Heston converge: with many points of the rule of Simpson the price is the discounted expectation of the payoff up to the part of the integral beyond the limits, which is small for a small lower and a large upper limit.

## C120 Sobol points form nets in several dimensions and integrate continuous functions

If the table of direction numbers is admissible and the polynomials of the first dim coordinates (x for the first) are pairwise coprime over the field with two elements, then every aligned block of 2^m consecutive points of sobol_sample, plain, digitally shifted or scrambled, and of the older sample in sobol_impl, is a (t, m, dim)-net in base 2 with t = the sum of (degree - 1): each elementary box of volume 2^(t-m) contains exactly 2^t of the points. The table load_data makes from well formed lines is admissible with the stated degrees. Averages of a function over the first 2^m points differ from its integral over the unit cube by at most L 2^-floor((m-t)/dim) if the function changes by at most L d when no coordinate changes by more than d, and tend to the integral for every continuous function. (for all tables with the property, all dimensions, all blocks of points, all elementary boxes, shifts and scrambling matrices, all continuous functions)

* `C120_sobol_sample` (Props/SobolNet.lean): C120 (`qmc/sobol.py`): if the polynomials of the coordinates are pairwise coprime, every aligned block of `2^m` points of `sobol_sample`, plain or with a digital shift, is a `(t, m, dim)`-net in base 2, where `t` is the sum of the degrees minus one.
* `C120_scrambled` (Props/SobolNet.lean): with scrambling matrices as drawn by `random_scrambling_matrices` and a digital shift the blocks stay nets.
* `C120_sobol_impl` (Props/SobolNet.lean): C120 (`random_ops/sobol/sobol_impl.py`): the same for the blocks of indices covered by `sample` with `skip`.
* `C120_load` (Props/SobolNet.lean): C120 (`load_data`): the table made from well formed lines is admissible, the degree of the polynomial of a line is its number `s`, and no polynomial has the factor `x`, so all are coprime to that of the first coordinate.
* `C120_error` (Props/SobolNet.lean): the error of the average of a function over the first `2^m` points, when the function changes by at most `L δ` if no coordinate changes by more than `δ`.
* `C120_convergence` (Props/SobolNet.lean): averages of a function that is continuous on the closed cube over the first `2^m` Sobol points tend to its integral.
* `C120_first_coordinates` (Props/SobolNet.lean): the polynomials of the first 31 coordinates of the data file are pairwise coprime.

## C121 Halton points fill boxes in several dimensions and integrate continuous functions

For pairwise coprime bases b_c and any numbers of digits d_c among those used, every run of the product of b_c^(d_c) consecutive Halton points, plain or with the digit permutations and the correction of the randomised version, has exactly one point in each box with sides b_c^(-d_c). Averages of a function bounded by B over the first N points differ from its integral over the unit cube by at most the oscillation of the function over these boxes plus 2 B (product of b_c^(d_c)) / N, and tend to the integral as N grows for every continuous function. (for all dimensions, coprime bases, digit permutations, corrections, runs of points, boxes and continuous functions)

* `C121_boxes` (Props/HaltonNet.lean): C121 (`random_ops/halton/halton_impl.py`): for coprime bases every run of `Π b_c^(d_c)` consecutive points has exactly one point in each box with sides `b_c^(-d_c)`, plain or randomised, as long as the `d_c` digits are among those used.
* `C121_error` (Props/HaltonNet.lean): the average of a bounded function over the first `N` points differs from its integral by at most its oscillation over boxes with sides `b_c^(-d_c)` plus `2 B Π b_c^(d_c) / N`.
* `C121_convergence` (Props/HaltonNet.lean): averages of a function that is continuous on the closed cube over the first `N` Halton points tend to its integral, when the numbers of digits suffice for the indices; the randomisation may differ for every `N`.

## C122 Errors of interpolation for smooth functions and smallest curvature of splines

Linear interpolation of a function with second derivative at most M on a grid of mesh h is off by at most M h^2/8 and converges uniformly for continuous functions. The default cubic spline of the function is off by at most M h^2/2 on any grid, its derivative by 2 M h. With the first derivatives of the function at the ends, or if its second derivative is zero there, and fourth derivative at most M, spline, derivative and second derivative are off by at most 7/64 M h^4, 7/16 M h^3 and 7/8 M h^2. Among all twice continuously differentiable functions through the data the spline has the smallest integral of the squared second derivative and is the only one. In two dimensions the errors of the directions add up. (for all functions, strictly increasing grids, query points between the ends and slopes of extrapolation)

* `C122_linear` (Props/InterpolationError.lean): linear interpolation of a function with second derivative at most `M` has an error of at most `M h² / 8` between the first and the last knot, where `h` is the largest distance of neighbouring knots.
* `C122_linear_convergence` (Props/InterpolationError.lean): linear interpolation of a continuous function converges uniformly as the grid gets finer.
* `C122_natural` (Props/InterpolationError.lean): the default (natural) spline of a function with second derivative at most `M`, on any grid: the error is at most `M h² / 2`, that of the derivative at most `2 M h`, and the second derivative stays below `3 M`.
* `C122_natural_fourth` (Props/InterpolationError.lean): if the fourth derivative is at most `M` and the second one is zero at both ends, as that of the natural spline, then the error is of fourth order.
* `C122_first_derivative_partial` (Props/InterpolationError.lean): prescribed first derivatives equal to those of the function: second order for bounded second derivatives, fourth order for bounded fourth derivatives. As in C38, flat segments must not be followed by others.
* `C122_smallest_curvature` (Props/InterpolationError.lean): of all twice continuously differentiable functions through the data the default spline has the smallest integral of the squared second derivative, and it is the only one.
* `C122_smallest_curvature_first_derivative_partial` (Props/InterpolationError.lean): with prescribed first derivatives the spline has the smallest curvature of all functions with these derivatives at the ends. As in C38, flat segments must not be followed by others.
* `C122_two_dimensions` (Props/InterpolationError.lean): interpolation in two dimensions, splines in `y` and lines in `x`: the errors of the two directions add up. `D x` are `f x` and its derivatives in `y`, `E` is `f · y` and its derivatives in `x`.

## C123 Stability and convergence of the Douglas scheme in several dimensions

For V_t + sum_d a_d V_dd = 0 with constant non-negative coefficients and prescribed boundary values, solve_backward with the Douglas scheme and an implicit weight of at least one half never increases the mean square difference of two solutions, whatever the grid and the steps. Its mean square error for a smooth solution is at most that of the values at the start plus (s - e) times a truncation error, of the first order in the time step and of the second order in the grid; if the boundary values do not change, the first order term has the factor theta - 1/2, so the default scheme is of the second order in both. (for all numbers of dimensions, grids, numbers and sizes of time steps, weights from one half to one, values at the start and smooth solutions)

* `C123_stable_step` (Props/AdiConvergence.lean): stability of a step: with an implicit weight of at least one half the mean square of the difference of two results is at most that of the values from which they are computed, for all time steps and all grids, in any number of dimensions.
* `C123_stable` (Props/AdiConvergence.lean): stability of `solve_backward` with the Douglas scheme: with an implicit weight of at least one half the mean square of the difference of two solutions is never larger than that of their values at the start, for any number of dimensions, any grid and any number of steps.
* `C123_stable_dt` (Props/AdiConvergence.lean): C123 with a given time step.
* `C123_step` (Props/AdiConvergence.lean): one step: the error grows by at most the length of the step times the truncation error.
* `C123_step_stationary` (Props/AdiConvergence.lean): one step with boundary values that do not change.
* `C123_error` (Props/AdiConvergence.lean): error of `solve_backward` with the Douglas scheme: the mean square error at the end is at most that of the values at the start plus the truncation error, which is of the first order in the time step and of the second order in the grid.
* `C123_error_dt` (Props/AdiConvergence.lean): 
* `C123_error_stationary` (Props/AdiConvergence.lean): C123 with boundary values that do not change: for the weight one half of the default scheme the error is of the second order in the time step as well.
* `C123_error_stationary_dt` (Props/AdiConvergence.lean): 

## C124 The checks made with validate_args accept exactly the documented arguments

With validate_args the samplers of Sobol, Halton, lattice and digital net points, the interpolators, Brent's method, the Euler scheme, the SABR and vector Hull-White models and the implied volatilities accept exactly the arguments their documentation names: positive dimensions and numbers, indices in range, equal lengths and shapes, sorted points, brackets with a change of sign, times that grow by more than the tolerance, as many draws as steps, and prices within the arbitrage bounds, for which exactly one volatility exists. Accepted arguments give the same result as without the checks. (for all arguments)

* `C124_unchecked` (Props/Validation.lean): no flag, no checks: without `validate_args` the checked functions are the functions.
* `C124_sobol_partial` (Props/Validation.lean): the sampler of Sobol points, what is missing: the checks accept the documented arguments except that `skip` must not be zero; accepted arguments give the points.
* `C124_skip_deviates` (Props/Validation.lean): C124 fails for the default value of `skip`: with `validate_args` the sampler of Sobol points rejects it with a message that asks for a non-negative number.
* `C124_halton` (Props/Validation.lean): the sampler of Halton points: exactly one of the number and the indices must be given, the indices must be below the largest whole number that the type represents exactly, and the dimension from 1 to 1000.
* `C124_matrices` (Props/Validation.lean): the shift vectors and the generating matrices.
* `C124_lattice_partial` (Props/Validation.lean): lattice rules, what is missing: the lower bound of the dimension.
* `C124_lattice_deviates` (Props/Validation.lean): C124 fails for lattice rules with a dimension that is not positive: the checks accept it.
* `C124_digital_net_partial` (Props/Validation.lean): digital nets, what is missing: the lower bound of the indices.
* `C124_indices_deviates` (Props/Validation.lean): C124 fails for digital nets with negative indices: the checks accept them.
* `C124_linear` (Props/Validation.lean): linear interpolation: the checks accept non-decreasing points with equally many values, and then return the interpolated value.
* `C124_sorted` (Props/Validation.lean): cubic splines and times of the SABR model.
* `C124_euler` (Props/Validation.lean): the Euler scheme: times and grid grow by more than the tolerance, and there are as many draws as steps.
* `C124_draws` (Props/Validation.lean): draws of the vector Hull-White model.
* `C124_brent` (Props/Validation.lean): Brent's method: a change of sign between the brackets, positive tolerances of the root, other numbers not negative.
* `C124_monotone_convex_partial` (Props/Validation.lean): monotone convex interpolation, what is missing: the upper bound of the times and the order of the interval times.
* `C124_times_deviates` (Props/Validation.lean): C124 fails for monotone convex interpolation: the documentation says that the times are checked to be bounded by the end points of the intervals, but a time after the last of them is accepted.
* `C124_implied_vol` (Props/Validation.lean): implied volatilities: the checks accept a price exactly if it keeps the distance `1e-8` from the arbitrage bounds.
* `C124_implied_vol_unique` (Props/Validation.lean): implied volatilities: if the approximation accepts the arguments and expiry is positive then exactly one volatility gives the price.
* `C124_expiry_deviates` (Props/Validation.lean): C124 fails for implied volatilities of options that expire now: the check named "Expiries positive" accepts the expiry zero, but no volatility gives the price.
* `C124_newton_deviates` (Props/Validation.lean): C124 fails for Newton's method with a given starting point, or in the normal model: `validate_args` is accepted and checks nothing.
* `C124_newton` (Props/Validation.lean): Newton's method in the lognormal model without a starting point: rejected exactly if the approximation rejects.
* `C124_fair_strike` (Props/Validation.lean): fair strikes of variance swaps: with equally many volatilities as strikes the general function is the one of C34.
* `C124_lengths_deviates` (Props/Validation.lean): C124 fails for the lengths of strikes and volatilities of a variance swap, which the code compares without asserting the result: with two volatilities for any number of strikes the first is silently used for all.

## C125 Averages over paths drawn from Sobol or Halton points converge to the expected value

For paths whose normal draws are the normal quantiles of consecutive points of the Sobol sequence (wherever the run of points starts) or of the Halton sequence, the averages over N paths of a bounded continuous function of the draws tend to its expectation for independent standard normal draws, uniformly in the number of skipped points. The points of the Sobol sequence after the first and of the Halton sequence without randomization lie strictly inside the cube, and when the number of skipped points is at most a multiple of N only few of them are near its boundary; for these the averages converge also for continuous functions with exponential growth. So the average of a function with polynomial growth of the value of a geometric Brownian motion tends to its expectation under the lognormal law, and the average discounted payoff of a European call or put tends to the price returned by option_price. (for all tables of direction numbers with coprime polynomials, all dimensions, all bases, all skips, all piecewise constant parameters, all times, all strikes and all continuous payoffs with polynomial growth)

* `C125_sobol` (Props/QuasiMonteCarlo.lean): runs of points of the Sobol sequence are equidistributed, wherever they start.
* `C125_sobol_boundary` (Props/QuasiMonteCarlo.lean): the points lie strictly inside the cube and not too many of them are near the boundary, if not too many are skipped.
* `C125_sobol_impl` (Props/QuasiMonteCarlo.lean): the points that `random_ops/sobol/sobol_impl.py` returns are such a run, as long as their indices have at most 32 binary digits.
* `C125_halton` (Props/QuasiMonteCarlo.lean): runs of points of the Halton sequence are equidistributed, wherever they start, without or with randomization.
* `C125_halton_boundary` (Props/QuasiMonteCarlo.lean): without randomization the points lie strictly inside the cube and not too many of them are near the boundary, if not too many are skipped.
* `C125_normal_bounded` (Props/QuasiMonteCarlo.lean): C125 (`_mvnormal_quasi`): the averages of a bounded continuous function of the normal quantiles of equidistributed points tend to its expectation under the law of independent standard normal numbers.
* `C125_normal` (Props/QuasiMonteCarlo.lean): the same for functions with exponential growth, if not too many points are near the boundary.
* `C125_draws` (Props/QuasiMonteCarlo.lean): C125 (`generate_mc_normal_draws`): for the Sobol type the averages over the paths of a function of all draws of a path tend to the expectation for independent standard normal draws. The hypothesis on the source says that its points are those of the Sobol sequence.
* `C125_gbm` (Props/QuasiMonteCarlo.lean): averages over the paths of geometric Brownian motion computed from equidistributed points of a continuous function of the value at a time, with polynomial growth, tend to its expectation under the lognormal law.
* `C125_european` (Props/QuasiMonteCarlo.lean): the average of the discounted payoffs of a European option over paths from equidistributed points tends to the price that `option_price` returns for the forward price and the root mean square volatility.
* `C125_black_scholes` (Props/QuasiMonteCarlo.lean): with constant parameters the limit is the price that `option_price` returns for the spot, the rates and the volatility.
* `C125_randomized_deviates` (Props/QuasiMonteCarlo.lean): a run of the Halton sequence that includes the first point of a randomization may touch the boundary: with the shuffle that exchanges the digits 0 and 1 and no correction the first point is zero, for which there is no normal quantile.

## C126 Brent's root search needs at most quadratically many iterations in those of bisection

If the bracket is at most 2^L times the absolute root tolerance, the relative root tolerance is below 1 and the values at the ends of the bracket do not have the same strict sign, then brentq, when allowed more than (L + 1)(L + 3) iterations, makes at most that many and stops because the value is within the function tolerance or because the sign changes within the root tolerance of the result; for a continuous function the result is then within the tolerance of a root inside the bracket. A search stopped earlier still has a sign change in the original bracket and is not called converged unless the value is within the function tolerance. (for all functions, all brackets with a sign change, all tolerances and all batches)

* `C126_iterations` (Props/BrentBound.lean): if the bracket is at most `2 ^ L` times the absolute tolerance (so that bisection needs about `L` steps), Brent's search needs at most `(L + 1) * (L + 3)` evaluations inside the bracket, for every function: then it has found a root within the function tolerance or a sign change within the root tolerance.
* `C126_root` (Props/BrentBound.lean): for a continuous function the result is then a root within the function tolerance, or within the root tolerance of a root in the bracket.
* `C126_early` (Props/BrentBound.lean): a search with too few iterations is not called converged for that reason: the flag only tells whether the value is within the function tolerance. Each iteration allowed keeps a bracket, so stopping early is never a wrong answer.

## C127 Newton's root finder converges near simple roots and from the right of rising roots

If on an interval of radius rho around a root the slope is at least m in absolute value, the second derivative is at most M and M rho <= 2 m q with q < 1, then from every starting point in the interval all Newton iterates are defined, stay in it and satisfy |x_k - r| <= rho q^(2^k - 1); root_finder reports convergence without failure after j + 1 iterations if 2 rho q^(2^j - 1) is below the tolerance, and the distance of the result to the root is then below the tolerance divided by 1 - q. If the function rises from the root with nondecreasing slope, the iterates from every point to the right decrease, never pass the root and come closer by a fixed factor, so the finder converges as well; from the left the first step leads to the right. Without such hypotheses the finder can go back and forth for ever, and then reports neither convergence nor failure. (for all functions, roots, starting points, tolerances, numbers of iterations and batches)

* `C127_quadratic` (Props/NewtonConvergence.lean): near a simple root the Newton iterates are defined and the number of correct digits doubles in each step.
* `C127_finds` (Props/NewtonConvergence.lean): near a simple root the finder reports convergence after `j + 1` iterations if `2 * ρ * q ^ (2 ^ j - 1)` is below the tolerance, and then the result is near the root.
* `C127_rising` (Props/NewtonConvergence.lean): from the right of a root from which the function rises with nondecreasing slope, however far away, the iterates decrease, never pass the root and come closer at least by a fixed factor.
* `C127_rising_finds` (Props/NewtonConvergence.lean): so from the right of such a root the finder reports convergence after `j + 1` iterations if `(x0 - r) * (1 - f' r / f' b) ^ j` is below the tolerance, and then the result is near the root and not left of it.
* `C127_first_step` (Props/NewtonConvergence.lean): from the left of the root of a function with nondecreasing positive slope the first step leads to the right of it, and `C127_rising` applies to the remaining ones.
* `C127_cycle` (Props/NewtonConvergence.lean): without such hypotheses there is no guarantee: for `x ^ 3 - 2 * x + 2` from `0` the finder goes back and forth between `0` and `1`, and reports neither convergence nor failure, however many iterations are allowed.

## C128 The fair strike of a variance swap tends to the value of the log contract under every law of the spot

For every law of the spot at expiry with the right forward and integrable logarithm, if the volatilities passed to fair_strike are those implied by the law, the fair strike is 2/T (log F - E log S_T) plus the mean error of the replication. With strikes starting at the reference and neighbours satisfying (k' - k)^2 <= eta k k', the distance is at most 2 eta / T plus the value of the log contract beyond the last strikes. As the strikes become fine and reach from zero to infinity the fair strike converges to 2/T (log F - E log S_T); with one volatility sigma for all options this limit is sigma^2. Such implied volatilities exist for every law and all positive strikes, the same for calls and puts. (for all probability laws on the positive reals, all strike grids and sequences of grids, all rates, spots, expiries)

* `C128_value` (Props/VarianceReplication.lean): whatever the law of the spot at expiry, if the volatilities are those implied by the law then the fair strike is `2 / T` times the gap between the logarithm of the forward and the mean logarithm of the spot, plus the mean of the error of the replication of the log contract.
* `C128_error` (Props/VarianceReplication.lean): the distance of the fair strike from the value of the log contract is at most `2 / T` times the fineness of the strikes plus the value of the log contract beyond the last strikes.
* `C128_converges` (Props/VarianceReplication.lean): as the strikes become fine and reach from zero to infinity, the fair strike tends to the value of the log contract, whatever the law of the spot.
* `C128_quotes_exist` (Props/VarianceReplication.lean): under every law there are implied volatilities for all strikes, and a call and a put have the same one.
* `C128_flat` (Props/VarianceReplication.lean): with one volatility for all options, the fair strike tends to its square.
* `C128_geometric` (Props/VarianceReplication.lean): Strikes in geometric progression satisfy the hypotheses of the limit theorems.

## C129 The replication of coupons of constant maturity swaps converges to the convexity adjustment

With growing numbers of points the replication of a coupon tends, in the normal and the lognormal model, to the rate plus the mean of _f_atm continued by tangents outside of the strikes used; the bounds of the strikes matter only through rates beyond them; without bounds the result is the rate plus the covariance of rate and weight over the weight at the rate, which is the mean of the rate in the measure of the payment if the weight is a martingale; the options of all strikes give this for every law on positive rates with second moment if the slope of _f_atm grows at most linearly. The weight of the code satisfies the hypotheses. (for all weights twice differentiable on the positive rates, all volatilities, expiries, rates from 1e-6, numbers of points and laws)

* `C129_points` (Props/CmsReplication.lean): with more and more points the replication tends to the mean of `_f_atm`, continued by tangents outside of the strikes used.
* `C129_covariance` (Props/CmsReplication.lean): without bounds for the strikes this mean is the convexity adjustment: the covariance of the rate with the weight over the weight at the rate, and if the weight has mean `fs R` the rate plus the adjustment is the mean of the rate in the measure of the payment.
* `C129_bounds` (Props/CmsReplication.lean): the bounds for the strikes matter only for rates beyond them.
* `C129_all_strikes` (Props/CmsReplication.lean): for every law on the positive rates with second moment, if the slope of `_f_atm` grows at most linearly then the options give the convexity adjustment in the limit of all strikes.
* `C129_weight` (Props/CmsReplication.lean): the weight of the code satisfies the hypotheses of these theorems.
* `C129_low_strikes_deviates` (Props/CmsReplication.lean): in the normal model rates below the least strike are possible; the replication leaves out the options for them, so that with an affine weight that rises the rate is too small even with many points.

## C130 All accepted formats of dates are converted to the same dates, and random dates are uniform

convert_to_date_tensor turns a sequence of dates, a sequence of tuples, an array of days since 1970, a tensor of ordinals and three tensors of years, months and days into the same dates, accepts tuples and ordinals exactly if they denote dates of year 1 or later, and raises ValueError otherwise. random_dates returns dates from the start (included) to the end (excluded), each with the same probability. subtract_period_and_roll rolls the date minus the period. (for all lists of dates, tuples, ordinals and numbers, all start and end dates, all uniform numbers, both calendars)

* `C130_formats` (Props/DateInputs.lean): a sequence of dates, a sequence of tuples, an array of days since 1970, a tensor of ordinals and three tensors of years, months and days are all converted to the same dates.
* `C130_single` (Props/DateInputs.lean): a single date.
* `C130_tuples` (Props/DateInputs.lean): a sequence of tuples is accepted if and only if each begins with year, month and day of a date of year 1 or later.
* `C130_ordinals` (Props/DateInputs.lean): a tensor of ordinals of any shape is accepted if and only if all are positive, and keeps its shape.
* `C130_numbers` (Props/DateInputs.lean): a sequence of numbers is read as ordinals, except that three numbers are read as year, month and day.
* `C130_failure_deviates` (Props/DateInputs.lean): Deviation: when nothing fits the documented `ValueError` is not raised; the handler itself fails with `TypeError`.
* `C130_random` (Props/DateInputs.lean): the random date lies between the start (included) and the end (excluded), and is the start plus `k` days exactly if the uniform number lies in the `k`-th of equally long pieces of the unit interval.
* `C130_random_uniform` (Props/DateInputs.lean): with a uniform number the random date is each of the dates with the same probability.
* `C130_random_dates` (Props/DateInputs.lean): `size` samples of a vector of dates form an array with `size` in front of its shape, all of them dates between start and end.
* `C130_random_reversed` (Props/DateInputs.lean): Deviation: with start and end equal the excluded end is returned, and with the end before the start dates after the end up to the start.
* `C130_subtract` (Props/DateInputs.lean): subtracting a period and rolling is rolling the date minus the period, with both calendars.
* `C130_subtract_months` (Props/DateInputs.lean): subtracting months with FOLLOWING gives the first business day on or after the day with the same number, or the last one of the month, that many months before.

## C131 Simulated Hull-White prices of bond options, caps and floors converge to the analytic prices

With use_analytic_pricing=False, for independent standard normal draws: the sampled short rates at all requested times have exactly the joint normal law of the Hull-White model (means and all covariances between times). For every time step the simulated price of each bond option converges almost surely as the number of paths grows, and as the time step goes to zero these limits converge to the price of the analytic formula, for calls and puts and for any set of options in one batch; the same holds for caps and floors. (for all mean reversions, piecewise constant volatilities, differentiable initial curves with continuous forward rates, batches of options with positive strikes and variances, sequences of time steps tending to zero)

* `C131_joint` (Props/HullWhiteSimulation.lean): the sampled rates at all requested times together: each is the initial forward rate plus the exact mean plus a combination of the normal draws, and the sums of products of the weights are the exact covariances of the model, whatever the grid.
* `C131_grid` (Props/HullWhiteSimulation.lean): on a grid of simulation times, for independent standard normal draws, the simulated price of each option converges almost surely to a value that has a formula.
* `C131_bond_options` (Props/HullWhiteSimulation.lean): the simulated prices of options on bonds: as the number of paths goes to infinity they converge almost surely for every time step, and as the time step goes to zero these limits converge to the analytic price.
* `C131_caps` (Props/HullWhiteSimulation.lean): the simulated prices of caps and floors converge to the analytic price in the same way.

## C132 Simulated Hull-White prices of European swaptions converge to the analytic prices

swaption_price with use_analytic_pricing=False, for independent standard normal draws: for every time step the simulated price of each payer or receiver swaption of a batch converges almost surely as the number of paths grows, and as the time step goes to zero these limits converge to the price of the analytic formula at the break-even rate. (for all mean reversions, piecewise constant volatilities, differentiable initial curves with continuous forward rates, batches of swaptions with positive variance and nonnegative coupons, sequences of time steps tending to zero)

* `C132_swaptions_partial` (Props/HullWhiteSwaptionSimulation.lean): if no expiry is a multiple of the time step below the longest expiry, the simulated prices of swaptions converge almost surely with the number of paths for every time step, and as the time step goes to zero these limits converge to the analytic price at the break-even rate. What is missing: expiries that are multiples, see `C132_repeated_times_deviates`.
* `C132_repeated_times_deviates` (Props/HullWhiteSwaptionSimulation.lean): expiries one and two with half a year as the time step. The first expiry occurs twice among the simulation times, the rate at the second expiry is never written and taken to be zero. For a curve at one hundred percent, the simulated price of the second swaption is zero whatever the draws and the number of paths, while its analytic price is positive.

## C133 The Euler sampler converges to the exact multivariate geometric Brownian motion

euler_sampling.sample with drift_fn and volatility_fn of MultivariateGeometricBrownianMotion: the mean square distance to the exact path from the same draws is bounded by an explicit multiple of the largest step, on every grid; prices of functions with bounded slopes, simulated with num_time_steps, converge almost surely in the number of paths and then in the number of time steps to the expectation under the exact process; for European options this is the value of option_price. (for all dimensions, means, volatilities, correlation factors with unit rows, initial values, increasing positive times, payoffs with bounded slopes, grids)

* `C133_euler_distance` (Props/EulerGbm.lean): the mean square distance of the values sampled with the Euler scheme and those of the exact sampler of the process, computed from the same draws, at any point of the grid.
* `C133_euler_price` (Props/EulerGbm.lean): the expectation of a function with bounded slopes of the values sampled with the Euler scheme differs from that of the exact process by at most a multiple of the square root of the largest step.
* `C133_euler_sampler` (Props/EulerGbm.lean): prices simulated with the Euler sampler converge. For each number of time steps the average over the paths of a function of the sampled values with bounded slopes converges almost surely, and the limits converge with the number of time steps to the expectation under the exact process.
* `C133_european` (Props/EulerGbm.lean): prices of European options on a component, simulated with the Euler sampler, converge to the price that `option_price` returns.

## C134 The Euler and Milstein samplers converge for geometric Brownian motion with time dependent parameters

euler_sampling.sample and milstein_sampling.sample with drift_fn and volatility_fn of GeometricBrownianMotion, constant or piecewise constant: prices of functions with bounded slope, simulated with num_time_steps, converge almost surely in the number of paths and then in the number of time steps to the expectation under the lognormal law with the integrated mean and variance. The Milstein sampler does the same for several states. (for all constant or piecewise constant means and volatilities, positive initial values, increasing positive times, payoffs with bounded slope; for several states: all dimensions, means, volatilities and grids)

* `C134_milstein_sampler` (Props/SchemesGbm.lean): prices simulated with the Milstein sampler converge for the geometric Brownian motion with one state and constant or piecewise constant parameters. For each number of time steps the average over the paths of a function of the sampled value with bounded slope converges almost surely, and the limits converge with the number of time steps to the expectation under the lognormal law of the process.
* `C134_euler_sampler` (Props/SchemesGbm.lean): the same for the Euler sampler.
* `C134_milstein_many_mean` (Props/SchemesGbm.lean): the mean of a component sampled with the Milstein scheme for several states, if the Wiener processes of the states are independent: each step multiplies it with one plus the time step times the mean parameter minus half of the square of the volatility.
* `C134_milstein_many_fails` (Props/SchemesGbm.lean): C134 (deviation): so the values do not converge to the process. For mean 0, volatilities 1 and initial values 1 the process has mean 1 at all times, but the mean of the sampled values is at most the exponential function of minus half of the time, however fine the grid is.

## C135 Black and Bachelier swaption prices are expectations of the swap value

swaption_price is the notional times the level of the fixed leg times the expectation of the positive part of swap rate minus coupon (payer) or coupon minus swap rate (receiver), with the swap rate normal or lognormal around the forward swap rate; payer minus receiver is the value of the swap; prices lie between the value of immediate exercise and the value of the leg received; the notional is 1 by default. (for all volatilities, expiries, discount factors, day count fractions, coupons, notionals, payer and receiver, both models)

* `C135_expectation` (Props/BlackSwaption.lean): the price of a swaption is the notional times the level of the fixed leg times the expectation of the positive part of the difference of the swap rate and the coupon, under the normal or lognormal law of the swap rate.
* `C135_parity` (Props/BlackSwaption.lean): payer minus receiver is the value of the swap: floating leg minus coupons.
* `C135_bounds` (Props/BlackSwaption.lean): a swaption is worth at least what its exercise is worth today, and in the lognormal model a payer swaption at most the floating leg and a receiver swaption at most the coupons.
* `C135_consecutive` (Props/BlackSwaption.lean): if each floating period starts where the one before ends, the floating leg is worth the difference of the first and the last discount factor.
* `C135_default_notional_fails` (Props/BlackSwaption.lean): C135 (deviation): without a notional the documentation promises the notional 1, but there is an error.

## C136 Simulated expectations of an Ito process converge to the solution of its backward equation

For any drift and volatility of linear growth, euler_sampling.sample (what GenericItoProcess.sample_paths calls) and, in one dimension, milstein_sampling.sample: the expectation of f at the end of the scheme differs from the solution at the start of the backward equation with final value f by at most a constant times the root of the largest step, on every grid. With num_time_steps the averages over paths converge almost surely and their limits converge to this solution. The equation is the one set up by fd_solver_backward, so that simulation and finite differences approximate the same value. (for all dimensions, measurable drifts and volatilities of linear growth, solutions with three space and two time derivatives of polynomial growth, grids, initial states)

* `C136_euler_error` (Props/WeakEuler.lean): for every process with coefficients of linear growth and every solution `u` of its backward equation, the expectation of `u` at the end of the Euler scheme differs from the solution at the start by at most a multiple of the root of the largest step, on every grid.
* `C136_euler_sampler` (Props/WeakEuler.lean): averages over paths of the Euler sampler converge with the number of paths, and then with the number of time steps to the solution of the backward equation.
* `C136_solver_equation` (Props/WeakEuler.lean): the equation of the solution is the one `fd_solver_backward` solves: at every point of a grid the derivatives with the coefficients it sets up sum to zero.
* `C136_milstein_sampler` (Props/WeakEuler.lean): averages over paths of the Milstein sampler in one dimension converge to the solution of the backward equation.
* `C136_euler_mean` (Props/WeakEuler.lean): the means of components that revert to a level are reproduced in the limit, whatever the volatility.

## C137 Simulated spots of the local volatility model have the right forward and arbitrage free prices on every grid

The mean of the spots sampled by LocalVolatilityModel is exactly the initial spot compounded at the rates minus the dividend yields of the steps, whatever the local volatility function, the correlation and the grid; with constant rates this is the forward, and for continuous rates the limit of the averages with the number of paths and time steps is S exp(integral of r - q), which is S exp(-q t)/df(t) if the rate comes from discount factors. The expected payoffs satisfy put-call parity, lie between intrinsic value and forward or strike, and calls with strikes growing like the forward do not lose value with maturity. If the local volatility depends on time only, the spots are exactly lognormal, and for a constant one the simulated price is that of option_price on every grid. Without initial state the paths start at 1. (for all numbers of assets, measurable local volatility functions of time and all spots, Cholesky factors with rows of length one, positive spots, rates, sorted grids, strikes)

* `C137_forward` (Props/LocalVolSimulation.lean): on every grid and for every local volatility function the mean of the simulated spots is exactly the spot compounded at the rates of the steps, so that the time discretisation does not bias the forward.
* `C137_forward_constant` (Props/LocalVolSimulation.lean): with constant rates the mean is the forward.
* `C137_parity` (Props/LocalVolSimulation.lean): put-call parity of the simulated prices, and bounds: a call is worth at least the forward minus the strike and at most the forward.
* `C137_calendar` (Props/LocalVolSimulation.lean): no calendar arbitrage in the simulated prices. From one time of the grid to the next, calls with strikes that grow like the forward do not lose value.
* `C137_lognormal` (Props/LocalVolSimulation.lean): a local volatility that depends on the time only gives exactly lognormal spots on every grid, with the forward above and the variance summed over the steps.
* `C137_flat` (Props/LocalVolSimulation.lean): with a constant volatility the simulated price of a European option is exactly that of `option_price`, on every grid.
* `C137_sampler` (Props/LocalVolSimulation.lean): averages of the sampled spots converge with the number of paths, and then with the number of time steps to the forward for rates that are continuous in time.
* `C137_curve_forward` (Props/LocalVolSimulation.lean): if the rates come from discount factors, as in `from_market_data`, the limit is the forward of the curve: `S exp(-q t) / df t`.
* `C137_default_state` (Props/LocalVolSimulation.lean): without an initial state the paths start at the spots one.

## C138 Prices of the regression Monte Carlo converge, with complete regressors to the value of the contract

With the number of sampled paths the regression coefficients of least_square_mc converge almost surely to those of the regressions under the law of the paths, and the price converges to the expected discounted payoff of the exercise rule with the limit coefficients, whether all samples or separate calibration samples are used in the regressions, and also if the regressors are recombined by invertible matrices depending on the samples, such as the centring of make_polynomial_basis. The two earlier versions of the algorithm have the same limit. The limit rule uses only the information at hand, so the limit is not above the value of the contract; if the regressors span the conditional expectations of going on, the limit is the largest expected discounted payoff over all exercise times. (for all laws of paths with the moments in question, payoffs, path dependent discount factors, numbers of exercise times and of basis functions, generalized inverses, numbers of calibration samples; linearly independent regressors and no ties in the limit)

* `C138_coefficients` (Props/LsmLimit.lean): the coefficients of the regressions converge, whatever generalized inverse and whatever number of calibration samples is used, as long as that number grows.
* `C138_averages` (Props/LsmLimit.lean): the averages behind the prices converge.
* `C138_price` (Props/LsmLimit.lean): if all samples are used in the regressions and for the price, the price converges to the expected discounted payoff of the exercise rule whose coefficients solve the regressions under the law of the paths.
* `C138_price_calibrated` (Props/LsmLimit.lean): the same with separate samples for the regressions, if both groups of samples grow and the second one is not negligible.
* `C138_versions` (Props/LsmLimit.lean): the two earlier versions of the code converge to the same limit.
* `C138_lower` (Props/LsmLimit.lean): the limit is the expected discounted payoff of an exercise time, so it is not above the value of the contract.
* `C138_optimal` (Props/LsmLimit.lean): if the regressors span the conditional expectations of going on, the prices converge to the largest expected discounted payoff of all exercise times.
* `C138_polynomial` (Props/LsmPolynomial.lean): with `make_polynomial_basis` the prices converge to the value of the exercise rule from the regressions on monomials.

## C139 Regression Monte Carlo prices of puts on geometric Brownian motion converge

For a put on a spot whose law at the exercise times has no atoms and reaches below the strike, the regressions on powers of the spot under that law have a solution, and the price of least_square_mc with make_polynomial_basis converges almost surely, with the number of paths, to the expected discounted payoff of the exercise rule of this solution; the only exception is a limit fit that is the payoff itself, which cannot happen with degree zero. The paths of the univariate geometric Brownian motion with positive variance up to the exercise times are of this kind. (for all degrees, positive strikes, exercise times, nonzero discount factors, piecewise constant or constant means and volatilities, grids, generalized inverses)

* `C139_put` (Props/LsmPut.lean): the regression Monte Carlo price of a put on a spot whose law has no atoms, with `make_polynomial_basis`, converges almost surely to the expected discounted payoff of an exercise rule. The coefficients of the rule exist and are those of the regressions under the law of the spot. The only exception is that a limit fit is the payoff itself.
* `C139_gbm_spots` (Props/LsmPut.lean): paths of geometric Brownian motion have such spots.
* `C139_gbm` (Props/LsmPut.lean): puts with prices from paths of geometric Brownian motion.
* `C139_constant_basis` (Props/LsmPut.lean): with one regressor, the constant, a fit is never the payoff, so the price converges without further conditions.

## C140 Regression Monte Carlo prices of puts tend to the value of the put as the degree of the basis grows

For a put on a Markov spot whose law at the exercise times has no atoms and reaches below the strike, the limits for many paths of the prices of least_square_mc with make_polynomial_basis converge, as the degree grows, to the largest expected discounted payoff over all exercise times that use only the information at hand. So prices with high degree and many paths are as close to the value of the put as one likes, except for degrees where a limit fit is the payoff itself. The paths of the univariate geometric Brownian motion with positive variance up to the exercise times are of this kind, with the draws so far as information. (for all positive strikes, increasing exercise times, positive discount factors, piecewise constant or constant means and volatilities, grids, generalized inverses)

* `C140_degree` (Props/LsmDegree.lean): with the degree of the polynomial basis the limits of the regression Monte Carlo prices of a put tend to the largest expected discounted payoff over all exercise times.
* `C140_price` (Props/LsmDegree.lean): prices of `least_square_mc` with `make_polynomial_basis` of high degree and many paths are close to the value of the put.
* `C140_gbm_markov` (Props/LsmDegree.lean): paths of geometric Brownian motion have such spots.
* `C140_gbm` (Props/LsmDegree.lean): prices of puts on geometric Brownian motion from `least_square_mc` with high degree and many paths are close to the largest expected discounted payoff over all ways to exercise that use only the draws so far.

## C141 Prices of American puts in the binomial tree converge to the value of the American put

For positive spot, strike, expiry and volatility and any rates the prices of option_price_binomial for an American put converge as the number of steps grows. The limit is the least upper bound of the expected discounted payoffs under Black-Scholes dynamics over all ways to exercise at finitely many times that use only what is known; it is at least the payoff of immediate exercise and the Black-Scholes price of the European put. The value with k even exercise times is below the limit by at most a constant times the time between exercises, so prices of least_square_mc with many exercise times, a high degree and many paths are close to the limit of the prices of the tree. (for all positive spots, strikes, expiries, volatilities, all real discount and dividend rates)

* `C141_put` (Props/TreeAmerican.lean): the price of an American put in the binomial tree converges, and the limit is the least upper bound of the expected discounted payoffs under Black-Scholes dynamics over all ways to exercise at finitely many times.
* `C141_dates` (Props/TreeAmerican.lean): the values with evenly spaced exercise times tend to the same limit, from below and with an error of the order of the time between exercises.
* `C141_bounds` (Props/TreeAmerican.lean): the limit is at least the payoff of immediate exercise and at least the Black-Scholes price of the European put.
* `C141_regression` (Props/TreeAmerican.lean): regression Monte Carlo prices with many exercise times, a high degree and many paths are close to the limit of the prices of the tree.

## C142 Calls and puts in the binomial tree are mirror images, and prices of American calls converge

In every tree a European option has the price of the option with spot and strike swapped, discount and dividend rate swapped, and call and put swapped. The prices of American calls converge as the number of steps grows: the limit is the least upper bound of the values by backward induction of calls with finitely many even exercise times, is the value of the American put that is the mirror image, and is at least the payoff and the Black-Scholes price of the European call. With finitely many steps the mirror images of American options can differ, because the code discounts the payoff of an exercise. (for all positive spots, strikes, expiries, volatilities, numbers of steps, all real discount and dividend rates)

* `C142_european` (Props/TreeCall.lean): in every tree a European call has the price of the European put with spot and strike swapped and the rates swapped.
* `C142_call` (Props/TreeCall.lean): the price of an American call in the binomial tree converges. The limit is the least upper bound of the values by backward induction of the calls that can be exercised at finitely many even times, and it is the value of the American put with spot and strike swapped and the rates swapped.
* `C142_american` (Props/TreeCall.lean): the prices of an American option and of its mirror image have the same limit.
* `C142_bounds` (Props/TreeCall.lean): the limit is at least the payoff of immediate exercise and at least the Black-Scholes price of the European option.
* `C142_american_deviates` (Props/TreeCall.lean): with finitely many steps an American option and its mirror image can differ in price, because the code discounts the payoff of an exercise by a step: a call on a spot of 100 with strike 1, a dividend yield of 1 and one step.

## C143 Files of dictionaries of arrays are read back as written, also when cut off

Reading a file that ArrayDictWriter wrote gives the written dictionaries in order, each with the same keys and under each key the array that decoding gives for the encoding of the value, and then the file ends. Of a file cut off after any number of bytes exactly the complete records are read, and the reading ends without an error only if the cut is at the end of a record. The reader takes a record only from bytes that the writer writes for its data. The argument array_encoder of _make_example should set the encoding of the arrays; the code ignores it. (for all sequences of dictionaries with distinct keys, all orders in which maps are written, all array encodings with a decoding, all check sum functions, all places of the cut)

* `C143_roundtrip` (Props/ArrayIo.lean): what is written is read back: every dictionary with its keys and, under each key, the array that decoding gives for its encoding; then the file ends.
* `C143_cut` (Props/ArrayIo.lean): of a file that is cut off after any number of bytes the complete records are read, and the reading ends without an error only if the cut is at the end of a record.
* `C143_accepts` (Props/ArrayIo.lean): the reader takes a record only from bytes that the writer writes for its data.
* `C143_encoder_ignored` (Props/ArrayIo.lean): the encoder given to the function that makes a record has no effect.
* `C143_encoder_deviates` (Props/ArrayIo.lean): so the bytes of a record can differ from those the given encoder makes.

## C144 The Crank-Nicolson scheme is stable and second order in the mean square for all time steps

For an equation with a second order coefficient of at least al > 0 that changes by at most La per unit of space, a drift bounded by B and a zeroth order coefficient that is not positive, on a grid whose neighbouring cells have lengths within the factor rho, the weighted scheme with at most half of the weight on the explicit part is stable in the mean square (points weighted by their cells) without any bound of the time step in terms of the cells: the difference of two solutions with the same boundary values grows over the time T by at most the factor exp(4 G T), G = (La + rho B)^2 / (4 al), which is 1 for constant diffusion without drift. The solver succeeds, and the error of the Crank-Nicolson scheme against a smooth solution is at most K times the mean square error of the given values plus dt^2 + h^2 + the largest difference of neighbouring cells; it tends to zero with cells and time step independently of each other. (for all equations with such coefficients and Dirichlet boundary values depending on time, all grids, all numbers of steps with 4 dt G <= 1, all given values)

* `C144_stable_step` (Props/CrankNicolson.lean): stability of a step: with at most half of the weight on the explicit part, the mean square of the difference of two results grows by at most the factor `1 / (1 - 2 dt G)`, whatever the ratio of the time step to the cells.
* `C144_stable` (Props/CrankNicolson.lean): stability of `solve_backward`: the mean square of the difference of two solutions is at most `exp (4 G (s - e))` times that of the given values.
* `C144_error` (Props/CrankNicolson.lean): error of weighted schemes: with at most half of the weight on the explicit part the solver succeeds with any number of steps, and the mean square of the error is at most `energyError`.
* `C144_crank_nicolson` (Props/CrankNicolson.lean): order of the Crank-Nicolson scheme: the mean square of the error is at most a constant times that of the given values plus `dt^2 + h^2 + sigma`, without a bound on the ratio of the time step to the cells.
* `C144_converges` (Props/CrankNicolson.lean): convergence of the Crank-Nicolson scheme: the mean square of the error gets as small as wanted when the cells and the time step get small, independently of each other.

## C145 Weighted schemes are stable on all grids exactly for explicit weights of at most one half; boundary condition wrappers

On a uniform grid with zero boundary values the solver with the weighted scheme multiplies each sine mode by the n-th power of (1 + theta z) / (1 - (1 - theta) z), for every weight theta in [0, 1], including the explicit scheme theta = 1. No mode grows on any grid exactly if theta <= 1/2; for theta > 1/2 and (2 theta - 1) 3 a dt > 2 h^2 the values grow beyond all bounds. The documentation of weighted_implicit_explicit_step says that the scheme is stable for theta >= 0.5, which is the wrong way round for its theta. After a step with conditions made by dirichlet the boundary values are those of the given function at the end of the step, with neumann the derivatives out of the grid of the parabolas through the last three points are. (for all weights, uniform grids, diffusion coefficients, modes, time steps and numbers of steps; for the boundary conditions all grids, coefficients and functions)

* `C145_mode` (Props/Instability.lean): on a uniform grid `solve_backward` with a weighted scheme multiplies the sine modes by a power of the factor of the scheme, for any explicit weight.
* `C145_unstable` (Props/Instability.lean): instability: with an explicit weight above one half and `(2 theta - 1) 3 a dt > 2 h^2` the values grow beyond all bounds, although those of the solution of the equation decrease.
* `C145_stable_iff` (Props/Instability.lean): no mode grows on any uniform grid exactly if the explicit weight is at most one half.
* `C145_documented_deviates` (Props/Instability.lean): deviation from the documentation "The scheme is stable for `theta >= 0.5`": the explicit scheme, `theta = 1`, on four points.
* `C145_dirichlet` (Props/Instability.lean): `dirichlet`: after a step the values at the boundaries are those of the given functions at the end of the step.
* `C145_neumann` (Props/Instability.lean): `neumann`: after a step the parabolas through the three points next to the boundaries have the given derivatives in the direction out of the grid.

## C146 Newton's method finds the implied volatility from every positive start (normal model) and from the inflection (lognormal model)

Let the discount factor be at most 1 and let the price have an implied volatility. In the normal model all Newton iterates from any positive start are positive and tend to the implied volatility, and for every positive tolerance the function reports convergence with a positive result once enough iterations are allowed; the default start is such a start. In the lognormal model the same holds from every start between the inflection sqrt(2 |log(F/K)| / T) and the implied volatility, on either side, in particular from the inflection itself if forward and strike differ, and at the money from every positive start not above the implied volatility. This holds although the vega used is divided by the discount factor, which makes the steps shorter. (for all options with valid arguments and discount factor at most 1, all prices with an implied volatility, all admitted starts, all tolerances)

* `C146_normal` (Props/ImpliedVolConvergence.lean): in the normal model the search succeeds from every positive start, for every price that has an implied volatility.
* `C146_default` (Props/ImpliedVolConvergence.lean): the default start of the normal model is positive, so without a start given the search is the one from `price * sqrt (2 pi)` and succeeds.
* `C146_lognormal` (Props/ImpliedVolConvergence.lean): in the lognormal model the search succeeds from every start between the inflection and the implied volatility, on either side.
* `C146_inflection` (Props/ImpliedVolConvergence.lean): if forward and strike differ, the inflection itself is a start from which the search succeeds for every price that has an implied volatility.
* `C146_at_the_money` (Props/ImpliedVolConvergence.lean): at the money the search succeeds from every positive start that is not above the implied volatility.

## C147 What the implied volatility function returns

If Newton's search for an implied volatility reports convergence, from whatever start, its result is positive and as close to the implied volatility as one likes once the tolerance is small, in both models. implied_vol refuses the fast approximation for the normal model, otherwise returns the approximation or the value found by Newton's method without its flags; validate_args never changes an accepted result. In the normal model with discount factor at most 1, for every price with an implied volatility and every positive or default start, implied_vol returns the implied volatility up to any error with small tolerance and enough iterations. (for all options with valid arguments, all prices inside the bounds, all starts, errors, tolerances and numbers of iterations)

* `C147_accuracy` (Props/ImpliedVolLib.lean): if the search reports convergence, the result is as close to the implied volatility as one likes for small tolerances, from whatever start.
* `C147_methods` (Props/ImpliedVolLib.lean): the choice of the method. The fast approximation refuses the normal model and otherwise returns its value; Newton's method is the one of C42 and C146 without its flags.
* `C147_normal` (Props/ImpliedVolLib.lean): in the normal model the function returns the implied volatility up to any error, with small tolerance and enough iterations, for every price that has one.

## C148 The oscillation damped Crank-Nicolson scheme damps oscillations on all uniform grids

The step of oscillation_damped_crank_nicolson_step is an extrapolation step for the first extrapolation_steps steps and a Crank-Nicolson step afterwards. On a uniform grid with zero boundary values solve_backward multiplies each sine mode by the factor of the extrapolation scheme for these steps and the factor of the Crank-Nicolson scheme for the others. No mode grows for any grid and time step. With at least one extrapolation step, modes whose rate is large compared to the time step vanish, uniformly in the number of steps, while with Crank-Nicolson steps only they keep their size and change sign with every step. (for all uniform grids, diffusion coefficients, modes, numbers of steps, numbers of extrapolation steps and error bounds)

* `C148_mode` (Props/OscillationDamped.lean): on a uniform grid the solver multiplies a sine mode by the factor of the extrapolation scheme for the first steps and by the factor of the Crank-Nicolson scheme for all others.
* `C148_stable` (Props/OscillationDamped.lean): the damped scheme is stable on every uniform grid for all time steps.
* `C148_damped` (Props/OscillationDamped.lean): with at least one extrapolation step, modes whose rate is large compared to the time step vanish, whatever the number of steps.
* `C148_undamped` (Props/OscillationDamped.lean): without the extrapolation steps, in the Crank-Nicolson scheme, such modes keep their size and change their sign in every step.
* `C148_composition` (Props/OscillationDamped.lean): without extrapolation steps the scheme is Crank-Nicolson, with the number of steps or more of them it is the extrapolation scheme throughout.

## C149 The factory of holiday calendars chooses a calendar that agrees with the unbounded one

create_holiday_calendar returns the bounded calendar of the years of the holidays if there are holidays, whatever start_year and end_year are, the bounded calendar of start_year to end_year if both are given and there are no holidays, and the unbounded calendar otherwise. On the days of its years the bounded calendar is the same as the unbounded calendar of the same arguments, and a day is a business day exactly if it is neither masked nor a holiday. This holds for all documented types of the arguments. (for all weekend masks with a working day, increasing lists of valid dates, years and days)

* `C149_holidays` (Props/CalendarFactory.lean): with holidays in a list or an array the calendar is the bounded one, of the years of the holidays whatever `start_year` and `end_year` are, and it is the same as the unbounded calendar on all days of these years.
* `C149_weekends` (Props/CalendarFactory.lean): without holidays. Both years give the bounded calendar of these years, otherwise the calendar is unbounded; they agree on the days of these years.
* `C149_tensor_deviates` (Props/CalendarFactory.lean): C149 (deviation): holidays as a tensor raise an error in any case.
* `C149_mask_tensor_deviates` (Props/CalendarFactory.lean): C149 (deviation): the mask is documented to be a tensor, but a tensor raises an error whenever the calendar is bounded.
* `C149_empty_deviates` (Props/CalendarFactory.lean): C149 (deviation): no holidays in a `DateTensor` raise an error unless both years are given, while an empty array gives an unbounded calendar.
* `C149_no_mask_deviates` (Props/CalendarFactory.lean): C149 (deviation): without a mask an empty array of holidays makes every day a holiday, but together with both years, or if missing, every day of the years is a business day.

## C150 The option pricing demo keeps files, results and trades apart

The data generator puts a file of the output path gs://p, with or without a slash at its end, where the downloader looks for it. The downloader stores the file gs://p at p below its directory, different files at different places. An incomplete request changes nothing and is answered by a message. A complete request leaves both files, fresh from the store if the refresh is forced or a file was missing, and leaves all other files alone. The pricer writes the results of different portfolios to different files and takes its sizes from the environment. The data generator numbers the trades of all files without gap or repetition and draws market data and strikes in the documented ranges. (for all paths, requests, contents of the store and of the file system, numbers of files and trades, and draws)

* `C150_local` (Props/OptionDemo.lean): the local file of `gs://p` is `p` below the directory of the downloads if `p` does not begin with a slash. Different files have different local files.
* `C150_local_deviates` (Props/OptionDemo.lean): C150 (deviation): if `p` begins with a slash the file is written to the path `p` itself, outside of the directory.
* `C150_download` (Props/OptionDemo.lean): what a request does. An incomplete one changes nothing and gives a message; a complete one for files in the store leaves both files, fresh from the store if the refresh is forced or one of them was missing, and all other files are as before.
* `C150_results` (Props/OptionDemo.lean): the results go to a file named after the portfolio; portfolios with different names have different results.
* `C150_results_deviates` (Props/OptionDemo.lean): C150 (deviation): two different portfolios whose results overwrite each other.
* `C150_environment_deviates` (Props/OptionDemo.lean): C150 (deviation): the sizes cannot be set by the environment, every value raises an error.
* `C150_trades` (Props/OptionDemo.lean): the trades of all files are numbered from zero without gap or repetition.
* `C150_ranges` (Props/OptionDemo.lean): generated market data and strikes are in the documented ranges.
* `C150_blob` (Props/OptionDemo.lean): the generator puts a file `name` with the output path `gs://p`, with or without a slash at its end, where the downloader looks for `gs://p/name`.

## C151 The option pricing demo prices every generated option on its own underlier

The price of an option is the discounted expectation of its payoff under the lognormal law with the spot, volatility and rate at the position of its underlier and the actual/360 time from today to its expiry. An underlier outside of the market data is an error. Every option of a portfolio made by generate_portfolio from market data made by generate_market_data is priced this way, whatever is drawn. (for all market data, options expiring today or later, dates of today and draws)

* `C151_price` (Props/DemoPricer.lean): an option expiring `n` days after today on the underlier `k` has the discounted expectation of its payoff as price, with the spot, volatility and rate at the position `k` and the time `n / 360`.
* `C151_unknown` (Props/DemoPricer.lean): an underlier outside of the market data is an error.
* `C151_generated` (Props/DemoPricer.lean): every option of a generated portfolio is priced, for all draws: its price is the discounted expectation.
