{
 "claims": [
  {
   "property": "C01",
   "status": "proved",
   "theorems": [
    "KML.C01_ringbuffer_is_bounded_fifo",
    "KML.C01_queue_keeps_last"
   ],
   "note": "Refinement to a list queue for every W>=1 and every call history."
  },
  {
   "property": "C02",
   "status": "proved",
   "theorems": [
    "KML.C02_ringbuffer_memory_safe"
   ],
   "note": "No history reaches ub or throws for W>=1."
  },
  {
   "property": "C03",
   "status": "partial",
   "theorems": [
    "KML.C03_violated",
    "KML.C03_window_zero_partial"
   ],
   "note": "The full property is false of the code: update with windowSize 0 writes out of range (C03_violated). C03_window_zero_partial characterises exactly which histories are defined."
  },
  {
   "property": "C04",
   "status": "proved",
   "theorems": [
    "KML.C04_ringbuffer_observers_agree"
   ],
   "note": "Every reachable buffer; size() counts the items pops return."
  },
  {
   "property": "C05",
   "status": "proved",
   "theorems": [
    "KML.C05_serialisable",
    "KML.C05_linearisable",
    "KML.C05_defined",
    "KML.C05_race_free",
    "KML.C05_terminates"
   ],
   "note": "Model of threads interleaving single memory accesses, with the mutex. Serialisable in lock order, equal to a bounded queue, no undefined behaviour, no data race among locking calls, no deadlock, bounded number of steps; any number of threads, any program, any schedule."
  },
  {
   "property": "C06",
   "status": "partial",
   "theorems": [
    "KML.C06_violated",
    "KML.C06_race",
    "KML.C06_torn_partial",
    "KML.C06_quiet_partial"
   ],
   "note": "Violated: size() takes no lock and can return 2^64-1 (C06_violated; the race itself is C06_race). Proved: bounds on a torn size under every interleaving, and the right value for an uninterrupted call while no call holds the lock."
  },
  {
   "property": "C07",
   "status": "proved",
   "theorems": [
    "KML.C07_size_exact_in_64_bits",
    "KML.C07_size_matches_model"
   ],
   "note": "size_t (BitVec 64) computation equals (head - tail) mod W, and the model size() on reachable buffers."
  },
  {
   "property": "C08",
   "status": "proved",
   "theorems": [
    "KML.C08_linkedlist_is_windowed_fifo"
   ],
   "note": "Refinement over an explicit heap."
  },
  {
   "property": "C09",
   "status": "proved",
   "theorems": [
    "KML.C09_linkedlist_no_dangling"
   ],
   "note": "Includes display on every reachable list."
  },
  {
   "property": "C10",
   "status": "partial",
   "theorems": [
    "KML.C10_violated",
    "KML.C10_reset_destroy_partial",
    "KML.C10_history_partial"
   ],
   "note": "False of the code: reset/destructor of an empty list dereference null (C10_violated). Partial theorems: defined exactly on non-empty lists."
  },
  {
   "property": "C11",
   "status": "partial",
   "theorems": [
    "KML.C11_violated",
    "KML.C11_destructor_violated",
    "KML.C11_node_accounting_partial",
    "KML.C11_no_reset_partial"
   ],
   "note": "False of the code: reset and destructor leak (C11_violated, C11_destructor_violated). Partial: exact node accounting."
  },
  {
   "property": "C12",
   "status": "partial",
   "theorems": [
    "KML.C12_violated",
    "KML.C12_unbounded_violated",
    "KML.C12_full_means_nonempty_partial"
   ],
   "note": "False of the code: full() means non-empty (C12_violated). Partial: exact meaning."
  },
  {
   "property": "C13",
   "status": "partial",
   "theorems": [
    "KML.C13_violated",
    "KML.C13_race",
    "KML.C13_double_delete",
    "KML.C13_use_after_free",
    "KML.C13_guarded_partial",
    "KML.C13_guarded_no_loss_partial",
    "KML.C13_turns_partial"
   ],
   "note": "Violated: two updates lose an item (C13_violated), race, delete a node twice, write to a deleted node. Proved: serialisable and lossless if every call held the mutex, and for the class as it is when threads take turns."
  },
  {
   "property": "C14",
   "status": "proved",
   "theorems": [
    "KML.C14_batch_is_sequence",
    "KML.C14_batch_split",
    "KML.C14_batch_failure"
   ],
   "note": "For every update function: batch = foldlM, split anywhere, same failure at the same element."
  },
  {
   "property": "C15",
   "status": "proved",
   "theorems": [
    "KML.C15_mean_of_window",
    "KML.C15_mean_in_window_range"
   ],
   "note": "Exact arithmetic over any ordered field."
  },
  {
   "property": "C16",
   "status": "proved",
   "theorems": [
    "KML.C16_mean_window",
    "KML.C16_mean_memory_bound"
   ],
   "note": "Any arithmetic, NaN included."
  },
  {
   "property": "C17",
   "status": "partial",
   "theorems": [
    "KML.C17_violated",
    "KML.C17_rounding_error_partial"
   ],
   "note": "The window-local error bound is false (C17_violated: binary64 cancellation leaves an error no function of the window bounds). C17_rounding_error_partial proves the accumulated bound for every rounding with relative error u."
  },
  {
   "property": "C18",
   "status": "proved",
   "theorems": [
    "KML.C18_population_variance"
   ],
   "note": "Exact arithmetic over any ordered field."
  },
  {
   "property": "C19",
   "status": "partial",
   "theorems": [
    "KML.C19_nonneg_partial",
    "KML.C19_violated",
    "KML.C19_zero_violated"
   ],
   "note": "False in binary64 (C19_violated: 0.1 three times; C19_zero_violated). C19_nonneg_partial proves it in exact arithmetic; on doubles it holds for fixed-point data of bounded size (C112)."
  },
  {
   "property": "C20",
   "status": "proved",
   "theorems": [
    "KML.C20_shift_invariant",
    "KML.C20_scales_quadratically"
   ],
   "note": "Exact arithmetic."
  },
  {
   "property": "C21",
   "status": "partial",
   "theorems": [
    "KML.C21_violated",
    "KML.C21_embedded_partial"
   ],
   "note": "False of the code: m_historyCount stays 0 and m_window empty (C21_violated). C21_embedded_partial says exactly what the members hold."
  },
  {
   "property": "C22",
   "status": "proved",
   "theorems": [
    "KML.C22_first_and_constant"
   ],
   "note": "Any arithmetic with irreflexive <, so IEEE doubles including NaN."
  },
  {
   "property": "C23",
   "status": "proved",
   "theorems": [
    "KML.C23_within_one_step",
    "KML.C23_step_bounded",
    "KML.C23_rounded",
    "KML.C23_step_rounded",
    "KML.C23_binary64",
    "KML.C23_double"
   ],
   "note": "Exact arithmetic, every odd rounding that halves steps exactly up to underflow, binary64, and doubles up to 2^960."
  },
  {
   "property": "C24",
   "status": "proved",
   "theorems": [
    "KML.C24_geometric_convergence",
    "KML.C24_converges"
   ],
   "note": "Exact arithmetic: geometric rate plus convergence for every history. On doubles it fails: see C95."
  },
  {
   "property": "C25",
   "status": "proved",
   "theorems": [
    "KML.C25_scale_equivariant",
    "KML.C25_negation_equivariant"
   ],
   "note": "Exact arithmetic, by simulation."
  },
  {
   "property": "C26",
   "status": "partial",
   "theorems": [
    "KML.C26_violated",
    "KML.C26_step_violated",
    "KML.C26_epsilon_partial",
    "KML.C26_step_positive_partial"
   ],
   "note": "False for NaN (C26_violated) and under underflow (C26_step_violated). Partial: all non-NaN doubles; positivity of the step for every rounding without underflow."
  },
  {
   "property": "C27",
   "status": "proved",
   "theorems": [
    "KML.C27_mad_constant_zero"
   ],
   "note": "Any arithmetic where c-c=0; example instantiates every finite double."
  },
  {
   "property": "C28",
   "status": "partial",
   "theorems": [
    "KML.C28_violated",
    "KML.C28_nonneg_partial",
    "KML.C28_bound_partial"
   ],
   "note": "False in binary64 (C28_violated). C28_nonneg_partial proves it in exact arithmetic; C28_bound_partial proves that on doubles, infinities and NaN included after a finite first observation, it never falls below -0.05, which the witness attains up to two units in the last place."
  },
  {
   "property": "C29",
   "status": "partial",
   "theorems": [
    "KML.C29_violated",
    "KML.C29_constructor_partial",
    "KML.C29_nan_evaluate"
   ],
   "note": "False of the code: NaN is accepted (C29_violated; C29_nan_evaluate shows the consequence). C29_constructor_partial: every other double."
  },
  {
   "property": "C30",
   "status": "proved",
   "theorems": [
    "KML.C30_range"
   ],
   "note": "Every rounding with gradual underflow, any later calls other than clear."
  },
  {
   "property": "C31",
   "status": "proved",
   "theorems": [
    "KML.C31_five",
    "KML.C31_binary64"
   ],
   "note": "Every rounding in which 4q is exact; C31_binary64 discharges that for doubles."
  },
  {
   "property": "C32",
   "status": "partial",
   "theorems": [
    "KML.C32_violated",
    "KML.C32_padded_partial",
    "KML.C32_nonpositive_partial"
   ],
   "note": "False of the code: zeros take part (C32_violated). Partial: exact description with zeros; true for non-positive data."
  },
  {
   "property": "C33",
   "status": "proved",
   "theorems": [
    "KML.C33_positions",
    "KML.C33_no_div_zero",
    "KML.C33_rounding"
   ],
   "note": "Positions for any arithmetic with sane comparisons; a poisoning arithmetic shows no quotient by zero is used."
  },
  {
   "property": "C34",
   "status": "partial",
   "theorems": [
    "KML.C34_length_partial",
    "KML.C34_violated"
   ],
   "note": "False of the code (C34_violated): int overflow. C34_length_partial: defined exactly up to 2^31 observations."
  },
  {
   "property": "C35",
   "status": "partial",
   "theorems": [
    "KML.C35_violated",
    "KML.C35_pure_partial",
    "KML.C35_early_partial",
    "KML.C35_nonpositive_partial",
    "KML.C35_exact_partial"
   ],
   "note": "False of the code: early evaluate reorders the data (C35_violated). C35_pure_partial: pure after five observations. C35_early_partial: an evaluate after k < 5 observations leaves the k smallest of them and 5-k zeros. C35_nonpositive_partial: harmless while the observations are at most 0; C35_exact_partial: and only then."
  },
  {
   "property": "C36",
   "status": "proved",
   "theorems": [
    "KML.C36_affine",
    "KML.C36_scaling"
   ],
   "note": "Exact arithmetic; also power-of-two scaling in 53-bit floating point."
  },
  {
   "property": "C37",
   "status": "partial",
   "theorems": [
    "KML.C37_violated",
    "KML.C37_positions_violated",
    "KML.C37_short_partial",
    "KML.C37_range_partial",
    "KML.C37_left_over_partial",
    "KML.C37_iff_partial",
    "KML.C37_few_partial"
   ],
   "note": "False of the code: stale heights and positions (C37_violated, C37_positions_violated). Partial: identical after short histories; range and five-point rank after any history. From the fifth observation on only the marker positions survive (C37_left_over_partial), so for five or more observations the statistic is as new if and only if no earlier observation was beyond the fifth (C37_iff_partial); with fewer the value has the rank of the sample quantile among the observations and the stale heights (C37_few_partial)."
  },
  {
   "property": "C38",
   "status": "proved",
   "theorems": [
    "KML.C38_hull"
   ],
   "note": "Every rounding, every history of at most 2^31 observations."
  },
  {
   "property": "C39",
   "status": "proved",
   "theorems": [
    "KML.C39_ranks",
    "KML.C39_double"
   ],
   "note": "Exact arithmetic; on doubles (C39_double) for every stream, infinities and NaN included, with 2^-18 added to the bounds."
  },
  {
   "property": "C40",
   "status": "partial",
   "theorems": [
    "KML.C40_updates_partial",
    "KML.C40_violated"
   ],
   "note": "Violated: with window 0 evaluate() always divides by zero (C40_violated). The inner estimator does follow the whole stream (any arithmetic)."
  },
  {
   "property": "C41",
   "status": "proved",
   "theorems": [
    "KML.C41_until_full"
   ],
   "note": "Any arithmetic, any history of update/evaluate calls with fewer than windowSize observations."
  },
  {
   "property": "C42",
   "status": "partial",
   "theorems": [
    "KML.C42_exact_partial",
    "KML.C42_violated",
    "KML.C42_overflow_violated",
    "KML.C42_error_partial",
    "KML.C42_short_partial",
    "KML.C42_double_partial"
   ],
   "note": "Violated on doubles: six observations of 0.1 in a window of four give 0.10000000000000003 (C42_violated), and the largest double gives NaN (C42_overflow_violated). Holds in exact arithmetic for windowSize >= 4 and any length >= 5; exactly in any rounding if the products j*c are representable; in binary64 and on doubles up to 2^950 within (2W+1)*2^-53*|c|, with equality up to the window size."
  },
  {
   "property": "C43",
   "status": "partial",
   "theorems": [
    "KML.C43_violated",
    "KML.C43_filling_partial",
    "KML.C43_history_partial",
    "KML.C43_extrapolation_partial",
    "KML.C43_double_partial",
    "KML.C43_attained_partial"
   ],
   "note": "Violated: median of 0,1,0,1,1,1 in a window of 5 is -1 (C43_violated). Holds from the fifth observation until the window is full (any rounding); in general the value leaves the range by at most windowSize-1 range widths, which is attained for every level and window of 7 or more (C43_attained_partial); on doubles the same bound holds up to 4W*2^-53 times the largest magnitude (C43_double_partial)."
  },
  {
   "property": "C44",
   "status": "partial",
   "theorems": [
    "KML.C44_violated",
    "KML.C44_difference_partial",
    "KML.C44_defined_partial"
   ],
   "note": "Violated for the default window 0 (division by zero, C44_violated). The difference identity holds for any arithmetic and window; definedness for windowSize >= 1 and at most 2^31 observations."
  },
  {
   "property": "C45",
   "status": "partial",
   "theorems": [
    "KML.C45_filling_partial",
    "KML.C45_bound_partial",
    "KML.C45_violated",
    "KML.C45_binary64_violated",
    "KML.C45_five_partial",
    "KML.C45_constant_partial",
    "KML.C45_double_partial"
   ],
   "note": "Violated: default quartiles cross after 13 observations (C45_violated, also in binary64). Holds for histories of at most five observations that fit in the window, and for constant streams (any rounding). In either direction the value is at most the range of the data while the window fills, and at most 2W-1 ranges afterwards (exact; on doubles up to 13W*2^-53 times the largest magnitude, C45_double_partial)."
  },
  {
   "property": "C46",
   "status": "proved",
   "theorems": [
    "KML.C46_trichotomy",
    "KML.C46_mirror",
    "KML.C46_symmetric",
    "KML.C46_reflexive_and_implication"
   ],
   "note": "Every sign-symmetric rounding (trichotomy, symmetry), every rounding (mirror, reflexivity, implication)."
  },
  {
   "property": "C47",
   "status": "proved",
   "theorems": [
    "KML.C47_implies_lt",
    "KML.C47_transitive",
    "KML.C47_monotone",
    "KML.C47_scale"
   ],
   "note": "Exact arithmetic; on doubles see C105."
  },
  {
   "property": "C48",
   "status": "partial",
   "theorems": [
    "KML.C48_violated",
    "KML.C48_strict_partial_order_partial",
    "KML.C48_equality_partial"
   ],
   "note": "False of the code: ties are not transitive (C48_violated, exact and binary64). Partial: strict partial order; strict weak order on separated bins; the claims about operator== for every sign-symmetric rounding."
  },
  {
   "property": "C49",
   "status": "proved",
   "theorems": [
    "KML.C49_counts_and_edges",
    "KML.C49_covers",
    "KML.C49_exact_hull"
   ],
   "note": "Counts and edges in any arithmetic; covering in exact arithmetic; on doubles see C105."
  },
  {
   "property": "C50",
   "status": "proved",
   "theorems": [
    "KML.C50_defined",
    "KML.C50_insertion_point"
   ],
   "note": "C50_defined: any arithmetic, any bins: terminates, in range. C50_insertion_point: exact arithmetic, ordered bins: the number of definitely smaller left edges; on doubles see C105_search."
  },
  {
   "property": "C51",
   "status": "proved",
   "theorems": [
    "KML.C51_budget"
   ],
   "note": "Any arithmetic, every stream."
  },
  {
   "property": "C52",
   "status": "proved",
   "theorems": [
    "KML.C52_total"
   ],
   "note": "Any arithmetic, every stream."
  },
  {
   "property": "C53",
   "status": "partial",
   "theorems": [
    "KML.C53_violated",
    "KML.C53_filling_partial",
    "KML.C53_overcount_partial"
   ],
   "note": "False: C53_violated (1,2,3,4 with window 2 makes binCounts throw). Proved in any arithmetic: equality until the window is full; afterwards the bins never hold less than the total; C128 says when and by how much they hold more."
  },
  {
   "property": "C54",
   "status": "proved",
   "theorems": [
    "KML.C54_ordered",
    "KML.C54_report"
   ],
   "note": "Any rounding, windowSize >= 1, every stream on which the updates are defined. C54_report: the report of any bins, also those not in order."
  },
  {
   "property": "C55",
   "status": "partial",
   "theorems": [
    "KML.C55_violated",
    "KML.C55_no_bins",
    "KML.C55_filling_partial",
    "KML.C55_filling_exact_partial",
    "KML.C55_filling_b64_partial",
    "KML.C55_enough_bins_partial"
   ],
   "note": "False: C55_violated (out-of-range bin for four small histograms); C55_no_bins (numBins = 0 always undefined). Proved: streams of at most windowSize values up to DBL_MAX/4 (exact, binary64, any rounding with a hypothesis), and streams of any length with at most numBins different values (any rounding). The exact length every stream may have is C109."
  },
  {
   "property": "C56",
   "status": "proved",
   "theorems": [
    "KML.C56_frequency_table_rounded",
    "KML.C56_frequency_table"
   ],
   "note": "Exact arithmetic, and any rounding under which the tolerant comparison separates the values. Includes definedness."
  },
  {
   "property": "C57",
   "status": "partial",
   "theorems": [
    "KML.C57_violated",
    "KML.C57_constant_partial",
    "KML.C57_window_lag"
   ],
   "note": "False: C57_violated. C57_window_lag gives the cause (the index queue lags by windowSize); C127 says what is counted instead. Proved for constant streams under any rounding."
  },
  {
   "property": "C58",
   "status": "proved",
   "theorems": [
    "KML.C58_pdf",
    "KML.C58_density",
    "KML.C58_cdf",
    "KML.C58_counts",
    "KML.C58_any_length"
   ],
   "note": "Exact arithmetic: pdf, density, cdf, unnormalised counts. Past the window (C58_any_length) pdf sums to the bin counts over the total count, at least 1, and 1 exactly when binCounts does not throw."
  },
  {
   "property": "C59",
   "status": "proved",
   "theorems": [
    "KML.C59_minimum"
   ],
   "note": "Any rounding."
  },
  {
   "property": "C60",
   "status": "partial",
   "theorems": [
    "KML.C60_rejects",
    "KML.C60_violated",
    "KML.C60_defined_partial",
    "KML.C60_single_bin"
   ],
   "note": "False: C60_violated; C60_single_bin: every histogram with one bin is undefined below level 0.9999. Proved: rejection exactly outside [0,1] (any rounding, any histogram); definedness with two or more bins while the window fills (exact); C129_defined_partial has it on doubles for streams of any length."
  },
  {
   "property": "C61",
   "status": "partial",
   "theorems": [
    "KML.C61_upper_partial",
    "KML.C61_median",
    "KML.C61_unbounded",
    "KML.C61_violated",
    "KML.C61_lower_partial",
    "KML.C61_knots_partial",
    "KML.C61_between"
   ],
   "note": "False: C61_violated (not monotone, above the maximum); C61_median: the median of a 0 followed by n ones is n/numBins, so there is no bound in terms of the data alone (C61_unbounded). Proved exactly while the window fills: lower bound, values at the cdf levels, the formula between them, and that no quantile of n observations exceeds the maximum by more than n-1 times the range or 1/numBins, whichever is more (C61_upper_partial)."
  },
  {
   "property": "C62",
   "status": "partial",
   "theorems": [
    "KML.C62_violated",
    "KML.C62_clears_partial",
    "KML.C62_bins_partial",
    "KML.C62_full_window",
    "KML.C62_out_of_sync",
    "KML.C62_full_window_quantile"
   ],
   "note": "False: C62_violated (the total count survives reset). Proved in any arithmetic: bins and history count evolve as if new while both phases fit the window, but binCounts throws all the time (C62_out_of_sync); a histogram reset after its window was full never counts anything again (C62_full_window): every bin stays at 0 and every quantile above 0 is undefined."
  },
  {
   "property": "C63",
   "status": "partial",
   "theorems": [
    "KML.C63_violated",
    "KML.C63_getBin_partial",
    "KML.C63_full_partial"
   ],
   "note": "False: C63_violated (getBin(size()) is undefined; full() means non-empty). Proved: exact trichotomy of getBin; meaning of full() while the window fills."
  },
  {
   "property": "C64",
   "status": "proved",
   "theorems": [
    "KML.C64_binned",
    "KML.C64_shannon"
   ],
   "note": "Exact real arithmetic with the real logarithm; also for values that share bins (C64_binned). Includes definedness."
  },
  {
   "property": "C65",
   "status": "proved",
   "theorems": [
    "KML.C65_bounds"
   ],
   "note": "Exact real arithmetic with the real logarithm."
  },
  {
   "property": "C66",
   "status": "partial",
   "theorems": [
    "KML.C66_violated",
    "KML.C66_new_maximum",
    "KML.C66_increasing",
    "KML.C66_defined_partial",
    "KML.C66_constant_partial",
    "KML.C66_no_window"
   ],
   "note": "False: C66_violated (wrong value after eviction); C66_new_maximum and C66_increasing (out-of-range bin, any arithmetic); C66_no_window. Proved: definedness with at most numBins different values; entropy 0 for ever on constant streams."
  },
  {
   "property": "C67",
   "status": "proved",
   "theorems": [
    "KML.C67_sturges"
   ],
   "note": "Real logarithm. windowSize 0 with numBins 0 is an undefined conversion (C66_no_window)."
  },
  {
   "property": "C68",
   "status": "proved",
   "theorems": [
    "KML.C68_xlogx",
    "KML.C68_any"
   ],
   "note": "Real logarithm; the rejection condition in any arithmetic."
  },
  {
   "property": "C69",
   "status": "partial",
   "theorems": [
    "KML.C69_violated",
    "KML.C69_ring_partial",
    "KML.C69_list_partial",
    "KML.C69_exact_partial",
    "KML.C69_error_partial",
    "KML.C69_ring_exact_partial"
   ],
   "note": "Violated by 0.1 (the containers store 32-bit floats). Proved for every Python session: both containers return the narrowed values of the queue; values with 24-bit significands survive exactly; others change by at most one part in 2^24."
  },
  {
   "property": "C70",
   "status": "partial",
   "theorems": [
    "KML.C70_violated",
    "KML.C70_variance",
    "KML.C70_statistics_partial",
    "KML.C70_histogram_reset_partial",
    "KML.C70_ringbuffer",
    "KML.C70_linkedlist"
   ],
   "note": "StreamingVariance never counts (C70_violated, C70_variance: always 0). All nine other statistics classes and the histogram count every update, for every arithmetic, parameter and sequence; after a histogram reset the count starts again; both containers count every update call across any history."
  },
  {
   "property": "C71",
   "status": "partial",
   "theorems": [
    "KML.C71_violated",
    "KML.C71_window_partial"
   ],
   "note": "Violated: None raises TypeError in six classes. Proved: the containers, mean and variance are constructed exactly for integers 0..2^64-1 (and, unless Cython checks annotations, floats with such an integer part, see C119) and every other argument raises."
  },
  {
   "property": "C72",
   "status": "partial",
   "theorems": [
    "KML.C72_violated",
    "KML.C72_scalar_partial",
    "KML.C72_iterable_partial",
    "KML.C72_prefix_partial",
    "KML.C72_string_partial"
   ],
   "note": "Violated by update([1, None]). Proved for every wrapper: failing single values change nothing; an iterable is its items one by one up to the first failure; exactly the converted prefix stays; a string is its characters, so the empty one does nothing and any other raises TypeError, changing nothing."
  },
  {
   "property": "C73",
   "status": "partial",
   "theorems": [
    "KML.C73_violated",
    "KML.C73_both_partial"
   ],
   "note": "Violated by PyStreamingIQR(low=0.1): the low quantile is ignored when high is None. Proved when both are given."
  },
  {
   "property": "C74",
   "status": "partial",
   "theorems": [
    "KML.C74_violated",
    "KML.C74_leak_partial"
   ],
   "note": "Violated by any update. Proved for every history of updates and resets: the leak is every bin ever allocated, nonzero exactly when something was added, at most one per update."
  },
  {
   "property": "C75",
   "status": "partial",
   "theorems": [
    "KML.C75_violated",
    "KML.C75_upper_partial",
    "KML.C75_lower_partial",
    "KML.C75_markers_partial",
    "KML.C75_parabola_interpolates"
   ],
   "note": "Violated for q < 1/2 (markers are adjusted from the right). Proved: for q >= 1/2 the estimate is the published one; for q < 1/2 it is the published one with the opposite adjustment order; heights and positions of all five markers agree."
  },
  {
   "property": "C76",
   "status": "partial",
   "theorems": [
    "KML.C76_violated",
    "KML.C76_tolerance_partial",
    "KML.C76_closest_partial",
    "KML.C76_double_partial",
    "KML.C76_closest_double_partial"
   ],
   "note": "Violated when gaps differ by less than the tolerance. Proved: no gap undercuts the merged one by more than the relative tolerance 1e-4, and a pair closer than all others by more than that is the one merged. On doubles up to half of the largest the same holds for every stream, with the tolerance 1/9990 and the least positive double (C76_double_partial, C76_closest_double_partial)."
  },
  {
   "property": "C77",
   "status": "proved",
   "theorems": [
    "KML.C77_recursion",
    "KML.C77_step_law",
    "KML.C77_tracking"
   ],
   "note": ""
  },
  {
   "property": "C78",
   "status": "partial",
   "theorems": [
    "KML.C78_full_partial",
    "KML.C78_nonempty_partial",
    "KML.C78_alone_partial",
    "KML.C78_violated"
   ],
   "note": "False for empty(): it can report an empty buffer while the buffer always holds something (C78_violated, two threads, window 2). Proved for all interleavings: full() is always right about some moment of the call; empty() = false is right about some moment; without overlapping update/pop/reset empty() is exact. Missing: empty() = true, which is false."
  },
  {
   "property": "C79",
   "status": "partial",
   "theorems": [
    "KML.C79_mean_partial",
    "KML.C79_variance_partial",
    "KML.C79_p2_partial",
    "KML.C79_windowed_partial",
    "KML.C79_fame_partial",
    "KML.C79_iqr_partial",
    "KML.C79_mad_partial",
    "KML.C79_containers_partial",
    "KML.C79_leaks",
    "KML.C79_violated",
    "KML.C79_entropy_leaks",
    "KML.C79_python_leaks",
    "KML.C79_defaults_partial"
   ],
   "note": "False for StreamingIQR when the high quantile is rejected (the low quantile object is lost), for StreamingEntropy (no destructor, histogram never deleted) and for the Python containers (no __dealloc__). Proved for all arguments and heaps for StreamingMean, StreamingVariance, StreamingP2Quantile, WindowedP2Quantile, WindowedFAME, StreamingMAD, StreamingIQR with an accepted high quantile, RingBuffer, StreamingHistogram without bins (C74 has the bins), and wrappers with __dealloc__. LinkedList nodes are in C11."
  },
  {
   "property": "C80",
   "status": "proved",
   "theorems": [
    "KML.C80_entropy",
    "KML.C80_session",
    "KML.C80_mean",
    "KML.C80_variance",
    "KML.C80_fame",
    "KML.C80_mad",
    "KML.C80_quantiles_histogram",
    "KML.C80_histogram_calls"
   ],
   "note": "C80_session proves equality with the C++ program for any wrapper whose C++ update never throws (session_of_inv: never throws on reachable objects); the other theorems instantiate it; C80_histogram_calls spells out every histogram method."
  },
  {
   "property": "C81",
   "status": "partial",
   "theorems": [
    "KML.C81_violated",
    "KML.C81_quantile_partial",
    "KML.C81_windowed_partial",
    "KML.C81_fame_partial",
    "KML.C81_entropy_histogram_partial",
    "KML.C81_arguments_partial",
    "KML.C81_others_violated"
   ],
   "note": "False: NaN is accepted as quantile and as epsilon, and PyStreamingEntropy(0, 0) is undefined behaviour. Proved for every argument, with and without annotation checks by Cython: constructed exactly for the documented arguments and NaN (integers for Optional[float] parameters only without the check); entropy and histogram exactly for unsigned 64-bit integers (and floats truncated to such, see C119) other than that pair; the object constructed has exactly the parameters given (C81_arguments_partial)."
  },
  {
   "property": "C82",
   "status": "partial",
   "theorems": [
    "KML.C82_violated",
    "KML.C82_run_partial",
    "KML.C82_range_partial",
    "KML.C82_windowed_partial",
    "KML.C82_iqr_partial"
   ],
   "note": "False: heights of opposite sign near the largest double overflow to NaN. Proved for data of magnitude up to 2^950, for every history of calls: each class on doubles returns exactly what it returns in rounded arithmetic without overflow (so all Rounding theorems apply), and StreamingP2Quantile stays within the data."
  },
  {
   "property": "C83",
   "status": "partial",
   "theorems": [
    "KML.C83_violated",
    "KML.C83_overflow_violated",
    "KML.C83_never_recovers_partial",
    "KML.C83_infinite_partial",
    "KML.C83_finite_partial",
    "KML.C83_moderate_partial",
    "KML.C83_variance_partial"
   ],
   "note": "False: one infinity, or two of the largest doubles, and the mean is NaN or infinite for ever. Proved: a mean that is once not finite never recovers, a non-finite observation always does that, and otherwise the result equals rounded arithmetic; up to 2^52 observations below 2^950 (2^450 for StreamingVariance) never overflow."
  },
  {
   "property": "C84",
   "status": "proved",
   "theorems": [
    "KML.C84_fixed_point"
   ],
   "note": "On doubles with overflow and subnormals (Dbl). Range of exponents: -1074 to 890."
  },
  {
   "property": "C85",
   "status": "proved",
   "theorems": [
    "KML.C85_step_bounded",
    "KML.C85_estimate_bounded"
   ],
   "note": "Exact arithmetic over any ordered field."
  },
  {
   "property": "C86",
   "status": "partial",
   "theorems": [
    "KML.C86_violated",
    "KML.C86_never_recovers_partial",
    "KML.C86_fame_partial",
    "KML.C86_mad_partial",
    "KML.C86_mad_finite_partial",
    "KML.C86_mad_always_partial",
    "KML.C86_default_partial",
    "KML.C86_default_range_partial"
   ],
   "note": "False: WindowedFAME of {3*2^1022, largest double} is infinite, and stays not finite for ever (proved). Proved on doubles with overflow: with epsilon 0, the default, for streams of any length, the estimate stays finite and within the first step of the data unless that sum overflows (C86_default_partial), so for all data up to 2^1023 (C86_default_range_partial); with any epsilon, for observations and step up to 2^960 and up to 2^46 observations WindowedFAME equals its value in rounded arithmetic without overflow, of magnitude at most 4 n 2^M; StreamingMAD likewise up to 2^900. For StreamingMAD the claim holds as stated (C86_mad_always_partial): it is finite, at most min(n, 2^53), whatever follows a finite first observation, infinities and NaN included."
  },
  {
   "property": "C87",
   "status": "proved",
   "theorems": [
    "KML.C87_settles",
    "KML.C87_converges",
    "KML.C87_mad_vanishes"
   ],
   "note": "Exact arithmetic over any Archimedean ordered field. The number of observations needed depends on the state and the range only, not on the observations. On doubles it fails: see C95."
  },
  {
   "property": "C88",
   "status": "partial",
   "theorems": [
    "KML.C88_violated",
    "KML.C88_no_overflow_partial",
    "KML.C88_ordered_partial",
    "KML.C88_defined_partial",
    "KML.C88_enough_bins_partial",
    "KML.C88_nan",
    "KML.C88_nan_order"
   ],
   "note": "False: {0, largest double} in one bin merges a bin that does not exist (undefined), as does {-largest, largest}. Proved on doubles with overflow: for doubles up to half of the largest the histogram is that of rounded arithmetic without overflow, for any number of bins, window and length; hence ordered edges that are observations; every stream that fits the window is processed up to a quarter of the largest, and every stream with enough bins for its different values up to half. NaN is accepted and gets its own bin; with NaN and infinity the bins get out of order and one observation can have two bins."
  },
  {
   "property": "C89",
   "status": "partial",
   "theorems": [
    "KML.C89_violated",
    "KML.C89_scale_partial",
    "KML.C89_counts_partial",
    "KML.C89_shift"
   ],
   "note": "False for the quantiles: bins of width 0 get the width 1/numBins in any unit ({1, 2}: 3/2 at level 3/4; {10, 20}: 21/2). Proved, exact arithmetic, any stream, bins and window: the histogram of the scaled data is the scaled histogram, counts, pdf and cdf are equal, and one run is undefined exactly when the other is. (Moving the origin does change the table; concrete case proved.)"
  },
  {
   "property": "C90",
   "status": "proved",
   "theorems": [
    "KML.C90_scale"
   ],
   "note": "Exact real arithmetic; undefined exactly when the unscaled run is."
  },
  {
   "property": "C91",
   "status": "partial",
   "theorems": [
    "KML.C91_violated",
    "KML.C91_negation_partial",
    "KML.C91_rate_partial"
   ],
   "note": "False: the step of the deviation is fixed at 0.1. Proved, exact arithmetic: negating the data changes nothing, and the deviation is never more than (n-1)/10 whatever the data (attained)."
  },
  {
   "property": "C92",
   "status": "partial",
   "theorems": [
    "KML.C92_violated",
    "KML.C92_pdf_partial",
    "KML.C92_cdf_partial",
    "KML.C92_quantile_partial",
    "KML.C92_nan_level"
   ],
   "note": "False: ten observations in ten bins give a cdf that ends below 1, and the level NaN is not rejected (a value comes back, with any histogram of two bins or more). Proved on doubles with overflow, NaN and infinities allowed among the observations, streams that fit the window: pdf entries are the correctly rounded frequencies; the cdf is finite, non-decreasing and within (i+1) 2^-51 of the exact cumulative frequency at entry i; with 2 to 2^30 bins every finite level in [0,1] has a quantile; a level is rejected exactly when it compares below 0 or above 1."
  },
  {
   "property": "C93",
   "status": "partial",
   "theorems": [
    "KML.C93_entropy_test",
    "KML.C93_violated",
    "KML.C93_cpp_partial",
    "KML.C93_python_partial",
    "KML.C93_entropy_empty_partial",
    "KML.C93_entropy_exact_partial",
    "KML.C93_entropy_cpp_partial",
    "KML.C93_entropy_python_partial"
   ],
   "note": "False: TestUniformEntropyWithDecrement (C++ and Python) reads a bin past the end of the vector at the eleventh observation, whatever the logarithm. Proved by evaluation on doubles with overflow: the other 51 C++ and 34 Python assertions, including EXPECT_FLOAT_EQ and assertAlmostEqual, hold; the empty entropy test passes; the two remaining entropy tests (C++ and Python) pass on doubles with any log2 accurate to 2^-51 (C96)."
  },
  {
   "property": "C94",
   "status": "proved",
   "theorems": [
    "KML.C94_attained",
    "KML.C94_mean",
    "KML.C94_variance"
   ],
   "note": "C94_attained: a period of ten observations (window 5, magnitude 2^54) moves the mean by 4/5 per period although the window is the same, for up to 2^48 periods, so the linear growth is real. On doubles with overflow and subnormals (Dbl); the generic lemmas hold for any rounding with error u|x| + eta."
  },
  {
   "property": "C95",
   "status": "partial",
   "theorems": [
    "KML.C95_freezes_partial",
    "KML.C95_violated",
    "KML.C95_freezes_all_partial",
    "KML.C95_dead_partial",
    "KML.C95_freezes_epsilon_partial",
    "KML.C95_stuck_iff_partial",
    "KML.C95_mad_partial",
    "KML.C95_follows_partial"
   ],
   "note": "False with the default parameters: 56 equal observations at the start freeze the result for ever; 2100 do so for any double and step with epsilon 0, 3948 for epsilon up to 1/8. With epsilon 0 the stuck states are characterised exactly. StreamingMAD returns 0 for ever after 1073 equal observations at the start. Proved where it holds (epsilon 0): if the magnitudes are at most 2^K and the step at least 2^(K-49) when the stream settles, the estimate ends up within 2^(K-48) and stays there."
  },
  {
   "property": "C96",
   "status": "proved",
   "theorems": [
    "KML.C96_binned",
    "KML.C96_shannon"
   ],
   "note": "On doubles with overflow and subnormals; log2 is any function with relative error 2^-51 on positive doubles (existence of one is proved). Once the window is full: C134."
  },
  {
   "property": "C97",
   "status": "partial",
   "theorems": [
    "KML.C97_down",
    "KML.C97_up",
    "KML.C97_step_partial",
    "KML.C97_violated",
    "KML.C97_dbl_down",
    "KML.C97_dbl_up"
   ],
   "note": "False: StreamingEntropy(2) fed with 1, 1, 2 repeated k+2 times returns exactly -k bits; with 3 bins, 1, 1, 2, 2, 3 repeated k+1 times gives (k+2)/2; both over the reals for every k and on doubles for k up to 2^48 with any log2 that is right at 1 and 1/2. Proved: the exact change of every update once the window is full. Bounds while the window fills are C65."
  },
  {
   "property": "C98",
   "status": "partial",
   "theorems": [
    "KML.C98_violated",
    "KML.C98_violated_tie",
    "KML.C98_violated_five",
    "KML.C98_mirror_partial",
    "KML.C98_five_partial",
    "KML.C98_iqr_partial",
    "KML.C98_violated_dbl"
   ],
   "note": "The property is false: the median of seven different numbers is 19/3 one way and 8 the other (C98_violated; on doubles C98_violated_dbl), because the adjustments are made in ascending order for every level from 1/2 on; it also fails when an observation equals a marker (C98_violated_tie) and, with exactly five observations, when 4q is midway between integers (C98_violated_five). Proved in exact arithmetic for every level other than 1/2 and all streams in which no observation after the fifth equals an inner marker (C98_mirror_partial), for five observations (C98_five_partial), and for StreamingIQR between the levels q and 1-q until its window is full (C98_iqr_partial)."
  },
  {
   "property": "C99",
   "status": "partial",
   "theorems": [
    "KML.C99_rounded_partial",
    "KML.C99_separated_partial",
    "KML.C99_violated",
    "KML.C99_violated_drift",
    "KML.C99_violated_overlap",
    "KML.C99_dbl_partial"
   ],
   "note": "The property is false: 1.00005 is counted in the bin from 1 to 1 (C99_violated), and on doubles a descending stream of n consecutive integers from two million on ends in one bin [m, m] with count n, so that the largest observation can be arbitrarily far above the last edge (C99_violated_drift); one observation past the window bins overlap (C99_violated_overlap). Proved for any number of bins when the tolerant comparison tells the observations apart: any symmetric rounding (C99_rounded_partial), exact arithmetic with definedness (C99_separated_partial), real doubles (C99_dbl_partial)."
  },
  {
   "property": "C100",
   "status": "partial",
   "theorems": [
    "KML.C100_cdf_partial",
    "KML.C100_violated",
    "KML.C100_dbl_partial"
   ],
   "note": "The property is false: for 1, 1.00005 the cdf at the edge 1 is 1, and on doubles a descending stream of n integers has cdf 1 at its minimum where the fraction is 1/n (C100_violated). Proved for any number of bins when the values are separated by more than the relative tolerance 0.0001, in exact arithmetic (C100_cdf_partial), and on doubles up to (i+1)*2^-51 (C100_dbl_partial)."
  },
  {
   "property": "C101",
   "status": "partial",
   "theorems": [
    "KML.C101_violated",
    "KML.C101_mean_partial",
    "KML.C101_variance_partial",
    "KML.C101_fame_first_partial",
    "KML.C101_fame_ignored_partial",
    "KML.C101_mad_partial",
    "KML.C101_quantile_first_partial",
    "KML.C101_quantile_evaluate_partial",
    "KML.C101_windowed_partial",
    "KML.C101_undefined_violated",
    "KML.C101_quantile_later_partial",
    "KML.C101_maximum_forgotten_partial",
    "KML.C101_maximum_violated",
    "KML.C101_numbers_partial",
    "KML.C101_moderate_partial",
    "KML.C101_moderate_windowed_partial",
    "KML.C101_moderate_iqr_partial",
    "KML.C101_stale_violated"
   ],
   "note": "The property is false: WindowedFAME and StreamingMAD ignore every NaN that is not the first observation (C101_violated, C101_fame_ignored_partial, C101_mad_partial); StreamingP2Quantile calls std::sort on NaN, which is undefined (C101_undefined_violated; exactly when: C101_quantile_first_partial), or lets a later NaN replace its maximum, which the next large observation replaces again (C101_maximum_violated); after infinities or overflow and clear() evaluate sorts a stale NaN (C101_stale_violated). Proved: the claim for StreamingMean and StreamingVariance, for a first NaN in WindowedFAME and StreamingMAD, and that on numbers (any Rounding arithmetic; doubles up to 2^950) the sorts are always defined."
  },
  {
   "property": "C102",
   "status": "partial",
   "theorems": [
    "KML.C102_violated",
    "KML.C102_fame_violated",
    "KML.C102_quantile_violated",
    "KML.C102_mean_partial",
    "KML.C102_rounded_partial",
    "KML.C102_quantile_partial",
    "KML.C102_fixed_point_partial"
   ],
   "note": "The property is false: in binary64 the windowed mean of 1, 2^53, 1, 1 (window 2) is 0.5 and that of 1, 1, 1, 1 is 1 (C102_violated); WindowedFAME and StreamingP2Quantile violate it even in exact arithmetic (C102_fame_violated, C102_quantile_violated). Proved: StreamingMean in exact arithmetic with any window, in every rounding arithmetic until the first eviction, and StreamingP2Quantile up to five observations; on doubles, fixed-point data with any window and streams of any length (C102_fixed_point_partial)."
  },
  {
   "property": "C103",
   "status": "partial",
   "theorems": [
    "KML.C103_violated",
    "KML.C103_fame_violated",
    "KML.C103_quantile_violated",
    "KML.C103_histogram_violated",
    "KML.C103_moments_partial",
    "KML.C103_quantile_partial",
    "KML.C103_histogram_partial",
    "KML.C103_entropy_partial",
    "KML.C103_fixed_point_partial"
   ],
   "note": "The property is false: the double mean of 2^53, 1, 1 depends on the order (C103_violated), and in exact arithmetic WindowedFAME, StreamingP2Quantile from the sixth observation and StreamingHistogram once bins are merged depend on it (C103_fame_violated, C103_quantile_violated, C103_histogram_violated). Proved: mean and variance in exact arithmetic, the mean of fixed-point doubles, the quantile up to five observations and the histogram with enough bins in every rounding arithmetic, the entropy under the same conditions."
  },
  {
   "property": "C104",
   "status": "partial",
   "theorems": [
    "KML.C104_violated",
    "KML.C104_mean_partial",
    "KML.C104_variance_partial",
    "KML.C104_fame_partial",
    "KML.C104_quantile_partial",
    "KML.C104_windowed_partial",
    "KML.C104_iqr_partial",
    "KML.C104_histogram_partial",
    "KML.C104_mean_double_partial",
    "KML.C104_histogram_double_partial"
   ],
   "note": "The property is false for subnormal numbers: the mean of 1 and 2 units of 2^-1074 is rounded to 2 units, that of 2 and 4 units is 3 (C104_violated). Proved for every rounding that commutes with the factor, hence for 53-bit arithmetic without underflow, for all seven classes; for doubles with gradual underflow, StreamingMean (sum always, value unless subnormal) and StreamingHistogram (data zero or at least 2^-900)."
  },
  {
   "property": "C105",
   "status": "proved",
   "theorems": [
    "KML.C105_strict_order",
    "KML.C105_monotone",
    "KML.C105_bins",
    "KML.C105_search",
    "KML.C105_sum"
   ],
   "note": "Finite doubles of all magnitudes; NaN and infinite edges are not covered (C101 treats NaN observations)."
  },
  {
   "property": "C106",
   "status": "proved",
   "theorems": [
    "KML.C106_no_throw",
    "KML.C106_outcome"
   ],
   "note": "The number of bins never shrinks, so an index that was valid stays valid."
  },
  {
   "property": "C107",
   "status": "proved",
   "theorems": [
    "KML.C107_refines",
    "KML.C107_no_dangling",
    "KML.C107_ownership",
    "KML.C107_heap",
    "KML.C107_delete_once"
   ],
   "note": "Justifies the by-value model used by all other histogram theorems. Copying a histogram is not covered (StreamingHistogram deletes or does not define its copy and move members); C107_delete_once: two owners of the same pointers would be a double delete."
  },
  {
   "property": "C108",
   "status": "proved",
   "theorems": [
    "KML.C108_search",
    "KML.C108_partitioned",
    "KML.C108_quantile"
   ],
   "note": "Removes the assumption that std::lower_bound is called on a sorted range."
  },
  {
   "property": "C109",
   "status": "proved",
   "theorems": [
    "KML.C109_bound",
    "KML.C109_no_window",
    "KML.C109_one_bin",
    "KML.C109_sharp",
    "KML.C109_threshold",
    "KML.C109_threshold_double",
    "KML.C109_smallest_double"
   ],
   "note": "C109_bound (any arithmetic; the differences must pass the comparison with DBL_MAX), C109_sharp (any arithmetic), C109_threshold (exact), C109_threshold_double with the failing stream 1, 2, ..., numBins + 1, then numBins + 1 another 2 W times; C109_smallest_double, C109_one_bin, C109_no_window for the remaining parameters. Completes C55."
  },
  {
   "property": "C110",
   "status": "proved",
   "theorems": [
    "KML.C110_round",
    "KML.C110_round_float",
    "KML.C110_double",
    "KML.C110_operations",
    "KML.C110_closed",
    "KML.C110_special",
    "KML.C110_compare",
    "KML.C110_round_int",
    "KML.C110_float"
   ],
   "note": "The standard is stated in Spec/Double.lean without reference to how rounding is computed (RoundTo: membership in the format, nearest, ties to even), and C110_round / C110_round_float say that it has exactly one solution, the one the model computes. C110_operations, C110_closed, C110_special, C110_compare, C110_round_int, C110_float. Not covered: signed zeros (identified in the model; x / 0 takes the sign of x) and NaN payloads."
  },
  {
   "property": "C111",
   "status": "partial",
   "theorems": [
    "KML.C111_violated",
    "KML.C111_late_violated",
    "KML.C111_watched_violated",
    "KML.C111_rounded_partial",
    "KML.C111_settles_partial",
    "KML.C111_iqr_partial",
    "KML.C111_jump_partial",
    "KML.C111_double_partial"
   ],
   "note": "The property is false: after six zeros and five ones the median over a window of five is 2 (C111_violated), one outlier is visible for two windows (C111_late_violated), longer still if evaluate is called in between (C111_watched_violated). Proved: from 2W+1 equal observations on the estimate is c after any stream (exact: C111_settles_partial; any rounding: C111_rounded_partial; doubles up to 2^950, within (2W+1)*2^-53*|c|: C111_double_partial), StreamingIQR is exactly 0 (C111_iqr_partial), and the exact response to a jump (C111_jump_partial)."
  },
  {
   "property": "C112",
   "status": "proved",
   "theorems": [
    "KML.C112_fixed_point"
   ],
   "note": "C112_fixed_point, on doubles with overflow. The size condition is needed: C19_zero_violated has windowSize * B^2 slightly above 2^54."
  },
  {
   "property": "C113",
   "status": "partial",
   "theorems": [
    "KML.C113_violated",
    "KML.C113_rare_partial"
   ],
   "note": "False: for 3, 2, 3, 2, 3 repeated the step is halved at every 2 and the estimate converges to the minority value 2, with the exact values given (C113_violated). C113_rare_partial proves convergence to the majority value, after any earlier stream, when only two values are observed and each observation of the rarer one is followed by at least two of the other."
  },
  {
   "property": "C114",
   "status": "partial",
   "theorems": [
    "KML.C114_violated",
    "KML.C114_negative_violated",
    "KML.C114_variance_violated",
    "KML.C114_exact_partial",
    "KML.C114_fixed_point_partial",
    "KML.C114_sign_partial"
   ],
   "note": "False on doubles: three observations of 0.1 have a mean above 0.1 (C114_violated), a window of zeros can have the mean -1/2 after non-negative observations (C114_negative_violated), six observations of 0.1 have a positive variance (C114_variance_violated). C114_exact_partial: both bounds in exact arithmetic. C114_fixed_point_partial: on doubles the mean of fixed-point data never leaves the range of the window. C114_sign_partial: for every rounding, non-negative observations have a non-negative mean as long as nothing has left the window."
  },
  {
   "property": "C115",
   "status": "partial",
   "theorems": [
    "KML.C115_first_update",
    "KML.C115_violated",
    "KML.C115_python_violated",
    "KML.C115_window_partial",
    "KML.C115_python_partial",
    "KML.C115_arguments_partial"
   ],
   "note": "False: with any decay type other than WINDOW the window is never allocated, but add() pushes into it unconditionally, so the first update dereferences a null pointer (C115_first_update for all parameters, C115_violated, C115_python_violated for PyStreamingHistogram(5, 5, 0)). C115_window_partial: with WINDOW the histogram with its decay type and nullable window pointer is the model used everywhere else; C115_python_partial: so is the Python default."
  },
  {
   "property": "C116",
   "status": "partial",
   "theorems": [
    "KML.C116_violated",
    "KML.C116_empty",
    "KML.C116_text_partial",
    "KML.C116_number_partial",
    "KML.C116_value_partial",
    "KML.C116_count",
    "KML.C116_form",
    "KML.C116_partial"
   ],
   "note": "False: streams print six significant digits, so the histograms of the single observations 1 and 1 + 2^-30 print alike (C116_violated). C116_text_partial: for any format of numbers without commas and brackets, the text is equal exactly when the texts of all boundaries and all counts are equal. C116_number_partial: doubles that print alike agree to six significant digits and in sign. C116_partial: so histograms that print alike have as many bins, equal counts, and boundaries within 5e-6 relative. C116_form, C116_count, C116_value_partial: the form of the text, counts read back exactly, boundaries read back as decimal numbers within 5e-6 relative. C116_empty: the text is \"()\" exactly for no bins."
  },
  {
   "property": "C117",
   "status": "partial",
   "theorems": [
    "KML.C117_violated",
    "KML.C117_partial",
    "KML.C117_plain_partial",
    "KML.C117_package_partial"
   ],
   "note": "False: the source is computed back from the module name, so a point in a file or directory name leads to a file that does not exist (C117_violated: kml/fast.mean.pyx). C117_partial: the extensions are the files in the order found, and the source is right exactly when the path has no other point. C117_plain_partial: without points every file is built once under a name of its own. C117_package_partial: the eleven modules of the package. The hypothesis that no path contains the path of the package directory again is needed because every occurrence of that text is removed."
  },
  {
   "property": "C118",
   "status": "partial",
   "theorems": [
    "KML.C118_violated",
    "KML.C118_separate",
    "KML.C118_index",
    "KML.C118_partial"
   ],
   "note": "False: --build-lib DIR as two arguments gives a directory called --build-lib (C118_violated, C118_separate for every DIR); -b is not read; -w as last argument raises IndexError (C118_index). C118_partial: with one build_ext and no argument starting with -w the result is DIR for the first --build-lib=DIR after the command, DIR without =, and ./build if no argument starts with --build-lib. os.path.relpath, which follows, is not modelled."
  },
  {
   "property": "C119",
   "status": "partial",
   "theorems": [
    "KML.C119_violated",
    "KML.C119_partial"
   ],
   "note": "False with a Cython that does not check int annotations (any allowed by pyproject.toml, e.g. 3.0.11): PyRingBuffer(2.5) holds two items, PyStreamingMean(-0.5) has window 0 (C119_violated). C119_partial: everything else but integers raises, floats raise if annotations are checked or if they are NaN, infinite, at most -1 or at least 2^64; the remaining floats construct exactly the object of their integer part."
  },
  {
   "property": "C120",
   "status": "partial",
   "theorems": [
    "KML.C120_violated",
    "KML.C120_mean_partial",
    "KML.C120_histogram_partial"
   ],
   "note": "False for StreamingMean: with a full window mean.update(mean.getWindow()->front()) pops the element and then reads it (C120_violated). C120_mean_partial: every other element of the window is fine, and the front while the window is filling; the front of a full window is always a use after free. C120_histogram_partial: an edge of any bin can be given, for every allocator."
  },
  {
   "property": "C121",
   "status": "partial",
   "theorems": [
    "KML.C121_violated",
    "KML.C121_agrees",
    "KML.C121_mean_partial",
    "KML.C121_value_partial",
    "KML.C121_mean_recovers_partial",
    "KML.C121_nan_violated",
    "KML.C121_variance_recovers_partial",
    "KML.C121_negative_violated",
    "KML.C121_list_partial",
    "KML.C121_histogram_partial",
    "KML.C121_counts_partial",
    "KML.C121_bins_violated",
    "KML.C121_total_violated",
    "KML.C121_entropy_partial",
    "KML.C121_entropy_violated"
   ],
   "note": "False (C121_violated): with a full window StreamingMean has popped its front before push_back throws. C121_agrees: with no failure the calls are those of the rest of the model. C121_mean_partial: the window is a suffix of the accepted observations, at most one short; C121_value_partial: exact evaluate is its average; C121_mean_recovers_partial and C121_variance_recovers_partial: after W successful updates the value is right again. C121_nan_violated: with a window of one the mean is NaN; C121_negative_violated: the variance is -25. C121_list_partial: LinkedList is unchanged. C121_histogram_partial and C121_counts_partial: what a histogram can look like, counts and total in step; C121_bins_violated: one bin more than allowed; C121_total_violated: one observation too many for ever. C121_entropy_partial: unchanged if its own window fails; C121_entropy_violated: NaN for ever on doubles if the histogram fails."
  },
  {
   "property": "C122",
   "status": "partial",
   "theorems": [
    "KML.C122_violated",
    "KML.C122_members_violated",
    "KML.C122_classes_partial",
    "KML.C122_releases_partial",
    "KML.C122_kept_partial",
    "KML.C122_members_partial"
   ],
   "note": "False (C122_violated, C122_members_violated): StreamingVariance, StreamingIQR and StreamingMAD lose their first object if the second cannot be made. C122_members_partial: they never lose more than that. C122_classes_partial and C122_releases_partial: the other classes and their wrappers are clean whatever is refused; C122_kept_partial: so are StreamingEntropy and the Python containers while they are made."
  },
  {
   "property": "C123",
   "status": "partial",
   "theorems": [
    "KML.C123_violated",
    "KML.C123_stays_violated",
    "KML.C123_counts_partial",
    "KML.C123_update_partial",
    "KML.C123_decay",
    "KML.C123_unbounded_violated",
    "KML.C123_ordered_partial"
   ],
   "note": "False (C123_violated, C123_unbounded_violated): add does not merge, so n calls give n bins whatever numBins is, and later updates do not repair it (C123_stays_violated). C123_counts_partial: total, history count and counts are right, at most one bin too many per add; C123_update_partial: an update never leaves more than numBins bins or as many as before; C123_decay: decayCounts by itself never changes anything; C123_ordered_partial: order and observed edges survive."
  },
  {
   "property": "C124",
   "status": "proved",
   "theorems": [
    "KML.C124_mean",
    "KML.C124_variance",
    "KML.C124_fame",
    "KML.C124_mad",
    "KML.C124_p2",
    "KML.C124_windowed",
    "KML.C124_iqr",
    "KML.C124_entropy",
    "KML.C124_histogram",
    "KML.C124_compare",
    "KML.C124_same",
    "KML.C124_sort"
   ],
   "note": "One theorem per class (C124_mean, _variance, _fame, _mad, _p2, _windowed, _iqr, _entropy, _histogram, _compare); C124_same for two streams on two machines; C124_sort: any sorted order of zeros will do. Removes the simplification that Dbl has one zero and one NaN."
  },
  {
   "property": "C125",
   "status": "partial",
   "theorems": [
    "KML.C125_mean",
    "KML.C125_mean_wraps",
    "KML.C125_variance",
    "KML.C125_fame",
    "KML.C125_mad",
    "KML.C125_p2",
    "KML.C125_divides_by_zero",
    "KML.C125_iqr_divides_by_zero",
    "KML.C125_violated",
    "KML.C125_windowed_partial",
    "KML.C125_iqr_partial",
    "KML.C125_ring_buffer",
    "KML.C125_linked_list",
    "KML.C125_histogram",
    "KML.C125_entropy"
   ],
   "note": "Violated by WindowedP2Quantile and StreamingIQR with the window 2^64-1: m_windowSize + 1 is 0 and the first update divides by it (C125_divides_by_zero, C125_iqr_divides_by_zero, C125_violated); C125_windowed_partial and C125_iqr_partial for every smaller window. The other classes as claimed (C125_mean, _variance, _fame, _mad, _p2, _ring_buffer, _linked_list, _histogram, _entropy); C125_mean_wraps: after exactly 2^64 observations the mean is reported as 0."
  },
  {
   "property": "C126",
   "status": "proved",
   "theorems": [
    "KML.C126_search",
    "KML.C126_search_sharp",
    "KML.C126_lower_bound",
    "KML.C126_lower_bound_sharp",
    "KML.C126_update",
    "KML.C126_entropy"
   ],
   "note": "The fuel of the loops of the model is the number of passes allowed, so a loop run with fuel k and giving the same result ends within k passes. The bound is on the bins and indices held by the histogram; bins that were unlinked and never deleted (C74) are not counted."
  },
  {
   "property": "C127",
   "status": "proved",
   "theorems": [
    "KML.C127_double_window",
    "KML.C127_without_minimum",
    "KML.C127_exact"
   ],
   "note": "Says exactly how C57 fails: the index queue starts with windowSize zeros, so an index leaves it 2*windowSize updates after it entered."
  },
  {
   "property": "C128",
   "status": "proved",
   "theorems": [
    "KML.C128_unbounded",
    "KML.C128_unbounded_double",
    "KML.C128_one_bin",
    "KML.C128_no_window",
    "KML.C128_no_window_out_of_sync",
    "KML.C128_in_sync"
   ],
   "note": "The excess grows because a stale index takes from a bin whose count is already 0, which takes nothing, while the total still goes down by one."
  },
  {
   "property": "C129",
   "status": "partial",
   "theorems": [
    "KML.C129_violated",
    "KML.C129_defined_partial",
    "KML.C129_infinite",
    "KML.C129_all_infinite",
    "KML.C129_cdf_doubled"
   ],
   "note": "Violated: after 1, 2, 2 with a window of two the median is +inf (C129_violated), because quantile divides by the count of a bin that has been emptied but not erased. What holds: for every stream of doubles, NaN and infinities included, of up to 2^53 observations, with 2 to 2^30 bins, every level in [0,1] gets a value, without undefined behaviour or exception (C129_defined_partial; C60 and C92 have this only while the window fills). What happens instead: on streams whose new values are new maxima (as in C127), once the least value is not among the last 2W observations every level below the share of the least value that is has the quantile +inf (C129_infinite); one value followed by 2W equal greater ones makes every level above 0 infinite (C129_all_infinite); and the cdf is twice the empirical distribution function of the last 2W observations (C129_cdf_doubled)."
  },
  {
   "property": "C130",
   "status": "partial",
   "theorems": [
    "KML.C130_uniform",
    "KML.C130_violated",
    "KML.C130_constant_partial"
   ],
   "note": "Violated: of the thousand uniform numbers 261 are processed and the 262nd, 0.9900538501042633, is placed after the hundred bins, whose getBin(100) then reads past the end (C130_uniform, C130_violated; the generator and the run are checked by the kernel, for every std::log2). What holds: any finite double observed any number of times up to the window and 2^53 leaves the entropy exactly 0 (C130_constant_partial), as the notebook records for a thousand ones. On constant streams longer than the window rounding can leave a value near 0; C134 bounds it."
  },
  {
   "property": "C131",
   "status": "partial",
   "theorems": [
    "KML.C131_new_minima",
    "KML.C131_violated",
    "KML.C131_unbounded",
    "KML.C131_step",
    "KML.C131_bounds_partial"
   ],
   "note": "Violated (C131_violated): a merge changes the counts of bins but not the entropy. With 2 or more bins there are streams of n new minima, for every n that fits the window, after which evaluate() is log2 n (C131_new_minima), which exceeds the entropy of the bins by any amount log2 k (C131_unbounded). What holds for every defined run that fits the window: the recurrence n H' = (n-1) H + D(n) - D(c) with D(c) = c log2 c - (c-1) log2(c-1) and c the count of the bin now at the item's position (C131_step), and 0 <= evaluate() <= log2 n (C131_bounds_partial). For at most as many distinct values as bins the claim itself holds (C64_binned). Streams longer than the window: C97, C134."
  },
  {
   "property": "C132",
   "status": "partial",
   "theorems": [
    "KML.C132_violated",
    "KML.C132_quoted",
    "KML.C132_quoted_iff",
    "KML.C132_tuple_partial",
    "KML.C132_dev",
    "KML.C132_commit",
    "KML.C132_missing"
   ],
   "note": "Violated (C132_violated): '1.2.3' is read as 1...2. For every text in quotes the result is its first three characters with points between them (C132_quoted), which equals the text only if it has at most one character or is a character and four points (C132_quoted_iff). What holds: for a tuple of two or more numbers and texts, as setuptools_scm writes it, the result is the first three parts with points between them (C132_tuple_partial), so the whole version for two or three parts; a development version 0.3.0.dev5 is read as the release 0.3.0 (C132_dev). A following line with the commit is read instead (C132_commit); a missing file gives the empty version, an empty one an IndexError (C132_missing). literal_eval is modelled for whole numbers, texts in single quotes and tuples of at least two of them."
  },
  {
   "property": "C133",
   "status": "partial",
   "theorems": [
    "KML.C133_serial_partial",
    "KML.C133_violated",
    "KML.C133_ring_partial",
    "KML.C133_list_partial",
    "KML.C133_updates_partial",
    "KML.C133_reset"
   ],
   "note": "Violated (C133_violated): two updates with two items each leave 1, 3, 2, 4 in the buffer, which neither order of the two calls does. What holds: every run of any threads equals one history of queue operations in which each thread's operations are in order, items one by one, with the same answers, or the same undefined behaviour (C133_serial_partial). So a PyRingBuffer of window at least 1 is never undefined and answers as a bounded queue (C133_ring_partial), and a PyLinkedList likewise as long as nobody resets (C133_list_partial); threads that only update lose no item (C133_updates_partial), unlike in C++ (C13). Threads that update and reset are safe alone but two of them can dereference a null pointer (C133_reset). The model lets the lock change hands between any two items, which happens for generators and iterators written in Python."
  },
  {
   "property": "C134",
   "status": "proved",
   "theorems": [
    "KML.C134_step",
    "KML.C134_constant"
   ],
   "note": "C134_step is conditional on the update being defined (C106), on counts of at most W (C128: they can grow) and on a number of at most 15 in magnitude (C97: it can drift). C134_constant has no such conditions. Window 1 is not covered."
  },
  {
   "property": "C135",
   "status": "partial",
   "theorems": [
    "KML.C135_violated",
    "KML.C135_use_after_free",
    "KML.C135_two_resets",
    "KML.C135_guarded_partial",
    "KML.C135_one_reset",
    "KML.C135_allocator"
   ],
   "note": "Violated: an update that found the list not empty just before a reset leaves an empty list of size() 1 (C135_violated); reset can walk into a deleted node (C135_use_after_free) and two threads that each check full() before reset can make it dereference null (C135_two_resets). C135_guarded_partial: the claim for a class whose every call takes the mutex. C135_allocator: only the class's own state is raced for."
  },
  {
   "property": "C136",
   "status": "partial",
   "theorems": [
    "KML.C136_serial_partial",
    "KML.C136_endings_partial",
    "KML.C136_numbers_partial",
    "KML.C136_wrappers_partial",
    "KML.C136_mean_defined_partial",
    "KML.C136_mean_partial",
    "KML.C136_violated"
   ],
   "note": "Violated only in the last part, by rounding: 2^53, 1 and 1 given by two threads (C136_violated). C136_serial_partial: every run of every wrapper (C136_wrappers_partial) is one common history of C++ calls. C136_endings_partial: how each update ends depends on its argument alone. C136_numbers_partial: no number is lost or used twice. C136_mean_partial: for multiples of a power of two the final mean is the correctly rounded mean whatever the schedule; C136_mean_defined_partial: no run of the mean is undefined."
  },
  {
   "property": "C137",
   "status": "partial",
   "theorems": [
    "KML.C137_violated",
    "KML.C137_default_partial"
   ],
   "note": "False with epsilon 1/2: the data 0, 2^-200 raise the step from 3/2 to 9/4, because |x - m| rounds to the step and the step is not halved (C137_violated). Proved with epsilon 0, the default: the step never grows, whatever is observed, infinities and NaN included (C137_default_partial). C86_default_partial: the estimate stays within the first step of the data, for streams of any length."
  },
  {
   "property": "C138",
   "status": "partial",
   "theorems": [
    "KML.C138_violated",
    "KML.C138_plus_partial",
    "KML.C138_front_partial",
    "KML.C138_swallow_partial"
   ],
   "note": "False for +infinity: of 1, 2 and +infinity the infinity is counted in the bin from 1 to 1 (C138_violated). Proved: the search for an infinity or NaN ends at the first bin, whatever the bins (C138_search_partial), so +infinity is always counted in the lowest bin and leaves no trace in the edges (C138_plus_partial), and -infinity or NaN gets the first bin; when there is no room two finite bins are merged, and with one bin the behaviour is undefined (C138_front_partial). After a first observation -infinity everything else is counted in its bin, for streams of any length (C138_swallow_partial)."
  },
  {
   "property": "C139",
   "status": "partial",
   "theorems": [
    "KML.C139_violated",
    "KML.C139_never_recovers_partial",
    "KML.C139_spreads_partial"
   ],
   "note": "False: the median of 1, 2, 3, 4, 5, +infinity, 6, 7 is estimated as +infinity (C139_violated). Proved: marker 2 becomes infinite or NaN as soon as it moves towards a neighbour that is (C139_spreads_partial), and an estimate that is infinite or NaN stays so under any further observations (C139_never_recovers_partial)."
  },
  {
   "property": "C140",
   "status": "partial",
   "theorems": [
    "KML.C140_violated",
    "KML.C140_iff_partial",
    "KML.C140_rest_partial"
   ],
   "note": "False when the flag is given twice, as with CFLAGS in the environment: list.remove takes away the first only (C140_violated). Proved: the command comes out right exactly if the flag occurs at most once (C140_iff_partial); in every case no exception, the other arguments stay as they are and the flag is there once less (C140_rest_partial)."
  },
  {
   "property": "C141",
   "status": "partial",
   "theorems": [
    "KML.C141_infinite",
    "KML.C141_violated",
    "KML.C141_watched_violated",
    "KML.C141_forgets_partial",
    "KML.C141_iqr_partial"
   ],
   "note": "False: after +infinity and the numbers 0 to 13 the median over a window of seven is -infinity (C141_infinite, C141_violated). Proved: after 2 windowSize + 1 such observations without a call of evaluate the value is finite whatever was observed before, infinities included (C141_forgets_partial), and so is StreamingIQR (C141_iqr_partial); by C141_infinite one fewer is not enough. With calls of evaluate in between old infinities survive longer (C141_watched_violated). Missing: windows below 4."
  },
  {
   "property": "C142",
   "status": "partial",
   "theorems": [
    "KML.C142_grow_violated",
    "KML.C142_violated",
    "KML.C142_shrink_violated",
    "KML.C142_size_violated",
    "KML.C142_bounds_partial",
    "KML.C142_fresh_partial"
   ],
   "note": "False: with a larger size update writes behind the end of the buffer (C142_grow_violated, C142_violated); with a smaller one that is later set back pop reads an element never written (C142_shrink_violated), and size() can be 0 on a buffer that is not empty (C142_size_violated). Proved: with sizes from 1 to the one of the constructor there is no access outside of the buffer and no division by zero (C142_bounds_partial), and a smaller size assigned before the first call is as good as one given to the constructor (C142_fresh_partial)."
  },
  {
   "property": "C143",
   "status": "partial",
   "theorems": [
    "KML.C143_violated",
    "KML.C143_exact_partial",
    "KML.C143_unbounded_violated",
    "KML.C143_roomy_partial"
   ],
   "note": "False: the number of items is compared with the window size by equality, so below the number of items held nothing is evicted any more (C143_violated) and the list keeps everything (C143_unbounded_violated). Proved: an exact description for every history with assignments (C143_exact_partial: eviction exactly at equality, undefined only for reset on an empty list), and the claim for sizes that leave room for the items held (C143_roomy_partial)."
  },
  {
   "property": "C144",
   "status": "partial",
   "theorems": [
    "KML.C144_violated",
    "KML.C144_empty_violated",
    "KML.C144_safe_partial",
    "KML.C144_debt_partial",
    "KML.C144_iff_partial"
   ],
   "note": "False: the sum is kept apart from the deque (C144_violated: window [5], value 9) and after clear() the value is infinite (C144_empty_violated). Proved: no edit leads to undefined behaviour, in any arithmetic (C144_safe_partial); in exact arithmetic the error is the change of the sum, for ever (C144_debt_partial), so the value is right exactly if the edit keeps the sum (C144_iff_partial)."
  },
  {
   "property": "C145",
   "status": "proved",
   "theorems": [
    "KML.C145_range",
    "KML.C145_limit"
   ],
   "note": "An assignment can leave the heights unsorted, so the proof of C38 does not apply; interpolation stays between two heights in either order (C145_range). If 5 is assigned first, the positions count from the first observation and the limit is exactly 2^31 - 5 (C145_limit; C38 has 2^31)."
  },
  {
   "property": "C146",
   "status": "partial",
   "theorems": [
    "KML.C146_violated",
    "KML.C146_zero_violated",
    "KML.C146_window_partial",
    "KML.C146_exact_partial"
   ],
   "note": "False without a window (C146_violated: the sum is divided by the number assigned) and with a window after assigning 0 (C146_zero_violated). Proved: with a window the value and the window are, in any arithmetic, those without assignments unless the count is 0 (C146_window_partial); the value after every history in exact arithmetic (C146_exact_partial)."
  },
  {
   "property": "C147",
   "status": "proved",
   "theorems": [
    "KML.C147_unnoticed",
    "KML.C147_entropy"
   ],
   "note": "C147_unnoticed and C147_entropy compare each history with the same history without its assignments; exceptions and undefined behaviour are compared too."
  },
  {
   "property": "C148",
   "status": "partial",
   "theorems": [
    "KML.C148_violated",
    "KML.C148_exact_partial",
    "KML.C148_last_partial",
    "KML.C148_sources_partial"
   ],
   "note": "False: operator+= returns a copy, so (a += b) += c does not add c (C148_violated). Proved: the effect is that of the assignments up to the first += (C148_exact_partial), hence the claim where += comes last (C148_last_partial); no bin but the root changes, also when it is moved from (C148_sources_partial)."
  },
  {
   "property": "C149",
   "status": "partial",
   "theorems": [
    "KML.C149_violated",
    "KML.C149_comment_violated",
    "KML.C149_order_partial",
    "KML.C149_switches_partial",
    "KML.C149_main_partial",
    "KML.C149_nested_partial"
   ],
   "note": "False for some switches: with showTestNames but without showSuccesses a passing test starts and never ends (C149_violated). The comment in main, that everything is turned off, is wrong too (C149_comment_violated). Proved: order and completeness of assertion results for all switches (C149_order_partial), what each switch hides (C149_switches_partial) and what main hides (C149_main_partial), matching starts and ends if tests are shown or hidden as a whole (C149_nested_partial)."
  },
  {
   "property": "C150",
   "status": "proved",
   "theorems": [
    "KML.C150_defined",
    "KML.C150_bound",
    "KML.C150_attained"
   ],
   "note": "C150_defined holds under every rounding; C150_bound is about exact arithmetic; C150_attained gives a history whose value is exactly on the bound: five observations of 1 and a count of 19 in a window of 10 are reported as 10."
  },
  {
   "property": "C151",
   "status": "proved",
   "theorems": [
    "KML.C151_zero_only",
    "KML.C151_restart",
    "KML.C151_bound"
   ],
   "note": "C151_zero_only, C151_restart, C151_bound. Assigning 0 is the only way out of a median that is not a number (C86_never_recovers_partial says there is none by updates)."
  },
  {
   "property": "C152",
   "status": "partial",
   "theorems": [
    "KML.C152_violated",
    "KML.C152_total_partial",
    "KML.C152_deque_partial",
    "KML.C152_decay_partial",
    "KML.C152_rising_partial"
   ],
   "note": "False after lowering the window size: every update removes one observation and adds one, so the total stays (C152_violated). Proved: the exact total after every history (C152_total_partial), no decay from an empty deque (C152_deque_partial), explicit decayCounts calls bring the total down (C152_decay_partial), and the claim if the window is only raised (C152_rising_partial)."
  },
  {
   "property": "C153",
   "status": "partial",
   "theorems": [
    "KML.C153_violated",
    "KML.C153_violated_undefined",
    "KML.C153_violated_infinite",
    "KML.C153_defined_partial",
    "KML.C153_untouched_partial",
    "KML.C153_counts_partial",
    "KML.C153_modulo_partial",
    "KML.C153_edges_partial"
   ],
   "note": "False: a written count makes binCounts throw (C153_violated), and an edge written far away leaves no pair of bins to merge (C153_violated_undefined, C153_violated_infinite on doubles). Proved for every arithmetic: with edges less than DBL_MAX apart every observation among the first 2 W + numBins is processed (C153_defined_partial); totals, sizes and the deque length are out of reach of the writes (C153_untouched_partial); binCounts throws exactly if the written counts do not cancel out, up to W observations (C153_counts_partial), on size_t modulo 2^64 (C153_modulo_partial); written counts do not influence the edges up to W observations (C153_edges_partial)."
  },
  {
   "property": "C154",
   "status": "partial",
   "theorems": [
    "KML.C154_violated",
    "KML.C154_defined_partial",
    "KML.C154_undefined",
    "KML.C154_exact",
    "KML.C154_emptied",
    "KML.C154_untouched_partial",
    "KML.C154_filling_partial"
   ],
   "note": "False: one written index beyond the bins makes the next observation undefined (C154_violated; in general C154_undefined). Proved for every arithmetic: an observation is processed if the deque is empty or starts with the index of a bin (C154_defined_partial), with the window full exactly if the first index is less than the number of bins after placing (C154_exact); emptying the deque before every observation avoids the failures of C55 for streams of any length (C154_emptied); the total count, the number of observations and the limits are out of reach (C154_untouched_partial); up to W observations bins and counts do not depend on the deque (C154_filling_partial)."
  }
 ]
}
