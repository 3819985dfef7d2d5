{
 "claims": [
  {
   "property": "C01",
   "status": "proved",
   "theorems": [
    "FinML.Bars.C01_bar_stats_sound",
    "FinML.Bars.C01_bar_bounds"
   ],
   "note": "Proved in full about the model."
  },
  {
   "property": "C02",
   "status": "proved",
   "theorems": [
    "FinML.Bars.C02_bars_by_id",
    "FinML.Bars.C02_conservation",
    "FinML.Bars.C02_contiguous"
   ],
   "note": "Proved in full about the model."
  },
  {
   "property": "C03",
   "status": "proved",
   "theorems": [
    "FinML.Bars.C03_tick_bars"
   ],
   "note": "Proved in full about the model."
  },
  {
   "property": "C04",
   "status": "proved",
   "theorems": [
    "FinML.Bars.C04_volume_bars"
   ],
   "note": "Proved in full about the model."
  },
  {
   "property": "C05",
   "status": "partial",
   "theorems": [
    "FinML.Bars.C05_volume_bar_counterexample",
    "FinML.Bars.C05_volume_bar_closing_partial"
   ],
   "note": "The code violates the documented reading: C05_volume_bar_counterexample refutes the full statement VolumeBarsComplete. The _partial theorem states where the code does close a bar."
  },
  {
   "property": "C06",
   "status": "proved",
   "theorems": [
    "FinML.Bars.C06_dollar_bars"
   ],
   "note": "Proved in full about the model."
  },
  {
   "property": "C07",
   "status": "proved",
   "theorems": [
    "FinML.Bars.C07_imbalance_bars_cover"
   ],
   "note": "Proved in full about the model."
  },
  {
   "property": "C08",
   "status": "proved",
   "theorems": [
    "FinML.Bars.C08_min_bar_size"
   ],
   "note": "Proved in full about the model."
  },
  {
   "property": "C09",
   "status": "proved",
   "theorems": [
    "FinML.Bars.C09_flow",
    "FinML.Bars.C09_imbalance_rule",
    "FinML.Bars.C09_rule_deterministic"
   ],
   "note": "Proved in full about the model."
  },
  {
   "property": "C10",
   "status": "proved",
   "theorems": [
    "FinML.Bars.C10_imbalance_no_lookahead"
   ],
   "note": "Proved in full about the model."
  },
  {
   "property": "C11",
   "status": "proved",
   "theorems": [
    "FinML.Bars.C11_runs_bars_cover",
    "FinML.Bars.C11_runs_no_lookahead"
   ],
   "note": "Proved in full about the model."
  },
  {
   "property": "C12",
   "status": "partial",
   "theorems": [
    "FinML.Bars.C12_runs_bars_total_counterexample",
    "FinML.Bars.C12_runs_bars_failure_partial"
   ],
   "note": "Runs bars raise ZeroDivisionError/IndexError when one side has not traded: C12_runs_bars_total_counterexample refutes totality; the _partial theorem gives the failing condition."
  },
  {
   "property": "C13",
   "status": "proved",
   "theorems": [
    "FinML.Bars.C13_ewma_adjusted",
    "FinML.Bars.C13_ewma_recursive",
    "FinML.Bars.C13_ewma_bounds",
    "FinML.Bars.C13_ewma_causal",
    "FinML.Bars.C13_ewma_zero_span"
   ],
   "note": "Proved in full about the model."
  },
  {
   "property": "C14",
   "status": "proved",
   "theorems": [
    "FinML.Bars.C14_resample"
   ],
   "note": "Proved in full about the model."
  },
  {
   "property": "C15",
   "status": "partial",
   "theorems": [
    "FinML.Bars.C15_time_bars_gap_counterexample",
    "FinML.Bars.C15_time_bars_partial"
   ],
   "note": "The call raises on a gap in the stream: C15_time_bars_gap_counterexample refutes the full statement TimeBarsTotal. The _partial theorem characterises success and failure exactly and proves the bars right on success. Bins are anchored at the epoch."
  },
  {
   "property": "C16",
   "status": "proved",
   "theorems": [
    "FinML.Basket.C16_value_is_pnl",
    "FinML.Basket.C16_buy_and_hold",
    "FinML.Basket.C16_single_instrument"
   ],
   "note": "Proved in full about the model."
  },
  {
   "property": "C17",
   "status": "proved",
   "theorems": [
    "FinML.Basket.C17_weight_scale"
   ],
   "note": "Proved in full about the model."
  },
  {
   "property": "C18",
   "status": "proved",
   "theorems": [
    "FinML.Basket.C18_self_financing"
   ],
   "note": "Proved in full about the model."
  },
  {
   "property": "C19",
   "status": "proved",
   "theorems": [
    "FinML.Basket.C19_roll_gaps_removed"
   ],
   "note": "Proved in full about the model."
  },
  {
   "property": "C20",
   "status": "partial",
   "theorems": [
    "FinML.Basket.C20_last_bar_roll_counterexample",
    "FinML.Basket.C20_roll_matches_partial",
    "FinML.Basket.C20_single_bar_partial"
   ],
   "note": "Refuted for match_end=True when the last bar is a roll date, and for a single bar; the _partial theorems give the exact behaviour."
  },
  {
   "property": "C21",
   "status": "partial",
   "theorems": [
    "FinML.Basket.C21_ret_prices_counterexample",
    "FinML.Basket.C21_ret_prices_partial"
   ],
   "note": "Refuted: a new contract falling on the roll date by more than the previous close makes RET_PRICES negative; _partial gives the condition."
  },
  {
   "property": "C22",
   "status": "proved",
   "theorems": [
    "FinML.Labels.C22_first_barrier",
    "FinML.Labels.C22_rejects",
    "FinML.Labels.C22_end_to_end"
   ],
   "note": "Proved in full about the model."
  },
  {
   "property": "C23",
   "status": "partial",
   "theorems": [
    "FinML.Labels.C23_expired_short_counterexample",
    "FinML.Labels.C23_return_partial"
   ],
   "note": "Refuted for short trades that expire (return not multiplied by the side); the _partial theorem gives the exact return in every case."
  },
  {
   "property": "C24",
   "status": "proved",
   "theorems": [
    "FinML.Labels.C24_zero_multiplier",
    "FinML.Labels.C24_negative_multiplier",
    "FinML.Labels.C24_no_side_multiplier"
   ],
   "note": "Proved in full about the model."
  },
  {
   "property": "C25",
   "status": "partial",
   "theorems": [
    "FinML.Labels.C25_filtered_events_counterexample",
    "FinML.Labels.C25_filtered_events_partial"
   ],
   "note": "Refuted: a filtered event that has an expiry (every event, if expiries is None) raises ValueError. The _partial theorem: on success exactly the kept events remain."
  },
  {
   "property": "C26",
   "status": "proved",
   "theorems": [
    "FinML.Labels.C26_labels"
   ],
   "note": "Proved in full about the model."
  },
  {
   "property": "C27",
   "status": "proved",
   "theorems": [
    "FinML.Labels.C27_window_only"
   ],
   "note": "Proved in full about the model."
  },
  {
   "property": "C28",
   "status": "proved",
   "theorems": [
    "FinML.Labels.C28_aligned_windows",
    "FinML.Labels.C28_unaligned_windows"
   ],
   "note": "Proved in full about the model."
  },
  {
   "property": "C29",
   "status": "partial",
   "theorems": [
    "FinML.Labels.C29_window_return_partial",
    "FinML.Labels.C29_window_return_counterexample"
   ],
   "note": "Refuted: the start bar is counted twice. The _partial theorem gives the exact value."
  },
  {
   "property": "C30",
   "status": "partial",
   "theorems": [
    "FinML.TimeSeries.C30_unsorted_events_counterexample",
    "FinML.TimeSeries.C30_vertical_barriers_partial"
   ],
   "note": "Refuted for events out of order, proved for sorted events."
  },
  {
   "property": "C31",
   "status": "partial",
   "theorems": [
    "FinML.TimeSeries.C31_intraday_pairs",
    "FinML.TimeSeries.C31_daily_gap_counterexample",
    "FinML.TimeSeries.C31_daily_pairs_partial",
    "FinML.TimeSeries.C31_daily_returns"
   ],
   "note": "Refuted for daily data with gaps; intraday data proved in full; the _partial theorem characterises the daily pairs."
  },
  {
   "property": "C32",
   "status": "proved",
   "theorems": [
    "FinML.Weights.C32_counts",
    "FinML.Weights.C32_empty"
   ],
   "note": "Proved in full about the model."
  },
  {
   "property": "C33",
   "status": "proved",
   "theorems": [
    "FinML.Weights.C33_uniqueness",
    "FinML.Weights.C33_total"
   ],
   "note": "Proved in full about the model."
  },
  {
   "property": "C34",
   "status": "proved",
   "theorems": [
    "FinML.Weights.C34_indicators"
   ],
   "note": "Proved in full about the model."
  },
  {
   "property": "C35",
   "status": "proved",
   "theorems": [
    "FinML.Weights.C35_probabilities",
    "FinML.Weights.C35_draws"
   ],
   "note": "Proved in full about the model."
  },
  {
   "property": "C36",
   "status": "proved",
   "theorems": [
    "FinML.Weights.C36_weights",
    "FinML.Weights.C36_sum"
   ],
   "note": "Proved in full about the model."
  },
  {
   "property": "C37",
   "status": "proved",
   "theorems": [
    "FinML.Weights.C37_time_decay"
   ],
   "note": "Proved in full about the model."
  },
  {
   "property": "C38",
   "status": "proved",
   "theorems": [
    "FinML.Weights.C38_drop_rare"
   ],
   "note": "Proved in full about the model."
  },
  {
   "property": "C39",
   "status": "proved",
   "theorems": [
    "FinML.CV.C39_purging"
   ],
   "note": "Proved in full about the model."
  },
  {
   "property": "C40",
   "status": "proved",
   "theorems": [
    "FinML.CV.C40_embargo",
    "FinML.CV.C40_antitone",
    "FinML.CV.C40_missing",
    "FinML.CV.C40_repeated"
   ],
   "note": "Proved in full about the model."
  },
  {
   "property": "C41",
   "status": "proved",
   "theorems": [
    "FinML.CV.C41_partition",
    "FinML.CV.C41_raises"
   ],
   "note": "Proved in full about the model."
  },
  {
   "property": "C42",
   "status": "proved",
   "theorems": [
    "FinML.CV.C42_no_leak"
   ],
   "note": "Proved in full about the model."
  },
  {
   "property": "C43",
   "status": "partial",
   "theorems": [
    "FinML.CV.C43_keeps_admissible_counterexample",
    "FinML.CV.C43_keeps_admissible_partial"
   ],
   "note": "Refuted: the first event after the test span is always lost. Proved: the train set is exactly the other admissible events."
  },
  {
   "property": "C44",
   "status": "proved",
   "theorems": [
    "FinML.CV.C44_choices",
    "FinML.CV.C44_splits",
    "FinML.CV.C44_no_groups"
   ],
   "note": "Proved in full about the model."
  },
  {
   "property": "C45",
   "status": "partial",
   "theorems": [
    "FinML.CV.C45_groups_tile_counterexample",
    "FinML.CV.C45_groups_tile_partial",
    "FinML.CV.C45_rounding",
    "FinML.CV.C45_doubles_partial"
   ],
   "note": "Refuted for IEEE doubles (15 events, 11 groups lose the last event). Proved in exact arithmetic: groups tile the events; in doubles at most the last event is lost (n < 2^51). The rounding itself is proved to be nearest, ties to even."
  },
  {
   "property": "C46",
   "status": "proved",
   "theorems": [
    "FinML.CV.C46_paths"
   ],
   "note": "Proved in full about the model."
  },
  {
   "property": "C47",
   "status": "partial",
   "theorems": [
    "FinML.CV.C47_history_counterexample",
    "FinML.CV.C47_history_partial",
    "FinML.CV.C47_passes_partial"
   ],
   "note": "Refuted: a second iteration duplicates the paths; after m iterations they are m copies of those of one (proved). After any history of calls every entry of every path is right."
  },
  {
   "property": "C48",
   "status": "proved",
   "theorems": [
    "FinML.CV.C48_refusals",
    "FinML.CV.C48_no_strategies",
    "FinML.CV.C48_indices",
    "FinML.CV.C48_row",
    "FinML.CV.C48_choices"
   ],
   "note": "argsort enters through its contract (a sorting permutation); the evaluation function is a parameter."
  },
  {
   "property": "C49",
   "status": "proved",
   "theorems": [
    "FinML.CV.C49_scoring"
   ],
   "note": "Estimator and metrics are parameters; the only contract is that a fit does not depend on earlier fits."
  },
  {
   "property": "C50",
   "status": "partial",
   "theorems": [
    "FinML.CV.C50_unknown",
    "FinML.CV.C50_sfi_counterexample",
    "FinML.CV.C50_purged_fails_partial",
    "FinML.CV.C50_sfi_partial"
   ],
   "note": "Refuted: PurgedKFold always raises because event times are not passed on. Proved for splitters that work without event times."
  },
  {
   "property": "C51",
   "status": "proved",
   "theorems": [
    "FinML.CV.C51_refusals",
    "FinML.CV.C51_mdi"
   ],
   "note": "Proved in full about the model."
  },
  {
   "property": "C52",
   "status": "proved",
   "theorems": [
    "FinML.CV.C52_fold",
    "FinML.CV.C52_permuted",
    "FinML.CV.C52_mda"
   ],
   "note": "Means are stated for folds whose permuted score is below the perfect score (otherwise numpy divides by zero)."
  },
  {
   "property": "C53",
   "status": "proved",
   "theorems": [
    "FinML.Filters.C53_justified",
    "FinML.Filters.C53_times",
    "FinML.Filters.C53_duplicate_labels"
   ],
   "note": "Proved in full about the model."
  },
  {
   "property": "C54",
   "status": "proved",
   "theorems": [
    "FinML.Filters.C54_complete"
   ],
   "note": "Proved in full about the model."
  },
  {
   "property": "C55",
   "status": "proved",
   "theorems": [
    "FinML.Filters.C55_scale",
    "FinML.Filters.C55_clock",
    "FinML.Filters.C55_isometry",
    "FinML.Filters.C55_negation",
    "FinML.Filters.C55_shift",
    "FinML.Filters.C55_causal"
   ],
   "note": "Proved in full about the model."
  },
  {
   "property": "C56",
   "status": "proved",
   "theorems": [
    "FinML.Filters.C56_median",
    "FinML.Filters.C56_fraction",
    "FinML.Filters.C56_defined",
    "FinML.Filters.C56_affine",
    "FinML.Filters.C56_negation"
   ],
   "note": "Proved in full about the model."
  },
  {
   "property": "C57",
   "status": "proved",
   "theorems": [
    "FinML.Filters.C57_value",
    "FinML.Filters.C57_affine",
    "FinML.Filters.C57_constant",
    "FinML.Filters.C57_lag"
   ],
   "note": "Proved in full about the model."
  },
  {
   "property": "C58",
   "status": "proved",
   "theorems": [
    "FinML.Bars.C58_tick_rule_sign",
    "FinML.Bars.C58_tick_rule_flags",
    "FinML.Bars.C58_tick_rule_causal",
    "FinML.Bars.C58_tick_rule_affine",
    "FinML.Bars.C58_tick_rule_negation"
   ],
   "note": "Proved in full about the model."
  },
  {
   "property": "C59",
   "status": "partial",
   "theorems": [
    "FinML.Micro.C59_nonneg_counterexample",
    "FinML.Micro.C59_nonneg_partial",
    "FinML.Micro.C59_short"
   ],
   "note": "Refuted: the noise variance of prices 0,1,0,1,0 is -5/3. Proved: the spread is >= 0 with square 4*max(0,-cov), and the variance is var + 2*cov, for the population variance and sample covariance of the price changes."
  },
  {
   "property": "C60",
   "status": "proved",
   "theorems": [
    "FinML.Micro.C60_value",
    "FinML.Micro.C60_zero",
    "FinML.Micro.C60_scale"
   ],
   "note": "Proved in full about the model."
  },
  {
   "property": "C61",
   "status": "proved",
   "theorems": [
    "FinML.Micro.C61_spread",
    "FinML.Micro.C61_volatility",
    "FinML.Micro.C61_scale"
   ],
   "note": "Proved in full about the model."
  },
  {
   "property": "C62",
   "status": "partial",
   "theorems": [
    "FinML.Micro.C62_vpin_counterexample",
    "FinML.Micro.C62_vpin_partial"
   ],
   "note": "Refuted: the absolute value is taken after the rolling sum, so opposite imbalances cancel. Proved: range [0,1], upper bound by the mean, equality when the imbalances of the window have one sign."
  },
  {
   "property": "C63",
   "status": "proved",
   "theorems": [
    "FinML.Micro.C63_kyle",
    "FinML.Micro.C63_amihud",
    "FinML.Micro.C63_hasbrouck"
   ],
   "note": "The solver is a parameter with the contract IsOls (a least-squares solution); exists_isOls shows the contract can be met."
  },
  {
   "property": "C64",
   "status": "partial",
   "theorems": [
    "FinML.Micro.C64_total_counterexample",
    "FinML.Micro.C64_total_partial"
   ],
   "note": "Refuted for every least-squares solver: constant non-zero signed volume raises IndexError. Proved: a number is returned in every other case."
  },
  {
   "property": "C65",
   "status": "proved",
   "theorems": [
    "FinML.FracDiff.C65_weights",
    "FinML.FracDiff.C65_integer_order"
   ],
   "note": "Proved in full about the model."
  },
  {
   "property": "C66",
   "status": "proved",
   "theorems": [
    "FinML.FracDiff.C66_integer_orders",
    "FinML.FracDiff.C66_no_skip",
    "FinML.FracDiff.C66_linear"
   ],
   "note": "Proved in full about the model."
  },
  {
   "property": "C67",
   "status": "proved",
   "theorems": [
    "FinML.FracDiff.C67_compose",
    "FinML.FracDiff.C67_inverse"
   ],
   "note": "Proved in full about the model."
  },
  {
   "property": "C68",
   "status": "proved",
   "theorems": [
    "FinML.FracDiff.C68_dropped",
    "FinML.FracDiff.C68_weights",
    "FinML.FracDiff.C68_values"
   ],
   "note": "Proved in full about the model."
  },
  {
   "property": "C69",
   "status": "proved",
   "theorems": [
    "FinML.FracDiff.C69_skips",
    "FinML.FracDiff.C69_monotone",
    "FinML.FracDiff.C69_causal"
   ],
   "note": "Proved in full about the model."
  },
  {
   "property": "C70",
   "status": "proved",
   "theorems": [
    "FinML.Entropy.C70_frequencies",
    "FinML.Entropy.C70_distribution"
   ],
   "note": "Proved in full about the model."
  },
  {
   "property": "C71",
   "status": "proved",
   "theorems": [
    "FinML.Entropy.C71_bounds"
   ],
   "note": "Proved in full about the model."
  },
  {
   "property": "C72",
   "status": "proved",
   "theorems": [
    "FinML.Entropy.C72_dictionary",
    "FinML.Entropy.C72_empty",
    "FinML.Entropy.C72_substrings"
   ],
   "note": "Proved in full about the model."
  },
  {
   "property": "C73",
   "status": "proved",
   "theorems": [
    "FinML.Entropy.C73_longest"
   ],
   "note": "Proved in full about the model."
  },
  {
   "property": "C74",
   "status": "proved",
   "theorems": [
    "FinML.Entropy.C74_bounds",
    "FinML.Entropy.C74_value",
    "FinML.Entropy.C74_short"
   ],
   "note": "Proved in full about the model."
  },
  {
   "property": "C75",
   "status": "proved",
   "theorems": [
    "FinML.Entropy.C75_binary"
   ],
   "note": "Proved in full about the model."
  },
  {
   "property": "C76",
   "status": "proved",
   "theorems": [
    "FinML.Entropy.C76_transform",
    "FinML.Entropy.C76_order",
    "FinML.Entropy.C76_errors"
   ],
   "note": "np.quantile is modelled with exact linear interpolation."
  },
  {
   "property": "C77",
   "status": "proved",
   "theorems": [
    "FinML.Entropy.C77_symbols",
    "FinML.Entropy.C77_order",
    "FinML.Entropy.C77_shift"
   ],
   "note": "Proved in full about the model."
  },
  {
   "property": "C78",
   "status": "proved",
   "theorems": [
    "FinML.Alloc.C78_metric",
    "FinML.Alloc.C78_sampleCorr"
   ],
   "note": "Also proved that np.corrcoef of returns with positive variances is such a matrix. scipy's linkage reads the square distance matrix as observation vectors; only its output format is used."
  },
  {
   "property": "C79",
   "status": "proved",
   "theorems": [
    "FinML.Alloc.C79_quasi_diagonalize"
   ],
   "note": "Proved in full about the model."
  },
  {
   "property": "C80",
   "status": "proved",
   "theorems": [
    "FinML.Alloc.C80_bisection",
    "FinML.Alloc.C80_full_allocation",
    "FinML.Alloc.C80_hrp",
    "FinML.Alloc.C80_posVar_of_posDef"
   ],
   "note": "Proved for every covariance with positive variances and positive cluster variances (shown for every positive definite matrix), and end to end for hrp_allocations with any valid linkage."
  },
  {
   "property": "C81",
   "status": "proved",
   "theorems": [
    "FinML.Alloc.C81_two_assets",
    "FinML.Alloc.C81_scale_free",
    "FinML.Alloc.C81_inverse_variance"
   ],
   "note": "Proved in full about the model."
  },
  {
   "property": "C82",
   "status": "proved",
   "theorems": [
    "FinML.Alloc.C82_pca",
    "FinML.Alloc.C82_default"
   ],
   "note": "np.linalg.eigh and argsort are parameters with contracts (orthonormal eigenbasis, increasing order)."
  },
  {
   "property": "C83",
   "status": "partial",
   "theorems": [
    "FinML.Alloc.C83_budgeted_partial",
    "FinML.Alloc.C83_no_side_error",
    "FinML.Alloc.C83_one_sided_counterexample"
   ],
   "note": "Refuted when there are only long or only short events (IndexError). Proved when an event of each side is open at some bar."
  },
  {
   "property": "C84",
   "status": "proved",
   "theorems": [
    "FinML.Alloc.C84_mixture",
    "FinML.Alloc.C84_pipeline"
   ],
   "note": "The fitted mixture is a parameter: non-negative weights summing to 1, positive variances. The normal cdf is Mathlib's Gaussian integral."
  },
  {
   "property": "C85",
   "status": "partial",
   "theorems": [
    "FinML.Alloc.C85_equal_starts_counterexample",
    "FinML.Alloc.C85_average_partial",
    "FinML.Alloc.C85_average_bounds",
    "FinML.Alloc.C85_discretize",
    "FinML.Alloc.C85_monotone_odd"
   ],
   "note": "Refuted for events that share a start: positions.loc selects by label, so an ended event is averaged while another with the same start is open. Proved for distinct starts; bounds, rounding, monotonicity and oddness proved in general."
  },
  {
   "property": "C86",
   "status": "proved",
   "theorems": [
    "FinML.Alloc.C86_event_size",
    "FinML.Alloc.C86_extremes",
    "FinML.Alloc.C86_degenerate",
    "FinML.Alloc.C86_reported"
   ],
   "note": "Proved in full about the model."
  },
  {
   "property": "C87",
   "status": "proved",
   "theorems": [
    "FinML.Alloc.C87_calibration",
    "FinML.Alloc.C87_inverse"
   ],
   "note": "Proved in full about the model."
  },
  {
   "property": "C88",
   "status": "proved",
   "theorems": [
    "FinML.Alloc.C88_degenerate",
    "FinML.Alloc.C88_divergence"
   ],
   "note": "Proved in full about the model."
  },
  {
   "property": "C89",
   "status": "partial",
   "theorems": [
    "FinML.Alloc.C89_limit_buy_partial",
    "FinML.Alloc.C89_limit_counterexample",
    "FinML.Alloc.C89_sell_not_positive"
   ],
   "note": "Refuted for sells (sign and range are wrong). Proved for buys from a non-negative position below the maximum."
  },
  {
   "property": "C90",
   "status": "partial",
   "theorems": [
    "FinML.Alloc.C90_fill_value_counterexample",
    "FinML.Alloc.C90_fill",
    "FinML.Alloc.C90_fill_zero_partial"
   ],
   "note": "Refuted for fill values other than 0: the fill value is added to present entries and missing ones become 0. Proved what is computed for every fill value, and the claim for 0."
  },
  {
   "property": "C91",
   "status": "partial",
   "theorems": [
    "FinML.Metrics.C91_timings_counterexample",
    "FinML.Metrics.C91_timings_partial"
   ],
   "note": "Refuted for series that start flat: the first time is reported. Proved exactly what is reported for every series."
  },
  {
   "property": "C92",
   "status": "proved",
   "theorems": [
    "FinML.Metrics.C92_holding_period",
    "FinML.Metrics.C92_round_trip",
    "FinML.Metrics.C92_empty"
   ],
   "note": "Bounds, None case and round trip proved; for a series that ends flat the value is shown to be position-days over size given up."
  },
  {
   "property": "C93",
   "status": "proved",
   "theorems": [
    "FinML.Metrics.C93_time_weighted",
    "FinML.Metrics.C93_covers",
    "FinML.Metrics.C93_flows_do_not_matter"
   ],
   "note": "Proved in full about the model."
  },
  {
   "property": "C94",
   "status": "proved",
   "theorems": [
    "FinML.Metrics.C94_concentration",
    "FinML.Metrics.C94_missing"
   ],
   "note": "Proved in full about the model."
  },
  {
   "property": "C95",
   "status": "proved",
   "theorems": [
    "FinML.Metrics.C95_drawdowns",
    "FinML.Metrics.C95_maximum",
    "FinML.Metrics.C95_relative"
   ],
   "note": "Proved an exact description of the reported rows, in dollars and relative terms."
  },
  {
   "property": "C96",
   "status": "partial",
   "theorems": [
    "FinML.Metrics.C96_under_water_counterexample",
    "FinML.Metrics.C96_under_water_partial"
   ],
   "note": "Refuted: rows without drawdown are dropped before differencing. Proved what is reported, and when it agrees."
  },
  {
   "property": "C97",
   "status": "proved",
   "theorems": [
    "FinML.Metrics.C97_defined",
    "FinML.Metrics.C97_scale",
    "FinML.Metrics.C97_information",
    "FinML.Metrics.C97_annualized"
   ],
   "note": "Proved in full about the model."
  },
  {
   "property": "C98",
   "status": "partial",
   "theorems": [
    "FinML.Metrics.C98_zero_radicand",
    "FinML.Metrics.C98_psr_counterexample",
    "FinML.Metrics.C98_raw_kurtosis",
    "FinML.Metrics.C98_psr_partial",
    "FinML.Metrics.C98_formula"
   ],
   "note": "Refuted by returns 1 and 3 (negative number under the root, NaN). Proved where that number is positive, with a sufficient condition; proved it is never negative with raw kurtosis."
  },
  {
   "property": "C99",
   "status": "partial",
   "theorems": [
    "FinML.Metrics.C99_axis_counterexample",
    "FinML.Metrics.C99_axis_partial"
   ],
   "note": "Refuted for axis 0 with several columns. Proved for no axis, axis 1 and a single column."
  },
  {
   "property": "C100",
   "status": "proved",
   "theorems": [
    "FinML.Risk.C100_required_precision"
   ],
   "note": "Also: the precision is unique, and a negative target is treated as its absolute value."
  },
  {
   "property": "C101",
   "status": "proved",
   "theorems": [
    "FinML.Risk.C101_tolerance",
    "FinML.Risk.C101_required_freq",
    "FinML.Risk.C101_break_even"
   ],
   "note": "Proved in full about the model."
  },
  {
   "property": "C102",
   "status": "partial",
   "theorems": [
    "FinML.Risk.C102_no_returns",
    "FinML.Risk.C102_one_sided",
    "FinML.Risk.C102_bets",
    "FinML.Risk.C102_sharpe_increasing",
    "FinML.Risk.C102_precision_monotone",
    "FinML.Risk.C102_failure_formula",
    "FinML.Risk.C102_failure_counterexample",
    "FinML.Risk.C102_failure_partial"
   ],
   "note": "Refuted for negative targets, which are treated as their absolute value. Proved for targets from 0 on, with the formula; monotonicity of ratio and precision proved in full."
  },
  {
   "property": "C103",
   "status": "proved",
   "theorems": [
    "FinML.Options.C103_defined",
    "FinML.Options.C103_nonneg",
    "FinML.Options.C103_upper",
    "FinML.Options.C103_probability"
   ],
   "note": "Also proved when a price exists and that the drift condition is the same as a probability in [0,1]."
  },
  {
   "property": "C104",
   "status": "partial",
   "theorems": [
    "FinML.Options.C104_american_counterexample",
    "FinML.Options.C104_american_partial",
    "FinML.Options.C104_intrinsic"
   ],
   "note": "Refuted outside [0,1]: put with r = 0, exp(-q) = 1/4, u = 5/4, four steps, strike 7/4 (13/4 against 7193/2187). Proved for probabilities in [0,1]; at least the intrinsic value always."
  },
  {
   "property": "C105",
   "status": "proved",
   "theorems": [
    "FinML.Options.C105_expectation",
    "FinML.Options.C105_parity",
    "FinML.Options.C105_needs_drift"
   ],
   "note": "Also proved equal to the discounted binomial expectation, and that parity fails outside [0,1]."
  },
  {
   "property": "C106",
   "status": "proved",
   "theorems": [
    "FinML.Options.C106_call",
    "FinML.Options.C106_put"
   ],
   "note": "Proved in full about the model."
  },
  {
   "property": "C107",
   "status": "proved",
   "theorems": [
    "FinML.Options.C107_control_variates",
    "FinML.Options.C107_returns"
   ],
   "note": "Proved in full about the model."
  },
  {
   "property": "C108",
   "status": "proved",
   "theorems": [
    "FinML.Options.C108_parity",
    "FinML.Options.C108_dividends",
    "FinML.Options.C108_both"
   ],
   "note": "For all parameters, with NaN prices as none; both prices are numbers or neither is."
  },
  {
   "property": "C109",
   "status": "proved",
   "theorems": [
    "FinML.Options.C109_bounds",
    "FinML.Options.C109_no_volatility"
   ],
   "note": "Also the value without volatility."
  },
  {
   "property": "C110",
   "status": "proved",
   "theorems": [
    "FinML.Options.C110_increasing",
    "FinML.Options.C110_exists_unique",
    "FinML.Options.C110_implied"
   ],
   "note": "brentq is a parameter with its documented contract. Also existence: each price within the bounds has exactly one volatility."
  },
  {
   "property": "C111",
   "status": "proved",
   "theorems": [
    "FinML.Options.C111_parity",
    "FinML.Options.C111_no_common_strike",
    "FinML.Options.C111_sorted"
   ],
   "note": "Infinite values (zero strike, time or bond price) are outside the model. (None, None) is never returned, since a tuple is compared with 0."
  },
  {
   "property": "C112",
   "status": "proved",
   "theorems": [
    "FinML.Options.C112_forward_rate",
    "FinML.Options.C112_compound"
   ],
   "note": "Proved in full about the model."
  },
  {
   "property": "C113",
   "status": "proved",
   "theorems": [
    "FinML.Options.C113_scaling",
    "FinML.Options.C113_normal"
   ],
   "note": "In law for any generating distribution; with the normal law also that returns over two periods add up and that the expected growth is exp(mu*t)."
  },
  {
   "property": "C114",
   "status": "proved",
   "theorems": [
    "FinML.Default.C114_law",
    "FinML.Default.C114_moments",
    "FinML.Default.C114_empty",
    "FinML.Default.C114_probability"
   ],
   "note": "Also the variance. Proved over any field; signs over ordered fields."
  },
  {
   "property": "C115",
   "status": "proved",
   "theorems": [
    "FinML.Default.C115_order",
    "FinML.Default.C115_firms"
   ],
   "note": "For arbitrary non-empty vectors; an example shows that empty vectors can change the outcome."
  },
  {
   "property": "C116",
   "status": "proved",
   "theorems": [
    "FinML.Default.C116_fit",
    "FinML.Default.C116_raises",
    "FinML.Default.C116_round",
    "FinML.Default.C116_firm_model"
   ],
   "note": "For aligned arrays of finite numbers; the root finder and the regression are arbitrary functions. C116_round says what a round computes."
  },
  {
   "property": "C117",
   "status": "proved",
   "theorems": [
    "FinML.Default.C117_call",
    "FinML.Default.C117_probability",
    "FinML.Default.C117_decreasing"
   ],
   "note": "For a positive asset value, volatility and maturity; the asset value is whatever the root finder returned."
  },
  {
   "property": "C118",
   "status": "proved",
   "theorems": [
    "FinML.Breaks.C118_formula",
    "FinML.Breaks.C118_edge",
    "FinML.Breaks.C118_invariance",
    "FinML.Breaks.C118_negation",
    "FinML.Breaks.C118_pvalues"
   ],
   "note": "Real numbers; a zero sigma (no change so far) gives a non-finite value, modelled as none (C118_edge)."
  },
  {
   "property": "C119",
   "status": "proved",
   "theorems": [
    "FinML.Breaks.C119_rows",
    "FinML.Breaks.C119_deterministic",
    "FinML.Breaks.C119_short"
   ],
   "note": "Integer lags: rows, deterministic columns and the failure for short series (C119_short: `iloc[-0:]` keeps all changes)."
  },
  {
   "property": "C120",
   "status": "proved",
   "theorems": [
    "FinML.Breaks.C120_least_squares",
    "FinML.Breaks.C120_error"
   ],
   "note": "Singular x'x is LinAlgError (C120_error)."
  },
  {
   "property": "C121",
   "status": "proved",
   "theorems": [
    "FinML.Breaks.C121_statistic",
    "FinML.Breaks.C121_supremum",
    "FinML.Breaks.C121_monotone",
    "FinML.Breaks.C121_series",
    "FinML.Breaks.C121_causal"
   ],
   "note": "NaN statistics are skipped as by Python's max. Includes monotonicity in min_sample_len and causality of the series."
  },
  {
   "property": "C122",
   "status": "proved",
   "theorems": [
    "FinML.Sim.C122_product",
    "FinML.Sim.C122_proportional",
    "FinML.Sim.C122_positive"
   ],
   "note": "Draws are a parameter; also an equivalence for positivity."
  },
  {
   "property": "C123",
   "status": "proved",
   "theorems": [
    "FinML.Sim.C123_deviation",
    "FinML.Sim.C123_half_life",
    "FinML.Sim.C123_integer_seed",
    "FinML.Sim.C123_zero"
   ],
   "note": "Includes the half life without shocks, the closed form for an integer random_state and ZeroDivisionError."
  },
  {
   "property": "C124",
   "status": "proved",
   "theorems": [
    "FinML.Sim.C124_sizes",
    "FinML.Sim.C124_error"
   ],
   "note": "Truncation is towards zero; includes the ValueError for probabilities above one."
  },
  {
   "property": "C125",
   "status": "partial",
   "theorems": [
    "FinML.Bars.C125_zero_span_counterexample",
    "FinML.Bars.C125_default_span_partial",
    "FinML.Bars.C125_zero_span_raises_partial"
   ],
   "note": "The docstring promises the default for 0, the code divides by zero: refuted; _partial theorems give the default for None and the failure for 0."
  },
  {
   "property": "C126",
   "status": "partial",
   "theorems": [
    "FinML.Bars.C126_runs_mirror_counterexample",
    "FinML.Bars.C126_imbalance_mirror_partial"
   ],
   "note": "Refuted for runs bars (Python max keeps a NaN first argument); proved for imbalance bars."
  },
  {
   "property": "C127",
   "status": "partial",
   "theorems": [
    "FinML.Basket.C127_returning_contract_counterexample",
    "FinML.Basket.C127_changes_adjusted_partial"
   ],
   "note": "Refuted for contract names that come back; proved when no contract returns."
  },
  {
   "property": "C128",
   "status": "proved",
   "theorems": [
    "FinML.Basket.C128_basket_volume"
   ],
   "note": "Proved in full about the model."
  },
  {
   "property": "C129",
   "status": "partial",
   "theorems": [
    "FinML.Labels.C129_documented_short_counterexample",
    "FinML.Labels.C129_sides_partial"
   ],
   "note": "Refuted by side 0; on success all sides are 1 or -1."
  },
  {
   "property": "C130",
   "status": "partial",
   "theorems": [
    "FinML.Labels.C130_expiry_between_bars_counterexample",
    "FinML.Labels.C130_no_prices_after_bar_partial"
   ],
   "note": "Refuted for expiries between bars; proved when the horizon is a bar."
  },
  {
   "property": "C131",
   "status": "partial",
   "theorems": [
    "FinML.Weights.C131_equal_starts_counterexample",
    "FinML.Weights.C131_own_uniqueness_partial"
   ],
   "note": "Refuted for equal start times (both rows get the last value); proved for distinct starts."
  },
  {
   "property": "C132",
   "status": "partial",
   "theorems": [
    "FinML.Weights.C132_oldest_weight_counterexample",
    "FinML.Weights.C132_oldest_weight_partial"
   ],
   "note": "Refuted: with c = 0 and two equal observations the oldest weighs 1/2; exact weight proved."
  },
  {
   "property": "C133",
   "status": "partial",
   "theorems": [
    "FinML.CV.C133_open_tests_counterexample",
    "FinML.CV.C133_open_tests_partial",
    "FinML.CV.C133_open_events_counterexample",
    "FinML.CV.C133_open_events_partial"
   ],
   "note": "Refuted: an open event that started before the test stays in the train set; an open event is kept exactly if it does not start inside a test interval."
  },
  {
   "property": "C134",
   "status": "proved",
   "theorems": [
    "FinML.Filters.C134_trend",
    "FinML.Filters.C134_reversion"
   ],
   "note": "Proved in full about the model."
  },
  {
   "property": "C135",
   "status": "proved",
   "theorems": [
    "FinML.Micro.C135_constant_quotes",
    "FinML.Micro.C135_equations"
   ],
   "note": "Proved in full about the model."
  },
  {
   "property": "C136",
   "status": "partial",
   "theorems": [
    "FinML.FracDiff.C136_missing_counterexample",
    "FinML.FracDiff.C136_fixed",
    "FinML.FracDiff.C136_missing_partial"
   ],
   "note": "Refuted for the expanding method, which fills gaps forward and gives them a value. Proved for the fixed width method; proved that the expanding method treats a column like its forward fill."
  },
  {
   "property": "C137",
   "status": "partial",
   "theorems": [
    "FinML.Entropy.C137_list_messages_counterexample",
    "FinML.Entropy.C137_list_messages_partial"
   ],
   "note": "Refuted: [1, 11] is read as the symbols 1, 1, 1. Proved for elements written with one character."
  },
  {
   "property": "C138",
   "status": "partial",
   "theorems": [
    "FinML.Alloc.C138_full_position_counterexample",
    "FinML.Alloc.C138_full_position_error",
    "FinML.Alloc.C138_defined_partial"
   ],
   "note": "Refuted: reaching max_position divides by zero. Proved defined exactly when there is something to trade and the target is not the maximum long position; otherwise ZeroDivisionError."
  },
  {
   "property": "C139",
   "status": "partial",
   "theorems": [
    "FinML.Metrics.C139_index_counterexample",
    "FinML.Metrics.C139_index_partial"
   ],
   "note": "Refuted by returns 0, 0, -1 (index -1). Proved for every other case, with the value in that case."
  },
  {
   "property": "C140",
   "status": "proved",
   "theorems": [
    "FinML.Metrics.C140_formula",
    "FinML.Metrics.C140_deflated",
    "FinML.Metrics.C140_missing"
   ],
   "note": "norm.ppf is the inverse of Mathlib's Gaussian cdf, shown to exist."
  },
  {
   "property": "C141",
   "status": "proved",
   "theorems": [
    "FinML.Options.C141_best_policy"
   ],
   "note": "Proved in full about the model."
  },
  {
   "property": "C142",
   "status": "proved",
   "theorems": [
    "FinML.Options.C142_slopes",
    "FinML.Options.C142_asset_price"
   ],
   "note": "Proved in full about the model."
  },
  {
   "property": "C143",
   "status": "proved",
   "theorems": [
    "FinML.Options.C143_expectation"
   ],
   "note": "Proved in full about the model."
  },
  {
   "property": "C144",
   "status": "proved",
   "theorems": [
    "FinML.Options.C144_same_density",
    "FinML.Options.C144_same_density_volatility",
    "FinML.Options.C144_implied_volatility"
   ],
   "note": "CubicSpline is a parameter: it accepts increasing points, and adding a line to the values adds it to the curve."
  },
  {
   "property": "C145",
   "status": "proved",
   "theorems": [
    "FinML.Options.C145_rows",
    "FinML.Options.C145_density",
    "FinML.Options.C145_smoothed",
    "FinML.Options.C145_weights",
    "FinML.Options.C145_returns",
    "FinML.Options.C145_missing"
   ],
   "note": "CubicSpline and the smoothing are parameters; the sampling itself and the kernel estimate are not modelled."
  },
  {
   "property": "C146",
   "status": "partial",
   "theorems": [
    "FinML.Default.C146_bounds_counterexample",
    "FinML.Default.C146_bounds_partial"
   ],
   "note": "Refuted: assets 1, debt 2, alpha 10 give a negative value. Each lower bound holds for one sign of alpha*t+beta*m; the Black-Scholes price is the maximum."
  },
  {
   "property": "C147",
   "status": "proved",
   "theorems": [
    "FinML.Default.C147_regression",
    "FinML.Default.C147_constant_market"
   ],
   "note": "The regression enters through the least-squares contract of Py/Ols."
  },
  {
   "property": "C148",
   "status": "partial",
   "theorems": [
    "FinML.Breaks.C148_null_counterexample",
    "FinML.Breaks.C148_null_partial"
   ],
   "note": "Refuted: the code divides every S(t) by sqrt(T-k-1). Partial: the last p-value is right and earlier ones are too large."
  },
  {
   "property": "C149",
   "status": "partial",
   "theorems": [
    "FinML.Breaks.C149_list_counterexample",
    "FinML.Breaks.C149_list_partial",
    "FinML.Breaks.C149_refused"
   ],
   "note": "Refuted: the first lag of the list is overwritten by the level. Partial: lists that start with 0. C149_refused says which lists are refused."
  },
  {
   "property": "C150",
   "status": "partial",
   "theorems": [
    "FinML.Sim.C150_reproducible_counterexample",
    "FinML.Sim.C150_reproducible_partial"
   ],
   "note": "Refuted for seed 0, which `if np_rand_seed` ignores. Partial: all other seeds."
  },
  {
   "property": "C151",
   "status": "proved",
   "theorems": [
    "FinML.Sim.C151_order",
    "FinML.Sim.C151_simulation"
   ],
   "note": "The shuffle is any permutation."
  },
  {
   "property": "C152",
   "status": "proved",
   "theorems": [
    "FinML.Bars.C152_runs_rule",
    "FinML.Bars.C152_runs_start"
   ],
   "note": "The rule (which tick closes a bar, given the bars closed before) is the specification runsRule of Bars/LoopSpec; quantities are sums over the ticks of the bar. Expectations after the first bar are those of C11."
  },
  {
   "property": "C153",
   "status": "partial",
   "theorems": [
    "FinML.Default.C153_predict_partial",
    "FinML.Default.C153_fit_partial",
    "FinML.Default.C153_fit_counterexample",
    "FinML.Default.C153_predict_counterexample"
   ],
   "note": "Refuted in both places; equal for a maturity (predict) or an interval (fit) of one year."
  },
  {
   "property": "C154",
   "status": "proved",
   "theorems": [
    "FinML.Default.C154_systematic",
    "FinML.Default.C154_raises",
    "FinML.Default.C154_order",
    "FinML.Default.C154_returns"
   ],
   "note": "Firm datasets and the estimates of the firm model as in C114-C117; root finder, OLS and the normal cdf as there."
  },
  {
   "property": "C155",
   "status": "proved",
   "theorems": [
    "FinML.Default.C155_rows",
    "FinML.Default.C155_multiplicity",
    "FinML.Default.C155_order"
   ],
   "note": "Dates are integers; merge on equal keys."
  },
  {
   "property": "C156",
   "status": "partial",
   "theorems": [
    "FinML.Default.C156_even_counterexample",
    "FinML.Default.C156_even_partial"
   ],
   "note": "Refuted by a date without a yield; holds when every date is in all tables with a yield."
  },
  {
   "property": "C157",
   "status": "proved",
   "theorems": [
    "FinML.Stats.C157_range",
    "FinML.Stats.C157_scale"
   ],
   "note": "statsmodels' formula."
  },
  {
   "property": "C158",
   "status": "proved",
   "theorems": [
    "FinML.Stats.C158_value",
    "FinML.Stats.C158_affine"
   ],
   "note": "Formula of Series.autocorr; NaN is none."
  },
  {
   "property": "C159",
   "status": "proved",
   "theorems": [
    "FinML.Stats.C159_value",
    "FinML.Stats.C159_affine"
   ],
   "note": "chi2.sf with two degrees of freedom is exp(-x/2)."
  },
  {
   "property": "C160",
   "status": "partial",
   "theorems": [
    "FinML.Stats.C160_pval_counterexample",
    "FinML.Stats.C160_weighted_counterexample",
    "FinML.Stats.C160_pval_partial"
   ],
   "note": "Refuted: entry 0 of the scipy result is the statistic. Proved: Kendall's is tau-b in [-1,1]; the weighted statistic is a parameter."
  },
  {
   "property": "C161",
   "status": "partial",
   "theorems": [
    "FinML.Stats.C161_pbo_counterexample",
    "FinML.Stats.C161_pbo_partial"
   ],
   "note": "Refuted for equal logits, where gaussian_kde raises; quadrature error is not modelled."
  },
  {
   "property": "C162",
   "status": "partial",
   "theorems": [
    "FinML.Stats.C162_implied_partial",
    "FinML.Stats.C162_implied_counterexample",
    "FinML.Stats.C162_refusals"
   ],
   "note": "Refuted for every sample: the mass of the kernels below 0 is cut off and not put back."
  },
  {
   "property": "C163",
   "status": "partial",
   "theorems": [
    "FinML.Entropy.C163_thresholds",
    "FinML.Entropy.C163_even_counterexample",
    "FinML.Entropy.C163_even_partial"
   ],
   "note": "Thresholds proved. The even split is refuted: the first symbol stands for the smallest value only, so n quantiles make n-1 even groups."
  },
  {
   "property": "C164",
   "status": "proved",
   "theorems": [
    "FinML.FracDiff.C164_rows",
    "FinML.FracDiff.C164_levels",
    "FinML.FracDiff.C164_unit",
    "FinML.FracDiff.C164_returns"
   ],
   "note": "adfuller is a parameter; complete positive prices; price 0 is not modelled."
  },
  {
   "property": "C165",
   "status": "partial",
   "theorems": [
    "FinML.Options.C165_knots",
    "FinML.Options.C165_between_counterexample",
    "FinML.Options.C165_between_partial"
   ],
   "note": "CubicSpline is a parameter with a contract that is shown to be satisfiable. Refuted: yields 1, 0, 0 at maturities 0, 1, 2 give a negative yield at 1.5; holds for two points."
  },
  {
   "property": "C166",
   "status": "partial",
   "theorems": [
    "FinML.TimeSeries.C166_formula",
    "FinML.TimeSeries.C166_small_span",
    "FinML.TimeSeries.C166_zero",
    "FinML.TimeSeries.C166_unit",
    "FinML.TimeSeries.C166_labels_partial",
    "FinML.TimeSeries.C166_labels_counterexample"
   ],
   "note": "The pandas loop is modelled round by round. Refuted: the labels are positions, not times; the values and which bar each belongs to are proved."
  },
  {
   "property": "C167",
   "status": "proved",
   "theorems": [
    "FinML.Labels.C167_ends_only",
    "FinML.Labels.C167_kfold",
    "FinML.Labels.C167_combinatorial"
   ],
   "note": "Bars covered by an event are those from its start to its end. The k-fold and combinatorial theorems take events with a start in the price table and sorted starts; embargo is arbitrary."
  },
  {
   "property": "C168",
   "status": "proved",
   "theorems": [
    "FinML.Bars.C168_time_bars",
    "FinML.Bars.C168_tick_bars",
    "FinML.Bars.C168_volume_bars",
    "FinML.Bars.C168_dollar_bars",
    "FinML.Bars.C168_imbalance_bars",
    "FinML.Bars.C168_runs_bars"
   ],
   "note": "Equality of the whole result including errors, for every bar type of bars.py."
  },
  {
   "property": "C169",
   "status": "proved",
   "theorems": [
    "FinML.Entropy.C169_plugin",
    "FinML.Entropy.C169_lempelziv",
    "FinML.Entropy.C169_longest_match",
    "FinML.Entropy.C169_konto",
    "FinML.Entropy.C169_binary",
    "FinML.Entropy.C169_sigma",
    "FinML.Entropy.C169_quantile"
   ],
   "note": "Renaming is over arbitrary alphabets; the string joining of elements (C137) is outside this claim, it treats elements as symbols."
  },
  {
   "property": "C170",
   "status": "proved",
   "theorems": [
    "FinML.Options.C170_bsm_units",
    "FinML.Options.C170_binom_units",
    "FinML.Options.C170_binom_am_units",
    "FinML.Options.C170_call_spread",
    "FinML.Options.C170_put_spread",
    "FinML.Options.C170_butterfly",
    "FinML.Options.C170_binom_convex",
    "FinML.Options.C170_binom_spread",
    "FinML.Options.C170_binom_spot"
   ],
   "note": "The tree statements assume the drift condition DriftOk (growth factor between the down and the up factor), which fails in the code for large steps (C103)."
  },
  {
   "property": "C171",
   "status": "proved",
   "theorems": [
    "FinML.Breaks.C171_sadf",
    "FinML.Breaks.C171_series"
   ],
   "note": "The regression is the model's normal-equation OLS; a singular regression fails on both sides."
  },
  {
   "property": "C172",
   "status": "proved",
   "theorems": [
    "FinML.Options.C172_binom",
    "FinML.Options.C172_futures",
    "FinML.Options.C172_bsm"
   ],
   "note": "Dividend lists are empty in the statement (a yield is the second asset's rate)."
  },
  {
   "property": "C173",
   "status": "proved",
   "theorems": [
    "FinML.CV.C173_purging",
    "FinML.CV.C173_kfold",
    "FinML.CV.C173_combinatorial"
   ],
   "note": "Proved in full about the model."
  },
  {
   "property": "C174",
   "status": "proved",
   "theorems": [
    "FinML.Labels.C174_returns",
    "FinML.Labels.C174_labels"
   ],
   "note": "Proved in full about the model."
  },
  {
   "property": "C175",
   "status": "proved",
   "theorems": [
    "FinML.Weights.C175_counts",
    "FinML.Weights.C175_uniqueness",
    "FinML.Weights.C175_indicators",
    "FinML.Weights.C175_weights"
   ],
   "note": "Proved in full about the model."
  },
  {
   "property": "C176",
   "status": "proved",
   "theorems": [
    "FinML.Metrics.C176_timings",
    "FinML.Metrics.C176_holding_period",
    "FinML.Metrics.C176_time_weighted",
    "FinML.Metrics.C176_concentration",
    "FinML.Metrics.C176_drawdowns",
    "FinML.Metrics.C176_sharpe"
   ],
   "note": "Proved in full about the model."
  },
  {
   "property": "C177",
   "status": "proved",
   "theorems": [
    "FinML.Alloc.C177_budget_mirror",
    "FinML.Alloc.C177_budget_clock",
    "FinML.Alloc.C177_mixture_clock",
    "FinML.Alloc.C177_probability_clock",
    "FinML.Alloc.C177_probability_mirror",
    "FinML.Alloc.C177_divergence",
    "FinML.Alloc.C177_limit_price"
   ],
   "note": "Proved in full about the model."
  },
  {
   "property": "C178",
   "status": "partial",
   "theorems": [
    "FinML.Bars.C178_partial",
    "FinML.Bars.C178_accepted_labels_partial",
    "FinML.Bars.C178_sorted_counterexample"
   ],
   "note": "Refuted in volume and dollar units (C178_sorted_counterexample: a frame sorted by time gives other bars). Proved: equality in tick units and for labels 0, 1, ...; every frame that is accepted has labels 0..n-1 in some order. A datetime index is not modelled."
  },
  {
   "property": "C179",
   "status": "partial",
   "theorems": [
    "FinML.Bars.C179_imbalance_partial",
    "FinML.Bars.C179_runs_partial",
    "FinML.Bars.C179_closing_tick_counterexample",
    "FinML.Bars.C179_first_tick_counterexample"
   ],
   "note": "Refuted for both kinds of bars with concrete streams; the _partial theorems give the exact thresholds the code uses (without the closing tick, without tick 0)."
  },
  {
   "property": "C180",
   "status": "partial",
   "theorems": [
    "FinML.Bars.C180_imbalance_partial",
    "FinML.Bars.C180_runs_partial",
    "FinML.Bars.C180_default_counterexample"
   ],
   "note": "Refuted for m < E_T_init (C180_default_counterexample); proved for given expectations and for m >= E_T_init."
  },
  {
   "property": "C181",
   "status": "partial",
   "theorems": [
    "FinML.Bars.C181_imbalance_partial",
    "FinML.Bars.C181_runs_partial",
    "FinML.Bars.C181_first_tick_counterexample"
   ],
   "note": "Refuted at tick 0 only; proved for every tick from 1 on, for imbalance and runs bars."
  },
  {
   "property": "C182",
   "status": "proved",
   "theorems": [
    "FinML.Basket.C182_values",
    "FinML.Basket.C182_units",
    "FinML.Basket.C182_instrument_order"
   ],
   "note": "Exact arithmetic; unit factors are positive and per instrument."
  },
  {
   "property": "C183",
   "status": "partial",
   "theorems": [
    "FinML.Basket.C183_first_bar_counterexample",
    "FinML.Basket.C183_rebalance_bars_partial"
   ],
   "note": "Refuted: bar 0 in the list drops the first overnight move. The partial theorem allows any two lists with the same rebalanced bars that agree on bar 0."
  },
  {
   "property": "C184",
   "status": "partial",
   "theorems": [
    "FinML.Basket.C184_rebalance_night_counterexample",
    "FinML.Basket.C184_moves_partial"
   ],
   "note": "Refuted: the overnight move of the units held before a rebalance is left out. The partial theorem gives the exact missing term."
  },
  {
   "property": "C185",
   "status": "partial",
   "theorems": [
    "FinML.Basket.C185_fx_counterexample",
    "FinML.Basket.C185_dollar_value_partial"
   ],
   "note": "Refuted: FX gains and losses on held units are left out. The partial theorem gives the exact missing sum."
  },
  {
   "property": "C186",
   "status": "partial",
   "theorems": [
    "FinML.Labels.C186_options_partial",
    "FinML.Labels.C186_unaligned_counterexample"
   ],
   "note": "Refuted for align_with_bars=False with returns. The partial theorem says exactly when the call fails."
  },
  {
   "property": "C187",
   "status": "partial",
   "theorems": [
    "FinML.Weights.C187_unsorted_events_counterexample",
    "FinML.Weights.C187_counts_partial"
   ],
   "note": "Refuted for events not listed in time order. The partial theorem says exactly which bars are listed."
  },
  {
   "property": "C188",
   "status": "partial",
   "theorems": [
    "FinML.Weights.C188_below_minus_one_counterexample",
    "FinML.Weights.C188_negative_partial"
   ],
   "note": "Refuted below -1. The partial theorem describes the weights on both sides of -1."
  },
  {
   "property": "C189",
   "status": "partial",
   "theorems": [
    "FinML.Weights.C189_bar_before_counterexample",
    "FinML.Weights.C189_event_prices_partial"
   ],
   "note": "Refuted: the first return of an event uses the bar before its start. The partial theorem allows changes everywhere else."
  },
  {
   "property": "C190",
   "status": "partial",
   "theorems": [
    "FinML.CV.C190_below_median_partial",
    "FinML.CV.C190_below_median_counterexample"
   ],
   "note": "Refuted for an odd number of strategies. The partial theorem gives the exact border, and the claim for an even number below 1999."
  },
  {
   "property": "C191",
   "status": "partial",
   "theorems": [
    "FinML.CV.C191_symmetric_counterexample",
    "FinML.CV.C191_symmetric_partial"
   ],
   "note": "Refuted if rows are left over. The partial theorem says how often each row is trained on, and gives the claim when the partitions divide the rows."
  },
  {
   "property": "C192",
   "status": "partial",
   "theorems": [
    "FinML.CV.C192_default_counterexample",
    "FinML.CV.C192_default_partial",
    "FinML.CV.C192_not_series"
   ],
   "note": "Refuted: the default raises TypeError. The partial theorem covers every combination of given and missing arguments."
  },
  {
   "property": "C193",
   "status": "proved",
   "theorems": [
    "FinML.CV.C193_leverage",
    "FinML.CV.C193_order"
   ],
   "note": "Two theorems, one for leverage and one for the order of the strategies."
  },
  {
   "property": "C194",
   "status": "partial",
   "theorems": [
    "FinML.CV.C194_equal_counterexample",
    "FinML.CV.C194_equal_partial"
   ],
   "note": "Refuted for overlapping events. The partial theorem gives the size without overlap and embargo."
  },
  {
   "property": "C195",
   "status": "proved",
   "theorems": [
    "FinML.Entropy.C195_lempelziv",
    "FinML.Entropy.C195_konto",
    "FinML.Entropy.C195_plugin"
   ],
   "note": "Proved for all messages; an example shows a message with larger values."
  },
  {
   "property": "C196",
   "status": "proved",
   "theorems": [
    "FinML.Entropy.C196_frequencies",
    "FinML.Entropy.C196_plugin"
   ],
   "note": "Proved; an example shows that the Lempel-Ziv dictionary does depend on direction."
  },
  {
   "property": "C197",
   "status": "partial",
   "theorems": [
    "FinML.FracDiff.C197_append_counterexample",
    "FinML.FracDiff.C197_append_expanding_partial",
    "FinML.FracDiff.C197_append_fixed_partial"
   ],
   "note": "Refuted as stated (C197_append_counterexample for each of the two functions). Partial theorems say exactly what is kept: no value changes; the first values may be dropped."
  },
  {
   "property": "C198",
   "status": "partial",
   "theorems": [
    "FinML.Filters.C198_missing_counterexample",
    "FinML.Filters.C198_complete",
    "FinML.Filters.C198_missing_partial"
   ],
   "note": "Refuted as stated (C198_missing_counterexample). C198_missing_partial: a missing value restarts the filter. C198_complete links the model with missing values to that of C53-C55."
  },
  {
   "property": "C199",
   "status": "proved",
   "theorems": [
    "FinML.Micro.C199_vpin_units",
    "FinML.Micro.C199_vpin_mirror",
    "FinML.Micro.C199_roll",
    "FinML.Micro.C199_kyle_units",
    "FinML.Micro.C199_kyle_mirror",
    "FinML.Micro.C199_amihud_units",
    "FinML.Micro.C199_hasbrouck_units"
   ],
   "note": "Proved. The regressors after the first must not all be zero (then the slope is not determined by least squares)."
  },
  {
   "property": "C200",
   "status": "proved",
   "theorems": [
    "FinML.FracDiff.C200_threshold",
    "FinML.FracDiff.C200_no_columns",
    "FinML.FracDiff.C200_critical",
    "FinML.Labels.C200_no_target",
    "FinML.Labels.C200_no_side",
    "FinML.Weights.C200_bootstrap",
    "FinML.Weights.C200_no_labels"
   ],
   "note": "Proved. Error kinds are part of the statement."
  },
  {
   "property": "C201",
   "status": "proved",
   "theorems": [
    "FinML.Alloc.C201_uncorrelated",
    "FinML.Alloc.C201_hrp"
   ],
   "note": "Proved in full about the model."
  },
  {
   "property": "C202",
   "status": "proved",
   "theorems": [
    "FinML.Alloc.C202_affine",
    "FinML.Alloc.C202_order"
   ],
   "note": "Proved in full about the model."
  },
  {
   "property": "C203",
   "status": "partial",
   "theorems": [
    "FinML.Alloc.C203_three_counterexample",
    "FinML.Alloc.C203_equal_partial"
   ],
   "note": "Refuted: the list is cut in the middle, so three instruments of correlation 1/2 get 3/7, 2/7, 2/7. Equal weights are proved for powers of two and for uncorrelated instruments."
  },
  {
   "property": "C204",
   "status": "partial",
   "theorems": [
    "FinML.Alloc.C204_sides_counterexample",
    "FinML.Alloc.C204_sides_partial"
   ],
   "note": "Refuted: exchanging the two sides of a merge moves the cut of the bisection. Proved for uncorrelated instruments."
  },
  {
   "property": "C205",
   "status": "partial",
   "theorems": [
    "FinML.Options.C205_put_counterexample",
    "FinML.Options.C205_longer_partial"
   ],
   "note": "Refuted by a put far in the money (interest on the strike). Proved for calls with r >= 0 and no yield and for puts with r <= 0 and non-negative yield."
  },
  {
   "property": "C206",
   "status": "partial",
   "theorems": [
    "FinML.Options.C206_expiry_counterexample",
    "FinML.Options.C206_expiry_partial",
    "FinML.Options.C206_limit"
   ],
   "note": "Refuted: 0/0 in d1 gives NaN at the money, and the tree gives NaN for T = 0. Proved away from the money, and the limit T -> 0+ in all cases."
  },
  {
   "property": "C207",
   "status": "proved",
   "theorems": [
    "FinML.Risk.C207_currency",
    "FinML.Risk.C207_failure",
    "FinML.Risk.C207_time"
   ],
   "note": "Proved in full about the model."
  },
  {
   "property": "C208",
   "status": "proved",
   "theorems": [
    "FinML.Risk.C208_half"
   ],
   "note": "Proved in full about the model."
  },
  {
   "property": "C209",
   "status": "partial",
   "theorems": [
    "FinML.Risk.C209_sample_counterexample",
    "FinML.Risk.C209_sample_partial"
   ],
   "note": "Refuted: norm.cdf is given the scale p*(1-p), the variance of one bet, where the deviation of the share of gains is sqrt(p*(1-p)/n). What holds is proved: independence of the sample size, same side of 1/2, not further from 1/2 when n*p*(1-p) >= 1."
  },
  {
   "property": "C210",
   "status": "partial",
   "theorems": [
    "FinML.CV.C210_open_counterexample",
    "FinML.CV.C210_open_partial"
   ],
   "note": "Refuted: a test event without end keeps nothing away, so later events are trained on. Proved: train events ended before the test starts or start after all known test ends."
  },
  {
   "property": "C211",
   "status": "partial",
   "theorems": [
    "FinML.CV.C211_negative_counterexample",
    "FinML.CV.C211_negative_partial",
    "FinML.CV.C211_negative_rows"
   ],
   "note": "Refuted: a negative embargo_pct moves the second train part into the test set. Proved for fractions above -1/n; the rows taken are characterised for every negative fraction."
  },
  {
   "property": "C212",
   "status": "partial",
   "theorems": [
    "FinML.CV.C212_count_counterexample",
    "FinML.CV.C212_count_partial"
   ],
   "note": "Refuted: int(100*0.29) is 28. Proved: at most one off, never too large, and exact where the double is not below the decimal (0.01 for instance)."
  },
  {
   "property": "C213",
   "status": "partial",
   "theorems": [
    "FinML.Bars.C213_doubles_counterexample",
    "FinML.Bars.C213_lots_partial",
    "FinML.Bars.C213_inside_partial",
    "FinML.C213_without_rounding"
   ],
   "note": "Refuted: ten ticks of 0.1 do not complete a bar of volume one. Proved for whole multiples of a power of two, and for every tick whose running sum is farther from a boundary than the accumulated rounding error."
  },
  {
   "property": "C214",
   "status": "proved",
   "theorems": [
    "FinML.Options.C214_limit",
    "FinML.Options.C214_control_variates",
    "FinML.Options.C214_american_call"
   ],
   "note": "Exact reals, normal law from Mathlib. Proved by convergence of characteristic functions (Levy's theorem of Mathlib) of the logarithm of the last row of the tree; holds though small trees can have a probability outside [0,1], as that ends when the steps are small."
  },
  {
   "property": "C215",
   "status": "proved",
   "theorems": [
    "FinML.Bars.C215_time",
    "FinML.Bars.C215_append"
   ],
   "note": "Proved over exact numbers for non-negative volumes (and prices for dollar bars); time bars for ticks that come in order."
  },
  {
   "property": "C216",
   "status": "proved",
   "theorems": [
    "FinML.Bars.C216_volume"
   ],
   "note": "Proved over exact numbers; C213 shows what doubles do to volume ids."
  },
  {
   "property": "C217",
   "status": "partial",
   "theorems": [
    "FinML.Weights.C217_again_counterexample",
    "FinML.Weights.C217_uniqueness_partial",
    "FinML.Weights.C217_first_partial"
   ],
   "note": "Refuted by C217_again_counterexample (3/13 rises to 5/21). Proved: the event's own uniqueness strictly falls and no event's rises; the first draw is uniform and after it the drawn event is least likely."
  },
  {
   "property": "C218",
   "status": "proved",
   "theorems": [
    "FinML.Weights.C218_more_events"
   ],
   "note": "Proved for every event that has at least one bar."
  },
  {
   "property": "C219",
   "status": "proved",
   "theorems": [
    "FinML.CV.C219_testwise",
    "FinML.CV.C219_order"
   ],
   "note": "Proved for open and closed events, with and without embargo, including which inputs are refused."
  },
  {
   "property": "C220",
   "status": "proved",
   "theorems": [
    "FinML.Alloc.C220_probabilities"
   ],
   "note": "Proved for events whose ends are not before their starts; sizes with NaN are not modelled."
  },
  {
   "property": "C221",
   "status": "partial",
   "theorems": [
    "FinML.Alloc.C221_budget_counterexample",
    "FinML.Alloc.C221_budget_partial"
   ],
   "note": "Refuted by C221_budget_counterexample. Proved: the future enters through the two maxima only, the counts of open events up to the time are the same."
  },
  {
   "property": "C222",
   "status": "partial",
   "theorems": [
    "FinML.Alloc.C222_closed_counterexample",
    "FinML.Alloc.C222_last_partial"
   ],
   "note": "Refuted by C222_closed_counterexample. Proved for distinct starts: the last size is the mean of the positions that end last or are open."
  },
  {
   "property": "C223",
   "status": "proved",
   "theorems": [
    "FinML.Filters.C223_fewest",
    "FinML.Filters.C223_threshold"
   ],
   "note": "Proved over exact numbers."
  },
  {
   "property": "C224",
   "status": "partial",
   "theorems": [
    "FinML.Filters.C224_nested_counterexample",
    "FinML.Filters.C224_between_partial"
   ],
   "note": "Refuted by C224_nested_counterexample. Proved: after each event of the larger threshold and up to its next one there is an event of the smaller one."
  },
  {
   "property": "C225",
   "status": "proved",
   "theorems": [
    "FinML.Filters.C225_trend",
    "FinML.Filters.C225_lag"
   ],
   "note": "Proved over exact numbers, for the default mean without window weights."
  },
  {
   "property": "C226",
   "status": "proved",
   "theorems": [
    "FinML.Metrics.C226_drawdowns",
    "FinML.Metrics.C226_under_water"
   ],
   "note": "Proved; relative drawdowns for positive values."
  },
  {
   "property": "C227",
   "status": "proved",
   "theorems": [
    "FinML.Entropy.C227_append"
   ],
   "note": "Proved."
  },
  {
   "property": "C228",
   "status": "proved",
   "theorems": [
    "FinML.Labels.C228_wider",
    "FinML.Labels.C228_profit"
   ],
   "note": "Proved on the filled price table for events that can be evaluated."
  },
  {
   "property": "C229",
   "status": "proved",
   "theorems": [
    "FinML.CV.C229_embargo_window",
    "FinML.CV.C229_kfold_window",
    "FinML.CV.C229_fracdiff",
    "FinML.CV.C229_fracdiff_kfold"
   ],
   "note": "Proved for purging with an embargo given in bars and for PurgedKFold; with `C229_fracdiff` and `C229_fracdiff_kfold` for the fixed-window fractional differences."
  },
  {
   "property": "C230",
   "status": "partial",
   "theorems": [
    "FinML.Weights.C230_scale_counterexample",
    "FinML.Weights.C230_kfold_partial",
    "FinML.Weights.C230_bar_after_counterexample",
    "FinML.Weights.C230_purging_partial"
   ],
   "note": "Refuted by C230_scale_counterexample (the scale is common to all rows) and, even up to a factor, by C230_bar_after_counterexample (purging without embargo). Proved: for PurgedKFold, and for purging with an embargo of a bar, the weights of the train rows change by one common factor at most."
  },
  {
   "property": "C231",
   "status": "partial",
   "theorems": [
    "FinML.Labels.C231_short_counterexample",
    "FinML.Labels.C231_short_partial"
   ],
   "note": "Refuted by C231_short_counterexample (an expired event; a bar that crosses both barriers). Proved: the ends agree, and the returns are opposite if exactly one barrier is crossed at the end."
  },
  {
   "property": "C232",
   "status": "partial",
   "theorems": [
    "FinML.Metrics.C232_gain_counterexample",
    "FinML.Metrics.C232_gain_partial"
   ],
   "note": "Refuted by C232_gain_counterexample. Proved: if both numbers under the root are positive and skewness times ratio is at most 2 before and after the gain, the probability does not fall."
  },
  {
   "property": "C233",
   "status": "proved",
   "theorems": [
    "FinML.Options.C233_put_region",
    "FinML.Options.C233_call_region",
    "FinML.Options.C233_time"
   ],
   "note": "Nonnegative rates (and yield for calls); step probability between 0 and 1."
  },
  {
   "property": "C234",
   "status": "proved",
   "theorems": [
    "FinML.Options.C234_parity"
   ],
   "note": "For futures the yield is the rate, as in the code."
  },
  {
   "property": "C235",
   "status": "proved",
   "theorems": [
    "FinML.Filters.C235_count",
    "FinML.Filters.C235_gap"
   ],
   "note": "Threshold at least 0."
  },
  {
   "property": "C236",
   "status": "partial",
   "theorems": [
    "FinML.CV.C236_choice",
    "FinML.CV.C236_pad",
    "FinML.Stats.C236_probability_partial",
    "FinML.Stats.C236_probability_counterexample"
   ],
   "note": "Refuted for the kernel estimate of the probability (four strategies and a hopeless fifth). Proved with Sharpe-ratio evaluation and no ties: selections unchanged, every logit higher, no more negative logits than before, and the probability strictly lower if no logit was negative."
  },
  {
   "property": "C237",
   "status": "proved",
   "theorems": [
    "FinML.Labels.C237_pipeline"
   ],
   "note": "Composition of the models of C53, C30, C22, C33 and C37. Events without a target above the minimum are excluded (C25)."
  },
  {
   "property": "C238",
   "status": "partial",
   "theorems": [
    "FinML.Alloc.C238_sign_counterexample",
    "FinML.Alloc.C238_sign_partial"
   ],
   "note": "Refuted: the sign of each eigenvector is arbitrary and decides which assets are bought. Proved: proportional to the target; by default determined up to the sign of the portfolio if the direction of least variance is unique."
  },
  {
   "property": "C239",
   "status": "proved",
   "theorems": [
    "FinML.Weights.C239_idempotent",
    "FinML.Weights.C239_nested",
    "FinML.Weights.C239_two_steps"
   ],
   "note": "Two steps: for minimal numbers of classes at least 0."
  },
  {
   "property": "C240",
   "status": "proved",
   "theorems": [
    "FinML.Options.C240_majority",
    "FinML.Options.C240_range"
   ],
   "note": "Positive strikes and a non-zero time."
  },
  {
   "property": "C241",
   "status": "proved",
   "theorems": [
    "FinML.Breaks.C241_bound",
    "FinML.Breaks.C241_reached"
   ],
   "note": "Bound and a series that reaches it."
  },
  {
   "property": "C242",
   "status": "proved",
   "theorems": [
    "FinML.Metrics.C242_chain",
    "FinML.Metrics.C242_no_flow"
   ],
   "note": "Balances that are 0 are outside the model."
  },
  {
   "property": "C243",
   "status": "proved",
   "theorems": [
    "FinML.Sim.C243_couple",
    "FinML.Sim.C243_units"
   ],
   "note": "Positive half life for the distance."
  },
  {
   "property": "C244",
   "status": "proved",
   "theorems": [
    "FinML.Bars.C244_forget",
    "FinML.Bars.C244_linear"
   ],
   "note": "Spans of at least 1."
  },
  {
   "property": "C245",
   "status": "partial",
   "theorems": [
    "FinML.Alloc.C245_doubles_counterexample",
    "FinML.Alloc.C245_shape_partial",
    "FinML.Alloc.C245_clear_partial",
    "FinML.Alloc.C245_near_partial",
    "FinML.Alloc.C245_again_partial",
    "FinML.C245_without_rounding"
   ],
   "note": "Refuted as stated (0.75 in steps of 0.1 goes to 0.8 although the double 0.75 is nearer to seven steps of the double 0.1); proved: range, monotone, odd, accuracy, equality away from the middle, idempotent for steps down to 2^-49. Exponents of doubles are not bounded in the model."
  },
  {
   "property": "C246",
   "status": "proved",
   "theorems": [
    "FinML.Weights.C246_expected",
    "FinML.Weights.C246_local"
   ],
   "note": "Every event covers a bar of the matrix."
  },
  {
   "property": "C247",
   "status": "proved",
   "theorems": [
    "FinML.Options.C247_bsm",
    "FinML.Options.C247_binom"
   ],
   "note": "Tree: probability in [0, 1]; direction of the change in C170. American bound for a yield of at least 0."
  },
  {
   "property": "C248",
   "status": "proved",
   "theorems": [
    "FinML.FracDiff.C248_weights",
    "FinML.FracDiff.C248_level",
    "FinML.FracDiff.C248_fades",
    "FinML.FracDiff.C248_fixed",
    "FinML.FracDiff.C248_bounds"
   ],
   "note": "Complete frames with an increasing index; threshold 1 for the expanding window."
  },
  {
   "property": "C249",
   "status": "proved",
   "theorems": [
    "FinML.CV.C249_kfold",
    "FinML.CV.C249_combinatorial"
   ],
   "note": "Combinatorial: events with ends on the bars; success of the second run is a hypothesis there."
  },
  {
   "property": "C250",
   "status": "proved",
   "theorems": [
    "FinML.Default.C250_losses",
    "FinML.Default.C250_at_least",
    "FinML.Default.C250_ends"
   ],
   "note": "Exact arithmetic."
  },
  {
   "property": "C251",
   "status": "proved",
   "theorems": [
    "FinML.Metrics.C251_gains",
    "FinML.Metrics.C251_losses"
   ],
   "note": "Proved in full about the model."
  },
  {
   "property": "C252",
   "status": "proved",
   "theorems": [
    "FinML.CV.C252_ignored",
    "FinML.CV.C252_constant"
   ],
   "note": "Estimator, scoring functions and shuffles are parameters; shuffles permute."
  },
  {
   "property": "C253",
   "status": "proved",
   "theorems": [
    "FinML.Micro.C253_hull",
    "FinML.Micro.C253_high_low",
    "FinML.Micro.C253_corwin_schultz",
    "FinML.Micro.C253_tick_rule",
    "FinML.Micro.C253_vpin",
    "FinML.Micro.C253_daily_returns",
    "FinML.Micro.C253_daily_volatility"
   ],
   "note": "Appending observations keeps the reported prefix; memory lengths proved for the rolling features."
  },
  {
   "property": "C254",
   "status": "proved",
   "theorems": [
    "FinML.Stats.C254_monotone",
    "FinML.Stats.C254_reorder",
    "FinML.Stats.C254_extremes"
   ],
   "note": "kendall_tau_pval returns the statistic, not the p-value (see C160); the claim is about what it returns."
  },
  {
   "property": "C255",
   "status": "proved",
   "theorems": [
    "FinML.Stats.C255_identity",
    "FinML.Stats.C255_durbin_reverse",
    "FinML.Stats.C255_autocorr_reverse"
   ],
   "note": "Missing values are dropped in pairs, as in the library."
  },
  {
   "property": "C256",
   "status": "proved",
   "theorems": [
    "FinML.Options.C256_chain",
    "FinML.Options.C256_reverse",
    "FinML.Options.C256_sign",
    "FinML.Options.C256_refusals",
    "FinML.Options.C256_at_the_forward"
   ],
   "note": "A ratio that is not positive and a time of 0 have no finite rate; a spot of 0 raises."
  },
  {
   "property": "C257",
   "status": "partial",
   "theorems": [
    "FinML.Labels.C257_short_counterexample",
    "FinML.Labels.C257_better_partial"
   ],
   "note": "Refuted for short trades that meet no barrier (their return is the unsigned rise of the price); proved for long trades and for short ones that meet a barrier on one of the paths."
  },
  {
   "property": "C258",
   "status": "proved",
   "theorems": [
    "FinML.Options.C258_bsm",
    "FinML.Options.C258_bsm_futures",
    "FinML.Options.C258_tree",
    "FinML.Options.C258_tree_futures"
   ],
   "note": "Proved in full about the model."
  },
  {
   "property": "C259",
   "status": "partial",
   "theorems": [
    "FinML.Risk.C259_precision",
    "FinML.Risk.C259_freq",
    "FinML.Risk.C259_higher_counterexample",
    "FinML.Risk.C259_higher_partial"
   ],
   "note": "Precision and frequency proved. The claim about returns is refuted: a zero return raised to a small gain can raise the probability of failure; proved for returns that keep their sign."
  },
  {
   "property": "C260",
   "status": "proved",
   "theorems": [
    "FinML.Micro.C260_noise",
    "FinML.Micro.C260_spread"
   ],
   "note": "Proved in full about the model."
  },
  {
   "property": "C261",
   "status": "partial",
   "theorems": [
    "FinML.Metrics.C261_last_counterexample",
    "FinML.Metrics.C261_last_partial"
   ],
   "note": "The documentation says that the last data point is ignored; the code uses it. Exactly the last values that are no new low since the last high change nothing."
  },
  {
   "property": "C262",
   "status": "proved",
   "theorems": [
    "FinML.Options.C262_parity",
    "FinML.Options.C262_dearer",
    "FinML.Options.C262_currency"
   ],
   "note": "Proved in full about the model."
  },
  {
   "property": "C263",
   "status": "partial",
   "theorems": [
    "FinML.Alloc.C263_copies_counterexample",
    "FinML.Alloc.C263_copies_partial"
   ],
   "note": "The recursive bisection halves the list of instruments instead of following the tree. The partial theorem covers orders in which the middle cut separates the copies from the rest."
  },
  {
   "property": "C264",
   "status": "proved",
   "theorems": [
    "FinML.Sim.C264_gbm",
    "FinML.Sim.C264_gbm_limit",
    "FinML.Sim.C264_ou",
    "FinML.Sim.C264_seeded"
   ],
   "note": "Shocks are any independent random variables with mean 0 and variance 1; that independent standard normal ones exist is proved (shocks_normal)."
  },
  {
   "property": "C265",
   "status": "partial",
   "theorems": [
    "FinML.CV.C265_better_counterexample",
    "FinML.CV.C265_better_partial"
   ],
   "note": "Refuted as stated: two trees with importances (1/2, 1/2) and (1/4, 0) rank the second feature higher. C265_better_partial: the claim holds for features used in the same trees."
  },
  {
   "property": "C266",
   "status": "partial",
   "theorems": [
    "FinML.CV.C266_error_counterexample",
    "FinML.CV.C266_error_partial"
   ],
   "note": "Refuted as stated: a feature used in two of eight trees. C266_error_partial gives the exact factor, the root of the fraction of trees that use the feature, and the claim when all do."
  },
  {
   "property": "C267",
   "status": "proved",
   "theorems": [
    "FinML.CV.C267_trees",
    "FinML.CV.C267_features",
    "FinML.CV.C267_unit"
   ],
   "note": "Trees in any order, features in any order, any positive unit; refusals included for trees and unit."
  },
  {
   "property": "C268",
   "status": "proved",
   "theorems": [
    "FinML.Filters.C268_shuffled"
   ],
   "note": "Average over all permutations of a list without repetitions; exact value for even and odd numbers of prices."
  },
  {
   "property": "C269",
   "status": "proved",
   "theorems": [
    "FinML.Breaks.C269_squares",
    "FinML.Breaks.C269_number",
    "FinML.Breaks.C269_returns"
   ],
   "note": "The library's residuals are modelled from the documentation of statsmodels' RecursiveLS; a dependent start (approximate diffuse initialisation) is not modelled."
  },
  {
   "property": "C270",
   "status": "proved",
   "theorems": [
    "FinML.Breaks.C270_units",
    "FinML.Breaks.C270_exact",
    "FinML.Breaks.C270_variables"
   ],
   "note": "Units, trends, change of variables; exact fits give NaN."
  },
  {
   "property": "C271",
   "status": "partial",
   "theorems": [
    "FinML.Breaks.C271_later_partial",
    "FinML.Breaks.C271_later_counterexample"
   ],
   "note": "Refuted: the scale is the standard deviation of all residuals, so a fourth observation turns the second statistic from sqrt 2 into sqrt 3. Partial: all earlier statistics change by one positive factor."
  },
  {
   "property": "C272",
   "status": "partial",
   "theorems": [
    "FinML.C272_without_rounding",
    "FinML.FracDiff.C272_accurate_counterexample",
    "FinML.FracDiff.C272_absolute_partial",
    "FinML.FracDiff.C272_relative_partial",
    "FinML.FracDiff.C272_whole_partial"
   ],
   "note": "False for orders near zero or one: with order 2^-60 the first weight rounds to zero (C272_accurate_counterexample). Proved: absolute error at most k/2^51 at lag k for orders in [0,1] together with signs and bounds; relative error compounding 4/(m*2^53) per lag for m <= d <= 1-m; whole orders up to 48 exact."
  },
  {
   "property": "C273",
   "status": "proved",
   "theorems": [
    "FinML.C273_order_exact",
    "FinML.C273_kahan_exact",
    "FinML.Weights.C273_accepted"
   ],
   "note": "Numpy's check (Kahan sum, tolerance sqrt of the double epsilon) is modelled; doubles have unbounded exponents."
  },
  {
   "property": "C274",
   "status": "partial",
   "theorems": [
    "FinML.Alloc.C274_positive_counterexample",
    "FinML.Alloc.C274_sum_counterexample",
    "FinML.Alloc.C274_allocation_partial",
    "FinML.Alloc.C274_positive_partial",
    "FinML.C274_without_rounding"
   ],
   "note": "False: of two clusters, one 2^60 times as risky as the other, the risky one gets weight zero (C274_positive_counterexample), and the sum may miss one (C274_sum_counterexample). Proved: weights of the assets in [0,1], exact sum within 2*D relative roundings of one for at most 2^D assets, and positive shares when variances differ by a factor of at most 2^51."
  },
  {
   "property": "C275",
   "status": "partial",
   "theorems": [
    "FinML.CV.C275_two_events_counterexample",
    "FinML.CV.C275_trains_partial"
   ],
   "note": "Refuted with two events in two folds; partial theorem for all event series with half of the events rounded up, two more and the embargo no more than all of them."
  },
  {
   "property": "C276",
   "status": "proved",
   "theorems": [
    "FinML.CV.C276_scores",
    "FinML.CV.C276_purged"
   ],
   "note": "The library is a parameter; it is assumed that fitting data that are not empty, predicting and scoring return."
  },
  {
   "property": "C277",
   "status": "partial",
   "theorems": [
    "FinML.Breaks.C277_rows_counterexample",
    "FinML.Breaks.C277_rows_partial"
   ],
   "note": "Refuted with one lag: a regression of one row is tried although two are the minimum; partial theorem with the exact range of rows."
  },
  {
   "property": "C278",
   "status": "proved",
   "theorems": [
    "FinML.Breaks.C278_returns",
    "FinML.Breaks.C278_series",
    "FinML.Breaks.C278_too_short",
    "FinML.Breaks.C278_flat"
   ],
   "note": "In exact arithmetic; np.linalg.inv may miss a singular matrix in doubles."
  },
  {
   "property": "C279",
   "status": "partial",
   "theorems": [
    "FinML.Labels.C279_barriers_counterexample",
    "FinML.Labels.C279_without_rounding",
    "FinML.Labels.C279_clear_partial"
   ],
   "note": "Refuted as stated (110/100 - 1 > 0.1 in doubles); proved for bars that keep clear of both barriers by (2p/s + 1 + |limit|)/2^52. Exponents of doubles are not bounded in the model."
  },
  {
   "property": "C280",
   "status": "proved",
   "theorems": [
    "FinML.Labels.C280_sign",
    "FinML.Labels.C280_event"
   ],
   "note": "The hypothesis on the touches is needed (C279). Exponents of doubles are not bounded in the model."
  },
  {
   "property": "C281",
   "status": "partial",
   "theorems": [
    "FinML.C281_without_rounding",
    "FinML.Filters.C281_doubles_counterexample",
    "FinML.Filters.C281_ticks_partial",
    "FinML.Filters.C281_close_partial",
    "FinML.Filters.C281_clear_partial"
   ],
   "note": "Refuted as stated (missed and spurious events for prices in cents); proved: exact on a binary tick grid, approximately right in general, exactly right away from the threshold. Exponents of doubles are not bounded in the model."
  },
  {
   "property": "C282",
   "status": "proved",
   "theorems": [
    "FinML.Filters.C282_negation",
    "FinML.Filters.C282_scale"
   ],
   "note": "Exponents of doubles are not bounded in the model, so scaling has no underflow or overflow."
  },
  {
   "property": "C283",
   "status": "partial",
   "theorems": [
    "FinML.Bars.C283_constant_counterexample",
    "FinML.Bars.C283_power",
    "FinML.Bars.C283_close_partial",
    "FinML.Bars.C283_bounds_partial",
    "FinML.Bars.C283_span_one",
    "FinML.C283_without_rounding",
    "FinML.C283_power_exact"
   ],
   "note": "Counterexample C283_constant_counterexample refutes the claim; C283_close_partial and C283_bounds_partial give the error bound with exact counting of roundings, C283_power shows that repeated squaring meets the assumption on the power."
  },
  {
   "property": "C284",
   "status": "partial",
   "theorems": [
    "FinML.C284_without_rounding",
    "FinML.Metrics.C284_negative_counterexample",
    "FinML.Metrics.C284_sum",
    "FinML.Metrics.C284_close_partial",
    "FinML.Metrics.C284_single",
    "FinML.Metrics.C284_mirror"
   ],
   "note": "Counterexample C284_negative_counterexample refutes the documented range in doubles; C284_close_partial bounds the error for every order of addition meeting SumOk (C284_sum: left to right does)."
  },
  {
   "property": "C285",
   "status": "proved",
   "theorems": [
    "FinML.C285_without_rounding",
    "FinML.Metrics.C285_money",
    "FinML.Metrics.C285_relative",
    "FinML.Metrics.C285_deepest",
    "FinML.Metrics.C285_days"
   ],
   "note": "Exponents of doubles are unbounded in the model (no overflow or underflow)."
  },
  {
   "property": "C286",
   "status": "partial",
   "theorems": [
    "FinML.Bars.C286_sum",
    "FinML.Bars.C286_inside_counterexample",
    "FinML.Bars.C286_close_partial",
    "FinML.Bars.C286_grid_partial",
    "FinML.C286_without_rounding"
   ],
   "note": "Refuted in both directions with bars of one trade; error bound, and exact for prices and volumes on binary grids."
  },
  {
   "property": "C287",
   "status": "partial",
   "theorems": [
    "FinML.Bars.C287_resample_counterexample",
    "FinML.Bars.C287_resample_partial",
    "FinML.Bars.C287_volume_partial",
    "FinML.C287_without_rounding"
   ],
   "note": "Refuted with three ticks in two bars; prices agree exactly, volume and VWAP up to proved bounds."
  },
  {
   "property": "C288",
   "status": "partial",
   "theorems": [
    "FinML.Metrics.C288_empty_counterexample",
    "FinML.Metrics.C288_empty_partial",
    "FinML.Metrics.C288_cases",
    "FinML.Metrics.C288_agree"
   ],
   "note": "Full claim EmptyPeriods refuted: a period from nothing to something gives an infinite or NaN return. C288_empty_partial proves the value when such periods do not occur; C288_cases gives all cases without debts. Finite numbers are exact; a zero divisor counts as +0."
  },
  {
   "property": "C289",
   "status": "partial",
   "theorems": [
    "FinML.Alloc.C289_still_asset",
    "FinML.Alloc.C289_agree",
    "FinML.Alloc.C289_hedged_counterexample",
    "FinML.Alloc.C289_finite_partial",
    "FinML.Alloc.C289_constant_returns",
    "FinML.Alloc.C289_agree_hrp"
   ],
   "note": "Full claim FiniteWeights refuted by two hedged pairs. C289_still_asset, C289_constant_returns, C289_agree and C289_agree_hrp are proved in full; C289_finite_partial needs every portfolio to have positive variance. Scipy's check for finite distances is modelled."
  },
  {
   "property": "C290",
   "status": "partial",
   "theorems": [
    "FinML.Labels.C290_agree",
    "FinML.Labels.C290_long",
    "FinML.Labels.C290_short",
    "FinML.Labels.C290_finite_counterexample",
    "FinML.Labels.C290_finite_partial"
   ],
   "note": "Full claim FiniteReturns refuted by events that start at zero. C290_long, C290_short and C290_agree are proved in full; C290_finite_partial needs a start price other than zero."
  },
  {
   "property": "C291",
   "status": "partial",
   "theorems": [
    "FinML.Basket.C291_ruined",
    "FinML.Basket.C291_values_partial",
    "FinML.Basket.C291_finite_counterexample",
    "FinML.Basket.C291_agree"
   ],
   "note": "Full claim FiniteRetPrices refuted by one close of zero. C291_ruined and C291_agree are proved in full; C291_values_partial needs the adjusted close to stay put after a close of zero."
  },
  {
   "property": "C292",
   "status": "partial",
   "theorems": [
    "FinML.C292_without_rounding",
    "FinML.Options.C292_probability",
    "FinML.Options.C292_drift",
    "FinML.Options.C292_american",
    "FinML.Options.C292_intrinsic",
    "FinML.Options.C292_strike",
    "FinML.Options.C292_spot",
    "FinML.Options.C292_accuracy",
    "FinML.Options.C292_put_counterexample",
    "FinML.Options.C292_put_partial"
   ],
   "note": "Refuted for the bound of a put by its strike; the partial theorem has the bound up to a relative n*2^-50. Ordering, monotonicity and error bound hold. exp, sqrt and power are parameters with stated contracts."
  },
  {
   "property": "C293",
   "status": "proved",
   "theorems": [
    "FinML.C293_without_rounding",
    "FinML.Weights.C293_uniqueness"
   ],
   "note": "Proved for any order of summation."
  },
  {
   "property": "C294",
   "status": "partial",
   "theorems": [
    "FinML.C294_without_rounding",
    "FinML.Weights.C294_decay_partial",
    "FinML.Weights.C294_floor_counterexample"
   ],
   "note": "Refuted for the floor of the weights; the rest holds exactly and the floor up to 2^-50. Oldest weights within 2^-50 of -1 are left out."
  },
  {
   "property": "C295",
   "status": "proved",
   "theorems": [
    "FinML.Alloc.C295_budget",
    "FinML.Alloc.C295_mirror",
    "FinML.C295_without_rounding"
   ],
   "note": "Proved for budgets whose product is below 2^52."
  },
  {
   "property": "C296",
   "status": "partial",
   "theorems": [
    "FinML.C296_without_rounding",
    "FinML.Metrics.C296_holding_period_partial",
    "FinML.Metrics.C296_span_counterexample"
   ],
   "note": "Refuted in both directions with one position; error bound and the condition for a missing value proved."
  },
  {
   "property": "C297",
   "status": "partial",
   "theorems": [
    "FinML.CV.C297_importance_partial",
    "FinML.CV.C297_agree",
    "FinML.CV.C297_finite_counterexample"
   ],
   "note": "Floats with infinities and NaN (Verif/Py/Float.lean). C297_finite_counterexample: two folds whose scores 0 and 1 are exchanged by the shuffle give importance minus infinity. C297_importance_partial gives the row of each feature in all cases, C297_agree the relation to the exact model."
  },
  {
   "property": "C298",
   "status": "partial",
   "theorems": [
    "FinML.Weights.C298_missing_partial",
    "FinML.Weights.C298_newest_missing",
    "FinML.Weights.C298_minus_one",
    "FinML.Weights.C298_weighted_counterexample"
   ],
   "note": "Floats with infinities and NaN; cumsum of pandas skips NaN. C298_weighted_counterexample refutes the claim; C298_newest_missing and C298_minus_one say that all weights are NaN there, C298_missing_partial that otherwise only the missing ones are."
  },
  {
   "property": "C299",
   "status": "partial",
   "theorems": [
    "FinML.Weights.C299_weights_partial",
    "FinML.Weights.C299_agree",
    "FinML.Weights.C299_zero_price",
    "FinML.Weights.C299_weights_counterexample"
   ],
   "note": "Floats with infinities and NaN. C299_weights_counterexample refutes the claim with one zero price; C299_zero_price gives the weights of all events in that case; C299_weights_partial holds for all inputs; C299_agree is the relation to the exact model."
  },
  {
   "property": "C300",
   "status": "partial",
   "theorems": [
    "FinML.Stats.C300_selected_partial",
    "FinML.Stats.C300_idle_selected",
    "FinML.Stats.C300_idle",
    "FinML.Stats.C300_selected_counterexample",
    "FinML.Stats.C300_agree"
   ],
   "note": "Floats with infinities and NaN; np.argmax returns the first NaN, np.argsort puts NaN last. C300_selected_counterexample refutes the claim; C300_selected_partial holds when every strategy trades on the train rows; C300_idle is the case of one strategy that never trades; C300_agree is the relation to the exact model."
  },
  {
   "property": "C301",
   "status": "partial",
   "theorems": [
    "FinML.Alloc.C301_missing_partial",
    "FinML.Alloc.C301_known",
    "FinML.Alloc.C301_unknown",
    "FinML.Alloc.C301_no_step",
    "FinML.Alloc.C301_missing_counterexample"
   ],
   "note": "Missing probability, class or side as none. C301_missing_counterexample refutes the claim; C301_missing_partial gives the value at every reported time."
  },
  {
   "property": "C302",
   "status": "partial",
   "theorems": [
    "FinML.Metrics.C302_missing_partial",
    "FinML.Metrics.C302_leading",
    "FinML.Metrics.C302_missing_counterexample"
   ],
   "note": "Missing values as none. C302_missing_counterexample and C302_leading: a missing first value always raises; C302_missing_partial: otherwise missing values have no influence."
  },
  {
   "property": "C303",
   "status": "partial",
   "theorems": [
    "FinML.Metrics.C303_present_partial",
    "FinML.Metrics.C303_few",
    "FinML.Metrics.C303_present_counterexample"
   ],
   "note": "C303_present_counterexample refutes the claim (1, 2, NaN gives 1/9); C303_few is that case in general; C303_present_partial the other cases."
  },
  {
   "property": "C304",
   "status": "partial",
   "theorems": [
    "FinML.Weights.C304_unlabelled",
    "FinML.Weights.C304_share_partial",
    "FinML.Weights.C304_share_counterexample"
   ],
   "note": "C304_share_counterexample refutes the claim; C304_unlabelled gives the result in all cases in terms of the exact model, C304_share_partial the shares among labelled events."
  },
  {
   "property": "C305",
   "status": "partial",
   "theorems": [
    "FinML.Entropy.C305_zero_partial",
    "FinML.Entropy.C305_empty",
    "FinML.Entropy.C305_negative",
    "FinML.Entropy.C305_refuses_counterexample"
   ],
   "note": "C305_refuses_counterexample refutes the claim; C305_zero_partial proves it for a spacing of 0, C305_negative says exactly which series a negative spacing refuses and what the other codes are."
  },
  {
   "property": "C306",
   "status": "partial",
   "theorems": [
    "FinML.Options.C306_dividends_partial",
    "FinML.Options.C306_raises",
    "FinML.Options.C306_limit",
    "FinML.Options.C306_zero_strike_counterexample"
   ],
   "note": "C306_zero_strike_counterexample refutes the claim (no cash dividends: ZeroDivisionError, C306_raises); C306_dividends_partial proves it with cash dividends, C306_limit that the value is the limit of the prices."
  },
  {
   "property": "C307",
   "status": "partial",
   "theorems": [
    "FinML.Options.C307_negative_partial",
    "FinML.Options.C307_zero",
    "FinML.Options.C307_expiry",
    "FinML.Options.C307_exact",
    "FinML.Options.C307_ignores_counterexample"
   ],
   "note": "Refuted for pairs with an implied bond price of zero (C307_ignores_counterexample); C307_negative_partial holds for chains without such a pair, C307_zero says what they do, C307_expiry the result at t=0, C307_exact that the model agrees with that of C107 where that one is defined."
  },
  {
   "property": "C308",
   "status": "partial",
   "theorems": [
    "FinML.Basket.C308_numbers",
    "FinML.Basket.C308_same",
    "FinML.Basket.C308_ruined",
    "FinML.Basket.C308_weightless_partial",
    "FinML.Basket.C308_weightless_counterexample",
    "FinML.Basket.C308_volume"
   ],
   "note": "Refuted at prices and volumes of zero (C308_weightless_counterexample); C308_weightless_partial holds with a price where units are bought and volume on every bar. C308_ruined and C308_volume say what a price of zero does, C308_numbers and C308_same that the model agrees with that of C16 and C128."
  },
  {
   "property": "C309",
   "status": "partial",
   "theorems": [
    "FinML.Alloc.C309_agree",
    "FinML.Alloc.C309_real_partial",
    "FinML.Alloc.C309_beyond",
    "FinML.Alloc.C309_real_counterexample",
    "FinML.Alloc.C309_negative_coefficient",
    "FinML.Alloc.C309_size_agree"
   ],
   "note": "Refuted beyond the maximum position (C309_real_counterexample); C309_real_partial holds within it, C309_beyond gives the complex price, C309_negative_coefficient the sizes with a negative coefficient. C309_agree and C309_size_agree tie the model to that of C88 and C89."
  },
  {
   "property": "C310",
   "status": "partial",
   "theorems": [
    "FinML.CV.C310_smaller_counterexample",
    "FinML.CV.C310_negative",
    "FinML.CV.C310_smaller_partial",
    "FinML.CV.C310_negative_antitone",
    "FinML.CV.C310_folds_partial",
    "FinML.CV.C310_folds_counterexample"
   ],
   "note": "Partial: the full claims are SmallerKeepsMore and FoldsDisjoint, both refuted for a negative embargo; proved for embargoes that are not negative. C310_negative says what a negative one does."
  },
  {
   "property": "C311",
   "status": "partial",
   "theorems": [
    "FinML.Metrics.C311_raise_partial",
    "FinML.Metrics.C311_raise_counterexample",
    "FinML.Metrics.C311_outlier"
   ],
   "note": "Partial: the full claim RaisesRatio is refuted by (1, 2) and (1, 3); proved where the raised return stays below a nonnegative mean. C311_outlier gives the limit."
  },
  {
   "property": "C312",
   "status": "proved",
   "theorems": [
    "FinML.Stats.C312_jarque_bera",
    "FinML.Stats.C312_sharpe",
    "FinML.Stats.C312_order"
   ],
   "note": "Jarque-Bera, Sharpe ratio and probabilistic Sharpe ratio of permuted and of repeated samples."
  },
  {
   "property": "C313",
   "status": "proved",
   "theorems": [
    "FinML.Default.C313_mixture",
    "FinML.Default.C313_index",
    "FinML.Default.C313_order",
    "FinML.Default.C313_repeat"
   ],
   "note": "Uniqueness of the least-squares line, which is assumed of statsmodels only as a minimiser (IsOls)."
  },
  {
   "property": "C314",
   "status": "partial",
   "theorems": [
    "FinML.CV.C314_agree",
    "FinML.CV.C314_table_partial",
    "FinML.CV.C314_alone_partial",
    "FinML.CV.C314_order_partial",
    "FinML.CV.C314_alone_counterexample",
    "FinML.CV.C314_folds_partial",
    "FinML.CV.C314_folds_counterexample"
   ],
   "note": "Partial: the full claims SfiAlone and FoldsOutOfSample are refuted by estimators that keep what they have learned (warm start); proved for estimators that forget (Refits)."
  },
  {
   "property": "C315",
   "status": "partial",
   "theorems": [
    "FinML.Risk.C315_agree",
    "FinML.Risk.C315_precision_iff",
    "FinML.Risk.C315_precision_partial",
    "FinML.Risk.C315_precision_counterexample",
    "FinML.Risk.C315_impossible",
    "FinML.Risk.C315_freq_partial",
    "FinML.Risk.C315_freq_impossible",
    "FinML.Risk.C315_freq_counterexample"
   ],
   "note": "Partial: the full claims PrecisionReal and FreqNonneg are refuted by a loss of plus 1 and a precision of 2. C315_precision_iff and C315_freq_impossible say exactly when."
  },
  {
   "property": "C316",
   "status": "partial",
   "theorems": [
    "FinML.Labels.C316_rise_partial",
    "FinML.Labels.C316_below",
    "FinML.Labels.C316_rise_counterexample"
   ],
   "note": "Partial: the full claim RiseIsProfit is refuted by a rise from -10 to -8; proved for positive prices at the start. C316_below says what happens below zero."
  },
  {
   "property": "C317",
   "status": "proved",
   "theorems": [
    "FinML.Entropy.C317_plugin",
    "FinML.Entropy.C317_konto_window",
    "FinML.Entropy.C317_konto",
    "FinML.Entropy.C317_lempelziv"
   ],
   "note": "Proved. The dictionary bound is reached, see the example with period 3 and length 12."
  },
  {
   "property": "C318",
   "status": "partial",
   "theorems": [
    "FinML.Alloc.C318_near_partial",
    "FinML.Alloc.C318_exact_partial",
    "FinML.Alloc.C318_odd",
    "FinML.Alloc.C318_exact_counterexample",
    "FinML.C318_without_rounding"
   ],
   "note": "Partial: the full claim DivergenceExact is refuted by w = 24, divergence 5, max_size 7 (size 4 instead of 5). The power of the C library is a parameter with the contracts PowNear and PowSquares, which pow_exists shows to be consistent."
  },
  {
   "property": "C319",
   "status": "partial",
   "theorems": [
    "FinML.C319_without_rounding",
    "FinML.Entropy.C319_symbols_partial",
    "FinML.Entropy.C319_near_partial",
    "FinML.Entropy.C319_order",
    "FinML.Entropy.C319_exact_partial",
    "FinML.Entropy.C319_exact_counterexample",
    "FinML.Entropy.C319_grid_counterexample",
    "FinML.Entropy.C319_grid_partial"
   ],
   "note": "Partial: SigmaExact is refuted by the doubles 0.1, 0.5 with spacing 0.1, SigmaGrid by 0.3 with spacing 0.1. The numpy floor division of two doubles is taken to be the floor of the exact quotient."
  },
  {
   "property": "C320",
   "status": "partial",
   "theorems": [
    "FinML.Alloc.C320_size_partial",
    "FinML.Alloc.C320_larger",
    "FinML.Alloc.C320_size_counterexample"
   ],
   "note": "Proved for orders to buy from a non-negative position (size at the limit price and monotonicity in the order size). Refuted for selling, where the divisor of compute_limit_price is negative; see C89."
  },
  {
   "property": "C321",
   "status": "partial",
   "theorems": [
    "FinML.C321_without_rounding",
    "FinML.Default.C321_relative",
    "FinML.Default.C321_sign",
    "FinML.Default.C321_order_partial",
    "FinML.Default.C321_order_counterexample"
   ],
   "note": "Relative error, sign and zero proved in full for the rounded model; independence of the order refuted in doubles and proved up to the error bound. Doubles have unbounded exponents, so underflow is not modelled."
  },
  {
   "property": "C322",
   "status": "partial",
   "theorems": [
    "FinML.Metrics.C322_benchmark",
    "FinML.Metrics.C322_trials_partial",
    "FinML.Metrics.C322_trials_counterexample"
   ],
   "note": "Benchmark claim proved in full. Claim on the ratio proved for axis 1 and refuted for axis 0 (metrics.py:141 takes returns.size, see C99)."
  },
  {
   "property": "C323",
   "status": "partial",
   "theorems": [
    "FinML.Alloc.C323_largest",
    "FinML.Alloc.C323_equal_partial",
    "FinML.Alloc.C323_uncorrelated",
    "FinML.Alloc.C323_equal_counterexample"
   ],
   "note": "Bound by the riskiest instrument and the value for uncorrelated instruments proved in full; comparison with equal weights proved for two instruments, refuted for three."
  },
  {
   "property": "C324",
   "status": "partial",
   "theorems": [
    "FinML.TimeSeries.C324_longer_partial",
    "FinML.TimeSeries.C324_later",
    "FinML.TimeSeries.C324_bars",
    "FinML.TimeSeries.C324_longer_counterexample"
   ],
   "note": "Proved for increasing event times; the claim on the holding period refuted for events out of order (time_series.py:58-59, see C30)."
  },
  {
   "property": "C325",
   "status": "partial",
   "theorems": [
    "FinML.Filters.C325_default",
    "FinML.Filters.C325_value",
    "FinML.Filters.C325_affine_counterexample",
    "FinML.Filters.C325_affine_partial",
    "FinML.Filters.C325_extremes",
    "FinML.Filters.C325_max_bound",
    "FinML.Filters.C325_aggregates"
   ],
   "note": "Aggregate functions other than mean, sum, median, max, min and weighted means are not modelled."
  },
  {
   "property": "C326",
   "status": "partial",
   "theorems": [
    "FinML.Alloc.C326_minimum_partial",
    "FinML.Alloc.C326_distribution",
    "FinML.Alloc.C326_minimum_counterexample"
   ],
   "note": "Optimality for the sum of squared weights proved in full; the claim on the total weight is refuted."
  },
  {
   "property": "C327",
   "status": "partial",
   "theorems": [
    "FinML.C327_without_rounding",
    "FinML.Metrics.C327_return_counterexample",
    "FinML.Metrics.C327_return_partial"
   ],
   "note": "The product is in any order (no more roundings than factors). Values without a limit on the exponent, as in the other models in doubles."
  },
  {
   "property": "C328",
   "status": "partial",
   "theorems": [
    "FinML.Micro.C328_inverse",
    "FinML.Micro.C328_signs",
    "FinML.Micro.C328_bound_partial",
    "FinML.Micro.C328_bound_counterexample"
   ],
   "note": "Inverse quotes and signs proved in full; the bound for the default window, refuted for a window of 2."
  },
  {
   "property": "C329",
   "status": "partial",
   "theorems": [
    "FinML.Weights.C329_share",
    "FinML.Weights.C329_total_partial",
    "FinML.Weights.C329_total_counterexample"
   ],
   "note": "That the unnormalised weights add up to the absolute return is proved for prices that never fall or never rise and refuted in general (absolute values are taken event by event); the shares, their sum and bounds on both sides are proved in general."
  },
  {
   "property": "C330",
   "status": "proved",
   "theorems": [
    "FinML.Options.C330_superposition",
    "FinML.Options.C330_exact",
    "FinML.Options.C330_shift",
    "FinML.Options.C330_units"
   ],
   "note": "CubicSpline is a parameter; its contract for the given maturities: the result is the only not-a-knot cubic spline through the points."
  },
  {
   "property": "C331",
   "status": "partial",
   "theorems": [
    "FinML.Options.C331_reprice",
    "FinML.Options.C331_from_above",
    "FinML.Options.C331_error_partial",
    "FinML.Options.C331_error_counterexample"
   ],
   "note": "The secant branch of scipy's newton is transcribed over the reals. The error bound of one tolerance on the asset price is refuted (a call out of the money with small volatility); proved: the error times Phi(d1) at the lower of the two prices is at most the tolerance."
  },
  {
   "property": "C332",
   "status": "partial",
   "theorems": [
    "FinML.Default.C332_unique",
    "FinML.Default.C332_ordered",
    "FinML.Default.C332_direction_partial",
    "FinML.Default.C332_direction_counterexample"
   ],
   "note": "Existence, uniqueness and order are proved for all parameters (the equity value changes direction at most once, by the monotone ratio of the normal distribution function to its density). That equity always grows with the assets is refuted: with growth above the rate it first falls below zero; it is proved when alpha*T + beta*mkt_ex_ret <= 0 or when equity is worth something at the lower asset value."
  },
  {
   "property": "C333",
   "status": "proved",
   "theorems": [
    "FinML.Stats.C333_moments",
    "FinML.Stats.C333_affine",
    "FinML.Stats.C333_mirror",
    "FinML.Stats.C333_symmetric",
    "FinML.Stats.C333_pbo"
   ],
   "note": "Proved in full about the model."
  },
  {
   "property": "C334",
   "status": "proved",
   "theorems": [
    "FinML.FracDiff.C334_error",
    "FinML.FracDiff.C334_sharp"
   ],
   "note": "Proved in full about the model."
  },
  {
   "property": "C335",
   "status": "partial",
   "theorems": [
    "FinML.Alloc.C335_distances",
    "FinML.Alloc.C335_neighbours_partial",
    "FinML.Alloc.C335_neighbours_counterexample"
   ],
   "note": "Refuted for four instruments: scipy's linkage takes the square matrix of distances for coordinates and clusters the euclidean distances of its rows. Proved for at most three instruments, and for any number if the encoded distances themselves are clustered (single linkage as a specification)."
  },
  {
   "property": "C336",
   "status": "proved",
   "theorems": [
    "FinML.Options.C336_monotone",
    "FinML.Options.C336_needs_drift",
    "FinML.Options.C336_flat",
    "FinML.Options.C336_implied"
   ],
   "note": "The drift condition is needed: C336_needs_drift. Implied volatility uses the documented contract of brentq (BrentOk)."
  },
  {
   "property": "C337",
   "status": "partial",
   "theorems": [
    "FinML.Alloc.C337_riskier_counterexample",
    "FinML.Alloc.C337_riskier_partial",
    "FinML.Alloc.C337_order",
    "FinML.Alloc.C337_hrp_partial"
   ],
   "note": "RiskierGetsLess is the full claim for _recursive_bisection; C337_riskier_counterexample refutes it with three instruments, two of them with correlation -0.99. C337_riskier_partial and C337_hrp_partial prove it for two instruments, three with no negative covariance, and uncorrelated ones. C337_order is proved in general."
  },
  {
   "property": "C338",
   "status": "partial",
   "theorems": [
    "FinML.Metrics.C338_mixture_counterexample",
    "FinML.Metrics.C338_mixture_partial",
    "FinML.Metrics.C338_uncorrelated"
   ],
   "note": "Refuted for losing strategies (C338_mixture_counterexample). Proved when both ratios are nonnegative, and the bound for uncorrelated strategies in full."
  },
  {
   "property": "C339",
   "status": "partial",
   "theorems": [
    "FinML.Default.C339_currency_partial",
    "FinML.Default.C339_currency_counterexample",
    "FinML.Default.C339_fit",
    "FinML.Default.C339_firm_model"
   ],
   "note": "Refuted for debts below one unit (C339_currency_counterexample). Proved for prediction, fit and create_firm_model when no debt is below one unit in either currency."
  },
  {
   "property": "C340",
   "status": "partial",
   "theorems": [
    "FinML.Entropy.C340_plugin",
    "FinML.Entropy.C340_konto",
    "FinML.Entropy.C340_lempelziv_counterexample",
    "FinML.Entropy.C340_lempelziv_partial",
    "FinML.Entropy.C340_spacing_counterexample",
    "FinML.Entropy.C340_spacing_partial"
   ],
   "note": "Proved for the plug-in and Kontoyiannis entropies. Refuted for the Lempel-Ziv dictionary (C340_lempelziv_counterexample) and for sigma codes beyond the alphabet (C340_spacing_counterexample), with partial theorems for the rest."
  },
  {
   "property": "C341",
   "status": "proved",
   "theorems": [
    "FinML.Breaks.C341_bubble",
    "FinML.Breaks.C341_reversion",
    "FinML.Breaks.C341_growth",
    "FinML.Breaks.C341_decay",
    "FinML.Breaks.C341_growth_from_level"
   ],
   "note": "Exact arithmetic: with doubles the residuals of such a series need not be exactly zero."
  },
  {
   "property": "C342",
   "status": "proved",
   "theorems": [
    "FinML.Micro.C342_merged",
    "FinML.Micro.C342_subadditive"
   ],
   "note": "Full claim proved; bars are merged in the order of their ids, and the ids need not be consecutive."
  },
  {
   "property": "C343",
   "status": "partial",
   "theorems": [
    "FinML.Micro.C343_counterexample",
    "FinML.Micro.C343_pin_partial",
    "FinML.Micro.C343_equal_trades"
   ],
   "note": "Refuted as stated: C343_counterexample (trades of 1, 10, 8 in bars of 10 give 1.8). C343_pin_partial bounds the value, C343_equal_trades proves the claim for trades of equal size."
  },
  {
   "property": "C344",
   "status": "proved",
   "theorems": [
    "FinML.Alloc.C344_confident"
   ],
   "note": "Over the reals, with the normal distribution function as in C86; events and both calls share their time index."
  },
  {
   "property": "C345",
   "status": "proved",
   "theorems": [
    "FinML.Alloc.C345_one_more"
   ],
   "note": "Number of open events in exact arithmetic; the hypotheses ask that each side is open at some bar without the new event, as the code divides by that maximum."
  },
  {
   "property": "C346",
   "status": "partial",
   "theorems": [
    "FinML.Bars.C346_vwap_counterexample",
    "FinML.Bars.C346_prices_counterexample",
    "FinML.Bars.C346_row",
    "FinML.Bars.C346_vwap_partial",
    "FinML.Bars.C346_prices_partial",
    "FinML.Bars.C346_dollar_bars",
    "FinML.Bars.C346_complete"
   ],
   "note": "Refuted: C346_vwap_counterexample, C346_prices_counterexample. C346_vwap_partial gives the formula and what bounds remain, C346_prices_partial that the bars are those of the ticks with a volume; C346_dollar_bars needs no exception; C346_complete ties the model to that of C01 to C06."
  },
  {
   "property": "C347",
   "status": "partial",
   "theorems": [
    "FinML.Bars.C347_counterexample",
    "FinML.Bars.C347_zero_partial",
    "FinML.Bars.C347_negative_partial"
   ],
   "note": "Refuted: C347_counterexample. C347_zero_partial and C347_negative_partial say what is computed instead. Assumes the pandas convention x // 0 = inf, 0 // 0 = NaN, and that groupby drops NaN keys."
  },
  {
   "property": "C348",
   "status": "partial",
   "theorems": [
    "FinML.Bars.C348_counterexample",
    "FinML.Bars.C348_known_partial",
    "FinML.Bars.C348_unknown",
    "FinML.Bars.C348_complete"
   ],
   "note": "Refuted as stated: NaN flags stick (C348_counterexample).  C348_known_partial: every known flag is the right one; C348_unknown says exactly which flags are unknown; C348_complete: without missing prices it is the tick rule of the other models."
  },
  {
   "property": "C349",
   "status": "partial",
   "theorems": [
    "FinML.Bars.C349_counterexample",
    "FinML.Bars.C349_one_bar_partial",
    "FinML.Bars.C349_missing_volume",
    "FinML.Bars.C349_complete"
   ],
   "note": "Refuted as stated (C349_counterexample).  C349_one_bar_partial: for every unit, limit and span all ticks after a missing price have the same bar id.  C349_missing_volume: without a maximal size the ticks after a missing volume make at most two bars.  C349_complete: without missing values the model is that of C08.  Debug columns are left out."
  },
  {
   "property": "C350",
   "status": "partial",
   "theorems": [
    "FinML.Stats.C350_winner_partial",
    "FinML.Stats.C350_loser",
    "FinML.Stats.C350_counterexample"
   ],
   "note": "Refuted as stated (C350_counterexample).  C350_winner_partial: the logit is log(n - 1 + 1/1000) in every split and gaussian_kde raises; C350_loser: log(1/1000), and it raises as well.  scipy and the sorting of numpy are contracts."
  },
  {
   "property": "C351",
   "status": "partial",
   "theorems": [
    "FinML.Bars.C351_counterexample",
    "FinML.Bars.C351_buy_partial",
    "FinML.Bars.C351_max_size",
    "FinML.Bars.C351_complete",
    "FinML.Bars.C351_unflagged",
    "FinML.Bars.C351_initial"
   ],
   "note": "Refuted as stated (C351_counterexample: six ticks and their mirror image). Proved: what a buy without volume does (C351_buy_partial), that tick runs bars keep to their maximal size with prices missing (C351_max_size), that the volume of a tick without flag plays no part (C351_unflagged), where the initial expectations come from (C351_initial), and that without missing values the model is that of C11 (C351_complete)."
  },
  {
   "property": "C352",
   "status": "partial",
   "theorems": [
    "FinML.Micro.C352_values",
    "FinML.Micro.C352_high_low",
    "FinML.Micro.C352_starts_partial",
    "FinML.Micro.C352_lag",
    "FinML.Micro.C352_counterexample"
   ],
   "note": "Refuted as stated (C352_counterexample: five bars, the second without prices). Proved: which start time a row gets (C352_starts_partial), when it is the right one (C352_lag), and that estimates are there exactly for windows without gap, with the value they have however gaps are filled (C352_values, C352_high_low)."
  },
  {
   "property": "C353",
   "status": "partial",
   "theorems": [
    "FinML.Micro.C353_gap_partial",
    "FinML.Micro.C353_complete",
    "FinML.Micro.C353_counterexample"
   ],
   "note": "Refuted for a bounce between two prices with one price missing: every price in the gap gives a positive spread, 0 is reported. Proved: the result is (0, NaN) for every series with a gap, and that of C59 without gap."
  },
  {
   "property": "C354",
   "status": "partial",
   "theorems": [
    "FinML.Micro.C354_kyle_partial",
    "FinML.Micro.C354_kyle_complete",
    "FinML.Micro.C354_amihud_partial",
    "FinML.Micro.C354_hasbrouck_volume",
    "FinML.Micro.C354_amihud_complete",
    "FinML.Micro.C354_hasbrouck_complete",
    "FinML.Micro.C354_counterexample",
    "FinML.Micro.C354_hasbrouck_last"
   ],
   "note": "Refuted for Hasbrouck (three bars, the second without volume). Proved: exactly which gaps make Kyle's and Amihud's regressions refuse or report NaN; a missing volume counts as 0 for Hasbrouck; without gap the models are those of C63 and C64."
  },
  {
   "property": "C355",
   "status": "partial",
   "theorems": [
    "FinML.Micro.C355_value",
    "FinML.Micro.C355_fill_partial",
    "FinML.Micro.C355_complete",
    "FinML.Micro.C355_counterexample"
   ],
   "note": "Refuted for two ticks of one bar, the second without price: 1/2 is reported, possible are 0 and 1. Proved: the value at every bar, the distance to the VPIN for any prices in the gaps, agreement with C62 without gap."
  },
  {
   "property": "C356",
   "status": "partial",
   "theorems": [
    "FinML.Entropy.C356_counterexample",
    "FinML.Entropy.C356_fit_gap",
    "FinML.Entropy.C356_no_entropy",
    "FinML.Entropy.C356_known_partial",
    "FinML.Entropy.C356_binary",
    "FinML.Entropy.C356_sigma"
   ],
   "note": "Refuted for quantile codes fitted on 1, NaN, 2. Proved: after any fit on data with a gap every series is encoded as 0 and has plug-in entropy 0; with complete fit data known values keep their symbols and missing ones become ?; binary codes keep the symbols and put 0 for a missing value; sigma_encode refuses."
  },
  {
   "property": "C357",
   "status": "partial",
   "theorems": [
    "FinML.Labels.C357_counterexample",
    "FinML.Labels.C357_no_start",
    "FinML.Labels.C357_label_partial",
    "FinML.Labels.C357_late"
   ],
   "note": "Refuted for an event without opening price that is cancelled at its expiry. Proved: such an event touches no barrier, ends at its expiry with return NaN, and has no label unless cancelled; with any prices in the gaps of the path an event ends no later, with the same return if it was stopped out at a known price and still ends then."
  },
  {
   "property": "C358",
   "status": "partial",
   "theorems": [
    "FinML.Weights.C358_counterexample",
    "FinML.Weights.C358_complete",
    "FinML.Weights.C358_inside_partial",
    "FinML.Weights.C358_gap"
   ],
   "note": "Refuted: prices 1, NaN, 2 under one event give the weight NaN, while every positive price in the gap gives 1. Proved: events with all prices known from the bar before to the end are attributed the same as for any fill; a gap drops the return to it and the return from it; complete series give the weights of C36."
  },
  {
   "property": "C359",
   "status": "partial",
   "theorems": [
    "FinML.Labels.C359_counterexample",
    "FinML.Labels.C359_complete",
    "FinML.Labels.C359_inside_partial",
    "FinML.Labels.C359_start"
   ],
   "note": "Refuted: a price that goes from 1 to 4 over a bar without prices has the return 0. Proved: with an opening price in the first bar and all closes from the bar before to the end the return is that for any fill; a missing price in the first bar gives NaN; complete bars give the returns of C29."
  },
  {
   "property": "C360",
   "status": "proved",
   "theorems": [
    "FinML.Filters.C360_hull"
   ],
   "note": "For all aggregates of C325. The first n + floor(sqrt n) - 2 positions are missing as in the complete series."
  },
  {
   "property": "C361",
   "status": "partial",
   "theorems": [
    "FinML.Basket.C361_counterexample",
    "FinML.Basket.C361_before_partial",
    "FinML.Basket.C361_complete",
    "FinML.Basket.C361_gap",
    "FinML.Basket.C361_forever",
    "FinML.Basket.C361_open",
    "FinML.Basket.C361_close"
   ],
   "note": "Refuted: closes 1, NaN, 2 leave the value at 1, while every close in the gap gives 2. Proved: equality with every fill while no close (and no opening price after a rebalance) is missing; a missing close leaves only the dividend; NaN values stay; a missing opening price after a rebalance makes all later values NaN; complete tables as C16."
  },
  {
   "property": "C362",
   "status": "partial",
   "theorems": [
    "FinML.Metrics.C362_counterexample",
    "FinML.Metrics.C362_split",
    "FinML.Metrics.C362_last",
    "FinML.Metrics.C362_complete",
    "FinML.Metrics.C362_first_partial"
   ],
   "note": "Refuted: values 1, NaN, 2 return 0. Proved: exact behaviour at any gap (the growths of the two parts are multiplied), a last row without value changes nothing, a first row without value counts as a period without return; complete rows as C93."
  },
  {
   "property": "C363",
   "status": "partial",
   "theorems": [
    "FinML.Metrics.C363_timings_counterexample",
    "FinML.Metrics.C363_holding_counterexample",
    "FinML.Metrics.C363_holding_complete",
    "FinML.Metrics.C363_trailing_partial",
    "FinML.Metrics.C363_reported",
    "FinML.Metrics.C363_timings_complete",
    "FinML.Metrics.C363_known_partial"
   ],
   "note": "Refuted for both functions. Proved: exactly which times are reported; at known positions after known ones they are those for any fill; the holding period with positions missing at the end only is that for the last position kept; complete series as C91 and C92."
  },
  {
   "property": "C364",
   "status": "partial",
   "theorems": [
    "FinML.Basket.C364_counterexample",
    "FinML.Basket.C364_known_partial",
    "FinML.Basket.C364_last",
    "FinML.Basket.C364_roll"
   ],
   "note": "Refuted by C364_counterexample; C364_known_partial assumes the prices at the rolls (and the close of the last bar but one with match_end). C364_last and C364_roll describe the failing cases. RET_PRICES is not covered here."
  },
  {
   "property": "C365",
   "status": "proved",
   "theorems": [
    "FinML.TimeSeries.C365_returns",
    "FinML.TimeSeries.C365_repeat",
    "FinML.TimeSeries.C365_before"
   ],
   "note": "Proved in full about the model."
  },
  {
   "property": "C366",
   "status": "partial",
   "theorems": [
    "FinML.Bars.C366_counterexample",
    "FinML.Bars.C366_forever",
    "FinML.Bars.C366_before_partial",
    "FinML.Bars.C366_fill",
    "FinML.Bars.C366_last"
   ],
   "note": "Refuted by C366_counterexample; C366_before_partial covers positions before the first gap, C366_forever the rest (both variants). C366_last ties the model to the last value used by the imbalance bars in C349."
  },
  {
   "property": "C367",
   "status": "partial",
   "theorems": [
    "FinML.Breaks.C367_counterexample",
    "FinML.Breaks.C367_after_partial",
    "FinML.Breaks.C367_complete",
    "FinML.Breaks.C367_responses"
   ],
   "note": "Refuted by C367_counterexample; C367_after_partial covers the rows after the last gap, C367_responses shows that all responses are real changes, C367_complete links the model to C119. The fit of a design with NaN is not modelled."
  },
  {
   "property": "C368",
   "status": "proved",
   "theorems": [
    "FinML.Breaks.C368_stats"
   ],
   "note": "Proved in full about the model."
  },
  {
   "property": "C369",
   "status": "partial",
   "theorems": [
    "FinML.Risk.C369_complete",
    "FinML.Risk.C369_higher",
    "FinML.Risk.C369_counterexample",
    "FinML.Risk.C369_known_partial"
   ],
   "note": "Refuted in general by C369_higher (strictly higher whenever a gain, a loss and a missing return are present), hence C369_counterexample. C369_known_partial covers the remaining cases with a known return."
  },
  {
   "property": "C370",
   "status": "partial",
   "theorems": [
    "FinML.Stats.C370_durbin_watson",
    "FinML.Stats.C370_autocorr_partial",
    "FinML.Stats.C370_autocorr_counterexample"
   ],
   "note": "The autocorrelation part is refuted in general by C370_autocorr_counterexample (every second value missing); C370_autocorr_partial covers values missing at either end. The Durbin-Watson part is proved in full."
  },
  {
   "property": "C371",
   "status": "partial",
   "theorems": [
    "FinML.CV.C371_reversed_time",
    "FinML.CV.C371_mutual_partial",
    "FinML.CV.C371_mutual_counterexample"
   ],
   "note": "C371_reversed_time is proved for all closed events. Mutuality is refuted for open events by C371_mutual_counterexample; C371_mutual_partial covers all events with known ends."
  },
  {
   "property": "C372",
   "status": "partial",
   "theorems": [
    "FinML.Filters.C372_counterexample",
    "FinML.Filters.C372_at_most",
    "FinML.Filters.C372_missing_median",
    "FinML.Filters.C372_complete_partial"
   ],
   "note": "Refuted in general by C372_counterexample, for every median that is right on complete series. C372_at_most and C372_missing_median say what is returned instead; C372_complete_partial covers complete series."
  },
  {
   "property": "C373",
   "status": "partial",
   "theorems": [
    "FinML.Stats.C373_selected",
    "FinML.Stats.C373_counterexample",
    "FinML.Stats.C373_complete_partial",
    "FinML.Stats.C373_known_partial"
   ],
   "note": "Refuted by C373_selected (the first strategy with a missing return is selected) and C373_counterexample. C373_known_partial covers choices without missing returns on the train rows; C373_complete_partial: without missing returns each choice is that of C300."
  }
 ]
}
