{"id": "C01", "title": "Every bar is a sound OHLCV/VWAP summary", "statement": "For every bar produced by a bar aggregator, Open and Close are the prices of the first and last tick of the bar, High and Low are attained by ticks of the bar and bound all its prices, Volume is the sum of the tick volumes, and, when volumes are non-negative with positive total, Low <= Open, Close, VWAP <= High. A bar whose total volume is 0 has a non-finite VWAP.", "quantifier": "all non-empty tick groups of any length with any prices and volumes", "why_tests_cant": "a unit test checks a few tick sequences; the bounds must hold for every sequence and every grouping", "anchors": ["financial_ml/data_structures/bars.py:_compute_bar_stats", "financial_ml/data_structures/bars.py:_compute_vwap"]}
{"id": "C02", "title": "Bars partition the tick stream and conserve volume and dollars", "statement": "Grouping ticks by bar id puts each tick in exactly one bar; bar ids come out strictly increasing; summed bar volume equals summed tick volume; summed Volume*VWAP equals summed price*volume when every bar has non-zero volume; when bar ids never decrease along the stream the bars, read in order, are exactly the stream cut into consecutive pieces.", "quantifier": "all finite tick streams and all assignments of bar ids", "why_tests_cant": "conservation is a statement about every stream and every id assignment", "anchors": ["financial_ml/data_structures/bars.py:_group_ticks_to_bars"]}
{"id": "C03", "title": "Tick bars hold exactly freq ticks", "statement": "aggregate_tick_bars(ticks, freq) with an integer freq >= 1 cuts the stream into consecutive blocks; every bar but the last has exactly freq ticks, the last has between 1 and freq, and there are ceil(n/freq) bars; each bar is the OHLCV summary of its block.", "quantifier": "all tick streams and all freq >= 1", "why_tests_cant": "boundary behaviour at n = k*freq, k*freq+1, ... for all n and freq", "anchors": ["financial_ml/data_structures/bars.py:aggregate_tick_bars"]}
{"id": "C04", "title": "Volume bars are consecutive runs bounded by freq plus one tick", "statement": "With non-negative volumes and freq > 0, aggregate_volume_bars returns consecutive runs of ticks, the cumulative volume at the end of the bar with id k is in [k*freq,(k+1)*freq), and the volume of any bar is less than freq plus the volume of its own first tick.", "quantifier": "all non-negative volume streams and all freq > 0", "why_tests_cant": "depends on where each cumulative sum falls relative to all multiples of freq", "anchors": ["financial_ml/data_structures/bars.py:aggregate_volume_bars"]}
{"id": "C05", "title": "A volume bar completes when freq units have traded", "statement": "The documented reading of freq (\"volume traded per bar\") is that a tick bringing the cumulative volume to exactly k*freq completes bar k. (The code assigns that tick to the next bar, so the first bar of a unit-volume stream has freq-1 ticks.)", "quantifier": "all volume streams and all freq > 0", "why_tests_cant": "an off-by-one at exact multiples that a data-driven test with irregular volumes never reaches", "anchors": ["financial_ml/data_structures/bars.py:aggregate_volume_bars"]}
{"id": "C06", "title": "Dollar bars are consecutive runs bounded by freq plus one tick", "statement": "With non-negative price*volume and freq > 0, aggregate_dollar_bars returns consecutive runs of ticks, and the traded dollars of any bar are less than freq plus the dollars of its own first tick; total dollars are conserved.", "quantifier": "all tick streams with non-negative dollar amounts, all freq > 0", "why_tests_cant": "same as C04 for dollar amounts", "anchors": ["financial_ml/data_structures/bars.py:aggregate_dollar_bars"]}
{"id": "C07", "title": "Imbalance bars cover the stream exactly once", "statement": "For every non-empty tick stream and every parameter choice aggregate_imblance_bars assigns every tick a bar, without an indexing error; bar ends are strictly increasing, the last is the last tick, the tick counts per bar are positive and add to n, and the bars are consecutive pieces of the stream.", "quantifier": "all non-empty streams of signed flows, all min/max sizes, initial expectations, E_T_init >= 1, b_ewma_span >= 1 or default (0 is C125), any T_ewma_span", "why_tests_cant": "the loop has data-dependent resets; coverage must hold on each path", "anchors": ["financial_ml/data_structures/bars.py:_compute_imbalance_bar_sizes", "financial_ml/data_structures/bars.py:_compute_tick_bar_id", "financial_ml/data_structures/bars.py:aggregate_imblance_bars"]}
{"id": "C08", "title": "No imbalance or runs bar but the last is smaller than min_bar_size", "statement": "Every bar except possibly the last has accumulated size (in bar units) at least min_bar_size.", "quantifier": "all streams and parameters", "why_tests_cant": "needs an invariant over the padding state for all streams", "anchors": ["financial_ml/data_structures/bars.py:_compute_imbalance_bar_sizes", "financial_ml/data_structures/bars.py:_compute_runs_bar_sizes"]}
{"id": "C09", "title": "An imbalance bar closes exactly at the first tick that meets the rule", "statement": "Walking a bar tick by tick (from its first tick, or from the second tick for the first bar), it closes at the first tick at which the trigger |theta| >= E_T*|E_b| or size >= max_bar_size has already fired in this bar and size >= min_bar_size; it never closes earlier or later. theta and the threshold reported with debug=True are the signed flow accumulated in the bar and the threshold in force.", "quantifier": "all streams and parameters", "why_tests_cant": "argmin semantics: both too-early and too-late closes must be excluded for every stream", "anchors": ["financial_ml/data_structures/bars.py:_compute_imbalance_bar_sizes"]}
{"id": "C10", "title": "Imbalance bars do not look ahead", "statement": "With explicit initial expectations, the bars closed within the first m ticks are the same whatever ticks come later.", "quantifier": "all pairs of streams sharing a prefix", "why_tests_cant": "a statement about every possible future of every prefix", "anchors": ["financial_ml/data_structures/bars.py:_compute_imbalance_bar_sizes"]}
{"id": "C11", "title": "Runs bars cover the stream exactly once", "statement": "Whenever aggregate_runs_bars returns, bar ends are strictly increasing and end at the last tick, tick counts are positive and add to n, no bar but the last is below min_bar_size, and the bars are consecutive pieces of the stream; bars closed within the first m ticks do not depend on later ticks.", "quantifier": "all non-empty streams and parameters on which the call returns", "why_tests_cant": "as C07 with more state", "anchors": ["financial_ml/data_structures/bars.py:_compute_runs_bar_sizes", "financial_ml/data_structures/bars.py:aggregate_runs_bars"]}
{"id": "C12", "title": "Runs bars can be computed for any tick stream", "statement": "aggregate_runs_bars returns bars for every non-empty tick stream. (It raises if the first bar closes before both a buy and a sell tick were seen after tick 0.)", "quantifier": "all non-empty tick streams", "why_tests_cant": "the failing streams are one-sided markets that random data does not produce", "anchors": ["financial_ml/data_structures/bars.py:_compute_runs_bar_sizes"]}
{"id": "C13", "title": "fast_ewma is the exponentially weighted mean", "statement": "fast_ewma(x, span, adjust=True)[i] = sum_k (1-a)^k x[i-k] / sum_k (1-a)^k with a = 2/(span+1); adjust=False is the recursion e_i = a x_i + (1-a) e_{i-1}; for span >= 1 both stay between the minimum and maximum of x[0..i], reproduce constants, and depend only on x[0..i].", "quantifier": "all non-empty series, all spans >= 1", "why_tests_cant": "closed form and bounds for every length", "anchors": ["financial_ml/utils/time_series.py:fast_ewma"]}
{"id": "C14", "title": "Resampling bars equals aggregating their ticks", "statement": "If bars are built from consecutive pieces of a tick stream and then merged by resample_time_to_volume_bars, each resulting bar equals the OHLCV/VWAP bar of all the underlying ticks; total volume is conserved and merged bars are consecutive.", "quantifier": "all ways to cut a stream into pieces and merge adjacent pieces", "why_tests_cant": "a homomorphism law over all partitions", "anchors": ["financial_ml/data_structures/bars.py:_resample_bar_stats", "financial_ml/data_structures/bars.py:_resample_vwap", "financial_ml/data_structures/bars.py:resample_time_to_volume_bars"]}
{"id": "C15", "title": "Time bars are fixed, gap-free intervals", "statement": "aggregate_time_bars returns one bar for every interval from the interval of the first tick to that of the last, each summarising precisely the ticks in the interval, for every tick stream. (The call raises when some interval in between holds no tick.)", "quantifier": "all tick streams sorted by time and all interval lengths > 0", "why_tests_cant": "market data with gaps versus without", "anchors": ["financial_ml/data_structures/bars.py:aggregate_time_bars"]}
{"id": "C16", "title": "The ETF series is the P&L of the held basket", "statement": "basket_to_etf starts at 1; each step changes the value by sum_i h_i*(price change_i + dividend_i)*fx_i, with price change open-to-close on the bar after a rebalance and close-to-close otherwise; without rebalancing, dividends and FX moves the value at t is 1 + sum_i h_i fx_i (close_t - close_0), and a single long instrument gives close_t/close_0.", "quantifier": "all numbers of bars and instruments, all prices, weights and rebalance sets", "why_tests_cant": "recursion over every history length", "anchors": ["financial_ml/data_structures/basket.py:basket_to_etf"]}
{"id": "C17", "title": "Only relative weights matter", "statement": "Multiplying each row of weights by its own positive constant leaves the value series and the volume series of basket_to_etf unchanged.", "quantifier": "all inputs and all positive row scalings", "why_tests_cant": "an invariance over all inputs", "anchors": ["financial_ml/data_structures/basket.py:basket_to_etf"]}
{"id": "C18", "title": "Rebalancing is self-financing", "statement": "At a rebalance bar the absolute notional bought at the next open (at the FX rate used) equals the absolute basket value, split in proportion to |weights|; between rebalances holdings are constant.", "quantifier": "all inputs and rebalance sets", "why_tests_cant": "needs the loop invariant for every bar", "anchors": ["financial_ml/data_structures/basket.py:basket_to_etf"]}
{"id": "C19", "title": "Roll adjustment removes exactly the roll gaps", "statement": "In adjust_rolled_series the change of adjusted close from bar t-1 to t equals the raw change if t is not a roll date, and close_t - open_t if t is a roll date; and adjusted open at a roll date equals the adjusted close of the previous bar; where a bar is a roll date when its contract appears for the first time.", "quantifier": "all bar series and contract sequences, both match modes", "why_tests_cant": "cumulative sums over arbitrary roll patterns", "anchors": ["financial_ml/data_structures/basket.py:_compute_roll_gaps", "financial_ml/data_structures/basket.py:adjust_rolled_series"]}
{"id": "C20", "title": "The rolled series matches the raw series at the chosen end", "statement": "With match_end=False the first adjusted price equals the raw one; with match_end=True the last adjusted price equals the raw one. (Fails for match_end=True when the last bar is itself a roll date.)", "quantifier": "all bar series with at least two bars", "why_tests_cant": "only inputs rolling on the very last bar break it", "anchors": ["financial_ml/data_structures/basket.py:_compute_roll_gaps"]}
{"id": "C21", "title": "The non-negative rolled price is non-negative", "statement": "With positive raw prices the RET_PRICES column is non-negative and starts at 1. (Fails if at a roll the new contract falls from open to close by more than the previous close.)", "quantifier": "all positive price series and contract sequences", "why_tests_cant": "only large intraday falls on roll dates break it", "anchors": ["financial_ml/data_structures/basket.py:adjust_rolled_series"]}
{"id": "C22", "title": "An event ends at the first barrier touched", "statement": "In get_event_returns each event ends at the earliest bar in [start, expiry] at which the profit-taking or the stop-loss barrier is crossed, the stop loss winning ties, and at the expiry if there is none; PT_Time and SL_Time are the first crossings of each barrier.", "quantifier": "all price paths, event starts, expiries, targets, multipliers and sides", "why_tests_cant": "first-passage over every path", "anchors": ["financial_ml/labeling/triple_barrier.py:_get_triple_barrier_returns", "financial_ml/labeling/triple_barrier.py:get_event_returns"]}
{"id": "C23", "title": "The reported return is that of the trade", "statement": "RETURN is side*(price/start_price - 1) at the ending bar: above the target limit for a profit take, below minus the limit for a stop loss, and side*(close/open - 1) at expiry. (At expiry the code does not apply the side, so expired shorts are reported with the wrong sign.)", "quantifier": "all price paths and events", "why_tests_cant": "expired short events with non-zero return", "anchors": ["financial_ml/labeling/triple_barrier.py:_get_triple_barrier_returns"]}
{"id": "C24", "title": "A zero multiplier disables its barrier", "statement": "With multiplier 0 the barrier is never hit; with both 0 each event ends at its expiry; without sides only the first multiplier is used, for both barriers; negative multipliers are rejected.", "quantifier": "all prices, events, multipliers", "why_tests_cant": "for all paths", "anchors": ["financial_ml/labeling/triple_barrier.py:_get_triple_barrier_returns", "financial_ml/labeling/triple_barrier.py:get_event_returns"]}
{"id": "C25", "title": "Events at or below min_target_return are left out", "statement": "get_event_returns returns exactly the events whose target exceeds min_target_return. (When an expiry is given for a left-out event, or event_expiries is None, the call raises instead.)", "quantifier": "all target series and thresholds", "why_tests_cant": "only when at least one event is filtered", "anchors": ["financial_ml/labeling/triple_barrier.py:get_event_returns"]}
{"id": "C26", "title": "Labels are the sign of the outcome", "statement": "get_event_labels returns -1/0/1 by the sign of the return without sides, and 1 for a positive return and 0 otherwise with sides; with cancel_expired_event an event ending at or after its expiry gets 0 and all others keep their label; an event without expiry is not cancelled.", "quantifier": "all event tables", "why_tests_cant": "all combinations of columns, signs and times", "anchors": ["financial_ml/labeling/triple_barrier.py:get_event_labels"]}
{"id": "C27", "title": "The outcome of an event depends only on prices from its start to its expiry", "statement": "Changing prices outside [start, expiry] does not change the event end time, return or label.", "quantifier": "all pairs of price tables agreeing on the window", "why_tests_cant": "no-lookahead for every future", "anchors": ["financial_ml/labeling/triple_barrier.py:_get_triple_barrier_returns"]}
{"id": "C28", "title": "Fixed-window events are aligned to bars", "statement": "In get_fixed_window_events every kept event has as start the first bar at or after bar time+gap, as end the first bar at or after bar time+window, or the last bar; with drop_partial_events only events ending by the last bar are kept; start <= end when gap <= window.", "quantifier": "all sorted bar indices, windows and gaps", "why_tests_cant": "searchsorted boundaries for all indices", "anchors": ["financial_ml/labeling/triple_barrier.py:get_fixed_window_events"]}
{"id": "C29", "title": "A fixed-window return is the log return from the start open to the end close", "statement": "RETURN equals log(close_end/open_start). (The code adds the close-to-close return of the start bar as well, so the statement only holds when the event starts at the first bar or that return is 0.)", "quantifier": "all positive price series, windows and gaps", "why_tests_cant": "algebraic identity over all series; the existing test pins the double counted value", "anchors": ["financial_ml/labeling/triple_barrier.py:get_fixed_window_events"]}
{"id": "C30", "title": "Vertical barriers are the first bar after the holding period", "statement": "get_vertical_barriers maps each event to the first bar at or after event+holding_period, and omits precisely the events with no such bar. (Only if events are sorted; otherwise barriers are attached to the wrong events.)", "quantifier": "all sorted bar indices and event lists", "why_tests_cant": "alignment for all event lists", "anchors": ["financial_ml/utils/time_series.py:get_vertical_barriers"]}
{"id": "C31", "title": "Daily volatility uses returns over one day", "statement": "get_daily_volatility pairs each bar with the last bar strictly more than a day earlier (intraday) or the first bar within the past day (daily data), never with itself. (With daily data a bar after a gap of more than a day is paired with itself.) Bars with no partner are omitted.", "quantifier": "all sorted bar indices", "why_tests_cant": "alignment and gaps", "anchors": ["financial_ml/utils/time_series.py:get_daily_volatility"]}
{"id": "C32", "title": "Concurrency counts are exact", "statement": "count_events_per_bar returns for each bar from the first event start to the last event end the number of events with start <= bar <= end (an open end counts as the last bar), for any event series ordered by start.", "quantifier": "all sorted bar indices and all event series ordered by start", "why_tests_cant": "a counting identity for all inputs", "anchors": ["financial_ml/labeling/weighting.py:count_events_per_bar"]}
{"id": "C33", "title": "Average uniqueness lies in (0,1] and is 1 iff alone", "statement": "label_avg_uniqueness of each event that spans a bar is in (0,1], and is 1 iff no other event shares one of its bars; the sum over events of uniqueness times number of bars equals the number of bars covered by some event.", "quantifier": "all bars and events", "why_tests_cant": "identity over all overlaps", "anchors": ["financial_ml/labeling/weighting.py:label_avg_uniqueness"]}
{"id": "C34", "title": "Indicator matrix agrees with counts", "statement": "get_event_indicators has 1 exactly where start <= bar <= end; its row sums are the concurrency counts, and average uniqueness computed from it equals label_avg_uniqueness.", "quantifier": "all bars and events", "why_tests_cant": "two implementations agree on every input", "anchors": ["financial_ml/labeling/weighting.py:get_event_indicators", "financial_ml/labeling/weighting.py:_get_avg_uniqueness"]}
{"id": "C35", "title": "Sequential bootstrap draws from a proper distribution", "statement": "For every outcome of the random source sample_sequential_boostrap makes size draws of existing events; at each draw the probabilities are positive and sum to 1, and an event overlapping none of the drawn ones is at least as probable as any other.", "quantifier": "all indicator matrices without empty columns, all sizes, all random outcomes", "why_tests_cant": "ranges over all random histories", "anchors": ["financial_ml/labeling/weighting.py:sample_sequential_boostrap", "financial_ml/labeling/weighting.py:_get_avg_uniqueness"]}
{"id": "C36", "title": "Return-attribution weights sum to the number of events", "statement": "compute_weights_by_returns yields non-negative weights whose sum is the number of events whenever some event has non-zero attribution.", "quantifier": "all events, counts and prices", "why_tests_cant": "algebraic identity", "anchors": ["financial_ml/labeling/weighting.py:compute_weights_by_returns", "financial_ml/labeling/weighting.py:_get_return_attributions"]}
{"id": "C37", "title": "Time decay weights", "statement": "apply_time_decay_to_weights gives the newest event weight 1, weights in [0,1] that never decrease with time; oldest_weight=1 changes nothing; for 0<=c<=1 all weights are at least c; for -1<c<0 an event weighs 0 exactly if its cumulative uniqueness is at most -c of the total.", "quantifier": "all positive uniqueness series and c in (-1,1]", "why_tests_cant": "for all series and c", "anchors": ["financial_ml/labeling/weighting.py:apply_time_decay_to_weights"]}
{"id": "C38", "title": "drop_rare_labels terminates with only frequent labels", "statement": "drop_rare_labels always terminates; it keeps or removes whole classes and preserves order; on return either every label is more frequent than min_pct or at most min_classes classes remain; it never goes below min_classes classes.", "quantifier": "all label lists, min_pct and min_classes >= 0", "why_tests_cant": "loop over arbitrary label multisets", "anchors": ["financial_ml/labeling/weighting.py:drop_rare_labels"]}
{"id": "C39", "title": "Purging keeps exactly the events disjoint from every test interval", "statement": "apply_purging_and_embargo without embargo returns, in order, exactly the events whose interval [start,end] is disjoint from every test interval.", "quantifier": "all events and test intervals with start <= end", "why_tests_cant": "no leakage must hold for all overlaps", "anchors": ["financial_ml/evaluation/cross_validation.py:_get_purged_train_indices", "financial_ml/evaluation/cross_validation.py:apply_purging_and_embargo"]}
{"id": "C40", "title": "Embargo extends test intervals by the given number of bars", "statement": "Each test end at bar i is moved to bar min(i+int(n*pct), n-1); the train set with embargo is the set of events disjoint from all extended intervals and shrinks as the embargo grows; a test end that is not a bar time raises.", "quantifier": "all bar times, events and embargo fractions", "why_tests_cant": "boundaries at the end of the bar series", "anchors": ["financial_ml/evaluation/cross_validation.py:_get_embargo_times", "financial_ml/evaluation/cross_validation.py:apply_purging_and_embargo"]}
{"id": "C41", "title": "PurgedKFold test folds partition the events", "statement": "The test sets of PurgedKFold(n_splits).split are consecutive, non-empty, cover all events exactly once and differ in size by at most one; if n_splits exceeds the number of events the call raises.", "quantifier": "all numbers of events and splits", "why_tests_cant": "array_split arithmetic for all n,k", "anchors": ["financial_ml/evaluation/cross_validation.py:PurgedKFold.split"]}
{"id": "C42", "title": "PurgedKFold leaks nothing", "statement": "For events ordered by start, every train event of PurgedKFold ends before the first test start or starts after the last test end; train and test are disjoint; train events after the test set start at least int(n*embargo_pct) events later.", "quantifier": "all sorted event series, splits and embargo fractions", "why_tests_cant": "no leakage for all overlaps", "anchors": ["financial_ml/evaluation/cross_validation.py:PurgedKFold.split"]}
{"id": "C43", "title": "PurgedKFold keeps every admissible event", "statement": "Without embargo the train set of each split contains every event disjoint from the test span. (One admissible event following the test span is always lost.)", "quantifier": "all sorted event series and splits", "why_tests_cant": "off-by-one invisible in leak tests", "anchors": ["financial_ml/evaluation/cross_validation.py:PurgedKFold.split"]}
{"id": "C44", "title": "Combinatorial CV enumerates all choices of test groups without leakage", "statement": "CombinatorialPurgedCV.split yields one split for each num_test_groups-subset of groups in lexicographic order; test indices are exactly those groups; train indices are the events disjoint from every embargoed test event, hence disjoint from the test set.", "quantifier": "all numbers of groups, events and embargo fractions", "why_tests_cant": "ranges over all combinations", "anchors": ["financial_ml/evaluation/backtest.py:CombinatorialPurgedCV.split"]}
{"id": "C45", "title": "Combinatorial CV groups tile the events", "statement": "The groups of CombinatorialPurgedCV are consecutive and together contain every event exactly once. (True in exact arithmetic; with IEEE doubles the last event is lost for some sizes.)", "quantifier": "all numbers of events and groups", "why_tests_cant": "floating point counterexamples are rare", "anchors": ["financial_ml/evaluation/backtest.py:CombinatorialPurgedCV.split", "financial_ml/evaluation/backtest.py:CombinatorialPurgedCV.get_backtest_paths"]}
{"id": "C46", "title": "Backtest paths cover each observation once and use each test prediction once", "statement": "After one full split pass get_backtest_paths returns C(N-1,k-1) paths; every path contains all groups in order, each from a split where the group was tested; and each (group, split) pair with the group tested occurs in exactly one path.", "quantifier": "all N and 1 <= k <= N", "why_tests_cant": "combinatorial identity for all N,k", "anchors": ["financial_ml/evaluation/backtest.py:CombinatorialPurgedCV.get_backtest_paths"]}
{"id": "C47", "title": "Paths are right whatever the call history", "statement": "get_backtest_paths only pairs a group with splits that test it, after any interleaving of (partial) iterations of split; and its result does not depend on how often split was iterated. (The second half fails: iterating split again duplicates every path.)", "quantifier": "all histories of iterator creation, advancement and path queries", "why_tests_cant": "ranges over histories", "anchors": ["financial_ml/evaluation/backtest.py:CombinatorialPurgedCV"]}
{"id": "C48", "title": "PBO splits are complementary and logits finite", "statement": "compute_pbo evaluates each half-size choice of partitions once; train and test indices are disjoint and cover all observations; observations left over by the integer partition size are always tested and never trained on; the relative rank is in [0,1) and every logit is finite.", "quantifier": "all matrix sizes and even numbers of partitions", "why_tests_cant": "ranges over all combinations", "anchors": ["financial_ml/evaluation/backtest.py:compute_pbo"]}
{"id": "C49", "title": "CV scoring fits on train rows and scores on test rows only", "statement": "timeseries_cv_score raises NotImplementedError before fitting for unknown scoring, otherwise returns one score per split, in order, where the i-th score is computed from a model fitted on exactly the i-th train rows and weights and evaluated on exactly the i-th test rows and weights.", "quantifier": "all data sets, splitters, models and scorings", "why_tests_cant": "must hold for every splitter and model", "anchors": ["financial_ml/evaluation/cross_validation.py:timeseries_cv_score"]}
{"id": "C50", "title": "Single feature importance returns a score for each feature", "statement": "get_single_feature_importance returns a mean and std per feature for any CV splitter. (With PurgedKFold it always raises because the event times are not passed on.)", "quantifier": "all features, data sets and splitters", "why_tests_cant": "the failure is on every input", "anchors": ["financial_ml/explain/feature_importance.py:get_single_feature_importance"]}
{"id": "C51", "title": "MDI importances sum to one", "statement": "The mean column of get_mean_decrease_impurity sums to 1 over the features used by some tree, features used by no tree have a missing value, and all values are positive.", "quantifier": "all forests with non-negative importances", "why_tests_cant": "normalisation for every forest", "anchors": ["financial_ml/explain/feature_importance.py:get_mean_decrease_impurity"]}
{"id": "C52", "title": "MDA importance is the relative loss of score", "statement": "Per fold the importance of a feature is (score-perm_score)/(0-perm_score) or /(1-perm_score); it is 0 when permuting does not change the score, at most 1 for scores bounded by the perfect score, and positive exactly when permuting hurts.", "quantifier": "all scores per fold", "why_tests_cant": "algebra for all values", "anchors": ["financial_ml/explain/feature_importance.py:get_mean_decrease_accuracy"]}
{"id": "C53", "title": "CUSUM filter events are justified", "statement": "Every time reported by filter_symmetric_cusum with threshold >= 0 is preceded by a time, not before the previous reset, from which the series moved by more than the threshold; events are a strictly increasing subsequence of the index without its first element.", "quantifier": "all series and thresholds >= 0", "why_tests_cant": "path property for all series", "anchors": ["financial_ml/features/filters.py:filter_symmetric_cusum"]}
{"id": "C54", "title": "CUSUM filter misses nothing", "statement": "Between two consecutive events (and before the first and after the last) the series never moves by more than the threshold between any two times.", "quantifier": "all series and thresholds >= 0", "why_tests_cant": "completeness for all series", "anchors": ["financial_ml/features/filters.py:filter_symmetric_cusum"]}
{"id": "C55", "title": "CUSUM filter is causal, symmetric and shift invariant", "statement": "Events up to a time do not depend on later values; negating the series or adding a constant does not change the events.", "quantifier": "all series and thresholds >= 0", "why_tests_cant": "invariance over all inputs", "anchors": ["financial_ml/features/filters.py:filter_symmetric_cusum"]}
{"id": "C56", "title": "Market meanness index is a fraction", "statement": "get_mmi is in [0,1], unchanged by adding a constant or scaling by a positive factor, and by negating the series.", "quantifier": "all series of length >= 2", "why_tests_cant": "for all series", "anchors": ["financial_ml/features/filters.py:get_mmi"]}
{"id": "C57", "title": "Hull moving average is affine equivariant", "statement": "hull_ma(a*x+b, n) = a*hull_ma(x, n)+b for the mean, constants are reproduced and missing values occur exactly in the first n + int(sqrt(n)) - 2 positions; on a linear trend the lag is (int(sqrt n)-2)/2 for even n.", "quantifier": "all series, all n >= 2", "why_tests_cant": "for all lengths and windows", "anchors": ["financial_ml/features/filters.py:hull_ma"]}
{"id": "C58", "title": "Tick rule signs are those of the last price change", "statement": "tick_rule returns one flag per tick: b0 while the price has not changed and otherwise the sign of the last non-zero change, so flags are in {-1,1} if b0 is; it does not depend on later ticks and is unchanged by positive affine changes of price; negating prices and b0 negates the flags.", "quantifier": "all price series", "why_tests_cant": "carry-forward over any run of equal prices", "anchors": ["financial_ml/features/microstructure.py:tick_rule"]}
{"id": "C59", "title": "Roll spread and noise variance are non-negative", "statement": "roll_effective_spread returns a spread >= 0 and a variance >= 0. (The variance is negative for alternating prices because the sample covariance is not clipped.)", "quantifier": "all price series of length >= 4", "why_tests_cant": "sign for all inputs", "anchors": ["financial_ml/features/microstructure.py:roll_effective_spread"]}
{"id": "C60", "title": "High-low volatility is a scale-free non-negative number", "statement": "high_low_volatility is non-negative, 0 exactly when high equals low in the window, unchanged when all prices are multiplied by the same positive number; and the first window-1 values are missing.", "quantifier": "all positive bars, all windows >= 1", "why_tests_cant": "for all bars", "anchors": ["financial_ml/features/microstructure.py:high_low_volatility"]}
{"id": "C61", "title": "Corwin-Schultz spread lies in [0,2)", "statement": "corwin_schultz_spread returns spreads in [0,2) and volatilities >= 0, invariant to price scaling, with the start time of each estimate the bar window steps before it.", "quantifier": "all positive bars with high >= low, all windows >= 1", "why_tests_cant": "for all bars", "anchors": ["financial_ml/features/microstructure.py:corwin_schultz_spread"]}
{"id": "C62", "title": "VPIN lies in [0,1] and averages absolute imbalance", "statement": "volume_synchronized_pin is in [0,1] when no bar exceeds volume_per_bar, and equals the mean of |buy-sell| over n bars divided by volume_per_bar. (The code takes the absolute value after summing, so for n > 1 opposite imbalances cancel.)", "quantifier": "all tick streams, bar ids and n >= 1", "why_tests_cant": "the two formulas agree on one-sided data and n=1", "anchors": ["financial_ml/features/microstructure.py:volume_synchronized_pin"]}
{"id": "C63", "title": "Price impact regressions recover an exact linear impact", "statement": "If price changes are exactly c + lambda*signed volume with non-constant signed volume, kyle_lambda returns lambda; likewise amihud_lambda and hasbrouck_lambda for their regressors, for any least-squares solver.", "quantifier": "all linear data sets", "why_tests_cant": "identity for all data sets", "anchors": ["financial_ml/features/microstructure.py:kyle_lambda", "financial_ml/features/microstructure.py:amihud_lambda", "financial_ml/features/microstructure.py:hasbrouck_lambda"]}
{"id": "C64", "title": "Price impact regressions return for any data", "statement": "kyle_lambda returns a number for every stream with at least three ticks. (It raises IndexError when all signed volumes are equal and non-zero.)", "quantifier": "all tick streams", "why_tests_cant": "constant signed volume is a corner random data misses", "anchors": ["financial_ml/features/microstructure.py:kyle_lambda"]}
{"id": "C65", "title": "Fractional differencing weights are binomial coefficients", "statement": "The weight of lag k is (-1)^k binom(d,k).", "quantifier": "all real orders d and all lags", "why_tests_cant": "closed form for every k and d", "anchors": ["financial_ml/features/frac_diff.py:_get_weights"]}
{"id": "C66", "title": "Orders 0 and 1 are identity and first difference", "statement": "frac_diff_expanding with order 0 returns the series; with order 1 the first differences (first value unchanged); with threshold=1 no observation is skipped; the operator is linear in the series.", "quantifier": "all series", "why_tests_cant": "for all series", "anchors": ["financial_ml/features/frac_diff.py:frac_diff_expanding"]}
{"id": "C67", "title": "Fractional differencing composes", "statement": "Differencing with order d1 and then d2 (threshold 1) equals differencing with order d1+d2; in particular order -d undoes order d.", "quantifier": "all series and orders", "why_tests_cant": "semigroup law over all d and series", "anchors": ["financial_ml/features/frac_diff.py:frac_diff_expanding"]}
{"id": "C68", "title": "Fixed-width differencing truncates the same weights", "statement": "The fixed weights are the longest initial run of expanding weights (capped by the series length) with absolute value >= threshold after lag 0; each output value is their inner product with the last width+1 observations; there are n-width outputs for a series without gaps.", "quantifier": "all series, orders and thresholds", "why_tests_cant": "for all thresholds", "anchors": ["financial_ml/features/frac_diff.py:_get_weights_fixed", "financial_ml/features/frac_diff.py:frac_diff_fixed"]}
{"id": "C69", "title": "Skipping by weight loss", "statement": "frac_diff_expanding skips exactly the first m observations, where m counts the proper weight-loss ratios above threshold; m never grows with the threshold; retained values do not depend on the threshold and value t depends only on observations up to t.", "quantifier": "all series, orders and thresholds in [0,1]", "why_tests_cant": "for all thresholds", "anchors": ["financial_ml/features/frac_diff.py:frac_diff_expanding"]}
{"id": "C70", "title": "Word frequencies form a probability distribution", "statement": "_word_pmf as used by plugin_entropy assigns each length-w word its number of (overlapping) occurrences over len-w+1; values are positive and sum to 1.", "quantifier": "all messages with length >= w >= 1", "why_tests_cant": "for all messages", "anchors": ["financial_ml/features/entropy.py:_word_pmf"]}
{"id": "C71", "title": "Plug-in entropy bounds", "statement": "plugin_entropy is >= 0, is 0 exactly if only one word occurs, and is at most log2(number of distinct words)/w.", "quantifier": "all messages with length >= w >= 1", "why_tests_cant": "information inequality", "anchors": ["financial_ml/features/entropy.py:plugin_entropy"]}
{"id": "C72", "title": "Lempel-Ziv dictionary", "statement": "lempelziv_lib terminates on every non-empty message and returns a set of distinct substrings of it that contains the first symbol and, with each word, all its non-empty prefixes; the words parsed, in order, concatenate to the message, up to a last repeated word; an empty message raises.", "quantifier": "all messages", "why_tests_cant": "parsing loop for all messages", "anchors": ["financial_ml/features/entropy.py:lempelziv_lib"]}
{"id": "C73", "title": "Longest match is the longest match", "statement": "The match length used by konto_entropy at position i with window n<=i is one plus the largest L <= n such that message[i:i+L] also starts at some position in [i-n, i).", "quantifier": "all messages and positions", "why_tests_cant": "optimality over all candidates", "anchors": ["financial_ml/features/entropy.py:_longest_match"]}
{"id": "C74", "title": "Kontoyiannis entropy is well defined and bounded", "statement": "konto_entropy is defined for every message with at least two symbols, is positive and at most log2(len(msg)/2+1); it raises ZeroDivisionError on shorter messages with an expanding window.", "quantifier": "all messages", "why_tests_cant": "for all messages", "anchors": ["financial_ml/features/entropy.py:konto_entropy"]}
{"id": "C75", "title": "Binary encoding", "statement": "binary_encode returns one symbol for each value, 1 exactly if the value exceeds the threshold.", "quantifier": "all series and thresholds", "why_tests_cant": "for all series", "anchors": ["financial_ml/features/entropy.py:binary_encode"]}
{"id": "C76", "title": "Quantile encoding", "statement": "After fit, transform never fails, returns one symbol for each value, is order preserving, and uses ? exactly for values above the fitted maximum, so never for fitted data when n_quantiles >= 2; transform before fit raises.", "quantifier": "all fit and transform series, 2 <= n_quantiles <= 62", "why_tests_cant": "for all data", "anchors": ["financial_ml/features/entropy.py:QuantileEncoder"]}
{"id": "C77", "title": "Sigma encoding", "statement": "sigma_encode with sigma>0 never fails, is order preserving, gives equal symbols only to values less than sigma apart (below the overflow symbol), and is unchanged by adding a constant.", "quantifier": "all non-empty series, sigma > 0", "why_tests_cant": "for all data", "anchors": ["financial_ml/features/entropy.py:sigma_encode"]}
{"id": "C78", "title": "Correlation distance is a metric", "statement": "_corr_to_dist as used by hrp_allocations is in [0,1], 0 exactly for correlation 1, symmetric, and satisfies the triangle inequality on every correlation matrix.", "quantifier": "all correlation matrices", "why_tests_cant": "metric axioms", "anchors": ["financial_ml/assets_allocation/HRP.py:_corr_to_dist"]}
{"id": "C79", "title": "Quasi-diagonalisation permutes the assets", "statement": "For every valid linkage matrix the reordering terminates and lists each asset exactly once, in dendrogram leaf order.", "quantifier": "all valid linkage matrices of any size", "why_tests_cant": "loop over arbitrary trees", "anchors": ["financial_ml/assets_allocation/HRP.py:_quasi_diagonalize"]}
{"id": "C80", "title": "HRP weights are a long-only full allocation", "statement": "The HRP weights sum to 1, are strictly positive when every cluster variance is positive, and are indexed by exactly the assets.", "quantifier": "all covariance matrices with positive cluster variances and all orders", "why_tests_cant": "product over the bisection tree", "anchors": ["financial_ml/assets_allocation/HRP.py:_recursive_bisection", "financial_ml/assets_allocation/HRP.py:hrp_allocations"]}
{"id": "C81", "title": "HRP reduces to inverse variance and is scale free", "statement": "For two assets the weights are inversely proportional to variance; multiplying the covariance by a positive constant does not change the weights; diag-based inverse variance weights sum to one.", "quantifier": "all covariance matrices", "why_tests_cant": "algebra", "anchors": ["financial_ml/assets_allocation/HRP.py:_recursive_bisection", "financial_ml/assets_allocation/HRP.py:_get_inverse_cov_portfolio"]}
{"id": "C82", "title": "PCA weights deliver the requested risk", "statement": "pca_weights returns a portfolio with variance risk_target^2 * sum(risk_dist), distributing it over the principal components as risk_dist; by default all risk is in the component of least variance.", "quantifier": "all positive definite covariances, risk distributions", "why_tests_cant": "linear algebra over all matrices", "anchors": ["financial_ml/assets_allocation/pca_hedge.py:pca_weights"]}
{"id": "C83", "title": "Budgeted position sizes are in [-1,1]", "statement": "budgeted_position_size with budget max returns for each bar long_count/max_long - short_count/max_short, in [-1,1], and 0 where nothing is open. (It raises when there is no long or no short event.)", "quantifier": "all bars, events and sides", "why_tests_cant": "for all inputs", "anchors": ["financial_ml/assets_allocation/position_sizing.py:budgeted_position_size"]}
{"id": "C84", "title": "Mixture position sizes are in [-1,1] with the sign of the net count", "statement": "gaussian_mixture_position_size is in [-1,1], is 0 for net count 0, has its sign and is increasing in it, for any fitted mixture.", "quantifier": "all fitted mixtures and counts", "why_tests_cant": "for every fit", "anchors": ["financial_ml/assets_allocation/position_sizing.py:gaussian_mixture_position_size"]}
{"id": "C85", "title": "Averaged and discretised sizes stay in [-1,1]", "statement": "The size reported at each time is the mean over events active at that time, rounded to the nearest multiple of step_size and clipped to [-1,1]; it is within step_size/2 of the mean; rounding is monotone and odd.", "quantifier": "all positions and step sizes > 0", "why_tests_cant": "for all inputs", "anchors": ["financial_ml/assets_allocation/position_sizing.py:_avg_active_positions", "financial_ml/assets_allocation/position_sizing.py:_discretize_position_sizes"]}
{"id": "C86", "title": "Probability sizing", "statement": "position_size_from_probabilities gives an event size 0 at p=1/num_classes, strictly increasing in p, of absolute value < 1 for 0<p<1, with the sign of the prediction when p > 1/num_classes; reported sizes are in [-1,1].", "quantifier": "all probabilities, predictions", "why_tests_cant": "for all inputs", "anchors": ["financial_ml/assets_allocation/position_sizing.py:position_size_from_probabilities"]}
{"id": "C87", "title": "Sigmoid calibration inverts", "statement": "get_sigmoid_coeff(x,m) makes the sigmoid equal m at divergence x (x,m>0), and the inverse price of m has sigmoid m, for |m|<1 and w>0.", "quantifier": "all real parameters", "why_tests_cant": "round trip over reals", "anchors": ["financial_ml/assets_allocation/position_sizing.py:get_sigmoid_coeff", "financial_ml/assets_allocation/position_sizing.py:_inverse_price", "financial_ml/assets_allocation/position_sizing.py:_scaled_sigmoid"]}
{"id": "C88", "title": "Divergence position is bounded, monotone and odd", "statement": "position_size_from_divergence never exceeds max_size in absolute value, has the sign of forecast-price (or is 0), is non-decreasing in the forecast and odd in the divergence.", "quantifier": "all real parameters with w>0", "why_tests_cant": "truncation at all values", "anchors": ["financial_ml/assets_allocation/position_sizing.py:position_size_from_divergence"]}
{"id": "C89", "title": "The limit price is the average break-even price", "statement": "compute_limit_price is the mean of the inverse prices of all unit steps from the current to the target position. (True for 0<=cur<target; when selling it is not even positive.)", "quantifier": "all positions, forecasts and w", "why_tests_cant": "for all pairs of positions", "anchors": ["financial_ml/assets_allocation/position_sizing.py:compute_limit_price"]}
{"id": "C90", "title": "fill_index fills missing entries with fill_val", "statement": "fill_index(indices, series, fill_val) has the value of series where defined and fill_val elsewhere. (True only for fill_val=0.)", "quantifier": "all indices, series and fill values", "why_tests_cant": "only non-default arguments break it", "anchors": ["financial_ml/utils/data.py:fill_index"]}
{"id": "C91", "title": "Position timings are flattenings and flips", "statement": "get_position_timings returns exactly the times where the position becomes 0 from non-zero or changes sign, in order. (It also reports the first time when the series starts flat.)", "quantifier": "all position series", "why_tests_cant": "for all series", "anchors": ["financial_ml/evaluation/metrics.py:get_position_timings"]}
{"id": "C92", "title": "Holding period is between 0 and the span of the series", "statement": "compute_holding_period, when defined, is between 0 and the duration of the series; for a single round trip it is the time from entry to exit; it is None exactly if the position is never reduced.", "quantifier": "all position series with increasing times", "why_tests_cant": "invariant over all paths", "anchors": ["financial_ml/evaluation/metrics.py:compute_holding_period"]}
{"id": "C93", "title": "Time weighted return ignores cash flows", "statement": "If the portfolio grows by factor g_t between flows then compute_time_weighted_return is prod g_t - 1 whatever the cash flows.", "quantifier": "all growth factors and cash flows with non-zero balances", "why_tests_cant": "for all flows", "anchors": ["financial_ml/evaluation/metrics.py:compute_time_weighted_return"]}
{"id": "C94", "title": "Concentration index is in [0,1]", "statement": "compute_hhi_returns_concentration is in [0,1] on each side with at least two returns and non-zero sum, 0 exactly for equal returns and 1 exactly when one return carries all.", "quantifier": "all return series", "why_tests_cant": "for all series", "anchors": ["financial_ml/evaluation/metrics.py:compute_hhi_returns_concentration"]}
{"id": "C95", "title": "Drawdowns are the falls from each high-water mark", "statement": "With dollars=True the drawdowns are positive and their maximum is the maximum over i<=j of x_i - x_j; with none reported the series never falls.", "quantifier": "all value series", "why_tests_cant": "extremum over all pairs", "anchors": ["financial_ml/evaluation/metrics.py:compute_dd_and_tuw"]}
{"id": "C96", "title": "Time under water is the time to the next high-water mark", "statement": "The time under water reported for a high-water mark is the time until it is exceeded. (It is the time to the next high-water mark that itself has a drawdown, which can be later.)", "quantifier": "all value series with increasing times", "why_tests_cant": "only series with a drawdown-free high in between", "anchors": ["financial_ml/evaluation/metrics.py:compute_dd_and_tuw"]}
{"id": "C97", "title": "Sharpe and information ratios scale", "statement": "sharpe_ratio is unchanged by positive scaling, negated by negation; information_ratio is the Sharpe ratio of the excess and is 0 mean-shift invariant in common shifts; annualising by a*b periods composes.", "quantifier": "all return series with non-zero deviation", "why_tests_cant": "for all series", "anchors": ["financial_ml/evaluation/metrics.py:sharpe_ratio", "financial_ml/evaluation/metrics.py:information_ratio", "financial_ml/evaluation/metrics.py:annualized_sharpe_ratio"]}
{"id": "C98", "title": "Probabilistic Sharpe ratio is a probability", "statement": "probabilistic_sharpe_ratio is a number in (0,1), decreasing in the benchmark and 1/2 when the benchmark equals the observed ratio, for all returns that are not constant. (scipy excess kurtosis is used where the formula needs raw kurtosis, so the radicand can be negative and the result NaN; with raw kurtosis it never is.)", "quantifier": "all non-constant return series", "why_tests_cant": "needs Pearson inequality for all series", "anchors": ["financial_ml/evaluation/metrics.py:probabilistic_sharpe_ratio"]}
{"id": "C99", "title": "PSR uses the number of observations along the axis", "statement": "probabilistic_sharpe_ratio(returns, axis) scales with sqrt(T-1) for T observations along axis. (For axis=0, the default of deflated_sharpe_ratio, the code uses the total number of matrix entries.)", "quantifier": "all matrix shapes and axes", "why_tests_cant": "shape dependent", "anchors": ["financial_ml/evaluation/metrics.py:probabilistic_sharpe_ratio", "financial_ml/evaluation/metrics.py:deflated_sharpe_ratio"]}
{"id": "C100", "title": "Required precision attains the target Sharpe ratio", "statement": "strategy_required_precision(target, freq, profit, loss) is in (0,1) and strategy_sharpe_ratio at it is target for every target >= 0, profit > 0 > loss, freq > 0. (For negative targets it attains -target.)", "quantifier": "all real parameters", "why_tests_cant": "root selection over all parameters", "anchors": ["financial_ml/risk/strategy_risk.py:strategy_required_precision", "financial_ml/risk/strategy_risk.py:strategy_sharpe_ratio"]}
{"id": "C101", "title": "Required frequency attains the target or is refused", "statement": "strategy_required_freq returns a frequency whose Sharpe ratio is the target, or None when the precision makes the target sign unattainable (up to the closeness tolerance).", "quantifier": "all real parameters away from break-even", "why_tests_cant": "for all parameters", "anchors": ["financial_ml/risk/strategy_risk.py:strategy_required_freq"]}
{"id": "C102", "title": "Failure probability grows with the target", "statement": "The probability of failure of strategy_probability_of_failure lies in (0,1) and increases with target_sr; the Sharpe ratio increases with precision, and the required precision increases with the target and decreases with frequency.", "quantifier": "all samples with both gains and losses", "why_tests_cant": "monotonicity over all parameters", "anchors": ["financial_ml/risk/strategy_risk.py:strategy_probability_of_failure"]}
{"id": "C103", "title": "Binomial prices are non-negative and bounded", "statement": "binom_option_price is non-negative; with 0<=p<=1 and r, div_yield >= 0 a call is worth at most s0 and a put at most k.", "quantifier": "all parameters and tree sizes", "why_tests_cant": "induction over tree size", "anchors": ["financial_ml/tools/option.py:binom_option_price"]}
{"id": "C104", "title": "American is worth at least European and intrinsic", "statement": "The American binomial price is at least the European one and at least the immediate exercise value.", "quantifier": "all parameters and tree sizes >= 1", "why_tests_cant": "induction over the tree", "anchors": ["financial_ml/tools/option.py:binom_option_price"]}
{"id": "C105", "title": "European binomial prices satisfy put-call parity", "statement": "call - put = s0*exp(-q*T) - k*exp(-r*T) for European binomial prices whenever the risk-neutral probability is in [0,1]. (Fails outside, because values are floored at 0.)", "quantifier": "all parameters and tree sizes >= 1", "why_tests_cant": "martingale identity", "anchors": ["financial_ml/tools/option.py:binom_option_price"]}
{"id": "C106", "title": "No early exercise of a call without dividends", "statement": "The American call equals the European call when div_yield=0 and r>=0, and the American put equals the European put when r = 0 and div_yield >= 0.", "quantifier": "all parameters and tree sizes >= 1 with p in [0,1]", "why_tests_cant": "Merton theorem over all trees", "anchors": ["financial_ml/tools/option.py:binom_option_price"]}
{"id": "C107", "title": "Control variate adjustment", "statement": "With control_variates the American price moves by exactly the European model error; without it is the binomial price; the early exercise premium is unchanged, and non-negative whenever the risk-neutral probability of the tree is in [0,1].", "quantifier": "all parameters", "why_tests_cant": "for all parameters", "anchors": ["financial_ml/tools/option.py:binom_am_option_price"]}
{"id": "C108", "title": "Black-Scholes prices satisfy put-call parity", "statement": "call - put = (s0 - PV(divs))*exp(-q*T) - k*exp(-r*T), with q=r for futures; both dividend inputs at once are rejected.", "quantifier": "all parameters", "why_tests_cant": "for all reals", "anchors": ["financial_ml/tools/option.py:bsm_option_price"]}
{"id": "C109", "title": "Black-Scholes no-arbitrage bounds", "statement": "max(0, s0 e^{-qT} - k e^{-rT}) < call < s0 e^{-qT}, and likewise for puts.", "quantifier": "all parameters > 0", "why_tests_cant": "inequality over reals", "anchors": ["financial_ml/tools/option.py:bsm_option_price"]}
{"id": "C110", "title": "Implied volatility is unique", "statement": "The Black-Scholes price is strictly increasing in sigma, so any root returned by the solver is the only volatility giving the observed price.", "quantifier": "all parameters > 0", "why_tests_cant": "monotonicity over reals", "anchors": ["financial_ml/tools/option.py:bsm_option_price", "financial_ml/tools/option.py:implied_volatility"]}
{"id": "C111", "title": "Implied risk-free rate inverts parity", "statement": "If prices satisfy put-call parity with rate r, every pair and the median returned by implied_risk_free_rate is r; strikes quoted on one side only are ignored. With no common strike the result is missing instead of (None, None).", "quantifier": "all quote tables", "why_tests_cant": "round trip", "anchors": ["financial_ml/tools/option.py:implied_risk_free_rate"]}
{"id": "C112", "title": "Implied forward rate inverts compounding", "statement": "get_implied_forward_rate(s0, s0*exp(r*t), t) = r and s0*exp(rate*t)=f.", "quantifier": "all positive prices, t != 0", "why_tests_cant": "round trip over reals", "anchors": ["financial_ml/tools/interest_rate.py:get_implied_forward_rate"]}
{"id": "C113", "title": "Return distributions are consistent", "statement": "In bsm_return_distribution the log return over t is t times the annual return in law: mean and deviation scale by t; the variance of log returns is additive in t.", "quantifier": "all parameters, t>0", "why_tests_cant": "identity", "anchors": ["financial_ml/tools/option.py:bsm_return_distribution"]}
{"id": "C114", "title": "Default counts follow the Poisson-binomial law", "statement": "get_default_count_probs of vectors (1-p_i, p_i) returns n+1 non-negative numbers summing to 1; entry k is the sum over k-subsets of defaulting firms; the mean is sum p_i.", "quantifier": "all lists of probabilities", "why_tests_cant": "pairwise reduction over any length", "anchors": ["financial_ml/features/systematic_default.py:get_default_count_probs"]}
{"id": "C115", "title": "Default counts do not depend on firm order", "statement": "Permuting the input vectors does not change get_default_count_probs.", "quantifier": "all lists and permutations", "why_tests_cant": "order independence", "anchors": ["financial_ml/features/systematic_default.py:get_default_count_probs"]}
{"id": "C116", "title": "Structural model fit returns only converged parameters", "statement": "fit returns only if two successive parameter sets differ by less than tol in every component, stores the last one, does at most maxiter iterations, and raises otherwise.", "quantifier": "all data and all behaviours of the regression and root finder", "why_tests_cant": "iteration history", "anchors": ["financial_ml/features/systematic_default.py:FirmStructuralCreditRisk.fit"]}
{"id": "C117", "title": "Conditional default probability", "statement": "predict_default is in (0,1); for given asset value it decreases in the market return when beta>0; with alpha=beta=0 the equity value is the Black-Scholes call.", "quantifier": "all parameters with positive asset value, volatility and maturity (the equity value: all with non-zero debt)", "why_tests_cant": "for all reals", "anchors": ["financial_ml/features/systematic_default.py:FirmStructuralCreditRisk.predict_default", "financial_ml/features/systematic_default.py:_cond_equity_value"]}
{"id": "C118", "title": "Level CUSUM statistic", "statement": "levels_cusum_stats returns T-n-1 values, the j-th being (y_t-y_n)/(sigma_t*sqrt(t-n)) with sigma_t^2 the mean squared change up to t; it is unchanged by shifts and positive scaling and negated by negation; p-values are in [0,1/2].", "quantifier": "all series, 0<=n<T", "why_tests_cant": "for all series", "anchors": ["financial_ml/features/structural_breaks.py:levels_cusum_stats"]}
{"id": "C119", "title": "ADF regressors are aligned", "statement": "In the ADF design used by sadf_stat row t has response s_t - s_{t-1}, level s_{t-1}, and lagged changes s_{t-k}-s_{t-k-1}, for all t with enough history; deterministic terms follow.", "quantifier": "all series and lags", "why_tests_cant": "index alignment for all lengths and lags", "anchors": ["financial_ml/features/structural_breaks.py:_get_yx", "financial_ml/features/structural_breaks.py:_get_lag_df"]}
{"id": "C120", "title": "ADF fit is least squares", "statement": "The coefficients minimise the sum of squared residuals and the residuals are orthogonal to the regressors whenever x'x is invertible.", "quantifier": "all full-rank designs", "why_tests_cant": "linear algebra", "anchors": ["financial_ml/features/structural_breaks.py:_fit_adf"]}
{"id": "C121", "title": "SADF is the supremum of ADF statistics over start points", "statement": "sadf_stat is the maximum of the ADF statistics over all start points leaving at least min_sample_len-lags rows, so never increases with min_sample_len; sadf_stat_series at t uses only data up to t.", "quantifier": "all series", "why_tests_cant": "supremum and causality", "anchors": ["financial_ml/features/structural_breaks.py:sadf_stat", "financial_ml/features/structural_breaks.py:sadf_stat_series"]}
{"id": "C122", "title": "Geometric Brownian generator", "statement": "gen_geometric_brownian yields num_steps values, s0*prod(1+ret_k) for the drawn returns; it is proportional to s0, and positive while all drawn returns exceed -1.", "quantifier": "all random outcomes", "why_tests_cant": "all random histories", "anchors": ["financial_ml/utils/simulation.py:gen_geometric_brownian"]}
{"id": "C123", "title": "Ornstein-Uhlenbeck generator mean reverts with the given half life", "statement": "The deviation from the forecast is phi^t*(seed-forecast)+sigma*sum phi^(t-s) z_s, and phi^half_life=1/2. (With an integer random_state every step draws the same shock.)", "quantifier": "all random outcomes", "why_tests_cant": "all random histories", "anchors": ["financial_ml/utils/simulation.py:gen_discrete_ou_process"]}
{"id": "C124", "title": "Mixture sample size", "statement": "gen_mixed_gaussians returns int(n_samples) values of which int(n_samples*prob1) come from the first component.", "quantifier": "all 0<=prob1<=1 and n", "why_tests_cant": "truncation", "anchors": ["financial_ml/utils/simulation.py:gen_mixed_gaussians"]}
{"id": "C125", "title": "Imbalance bars accept span 0", "statement": "The docstring says a b_ewma_span of None or 0 uses the default span; so every call with 0 should give the result of the default.", "quantifier": "all streams and parameters", "why_tests_cant": "for all streams", "anchors": ["financial_ml/data_structures/bars.py:aggregate_imblance_bars"]}
{"id": "C126", "title": "Buys and sells are treated alike", "statement": "Reflecting all prices and flipping b0 leaves bar boundaries, thetas and thresholds of imbalance and runs bars in tick or volume units unchanged.", "quantifier": "all streams and parameters", "why_tests_cant": "symmetry over all streams and all loop histories", "anchors": ["financial_ml/data_structures/bars.py:aggregate_imblance_bars", "financial_ml/data_structures/bars.py:aggregate_runs_bars"]}
{"id": "C127", "title": "The gap is removed at every contract change", "statement": "The documentation says the contract series changes at every roll date: at every bar whose contract differs from the previous bar the roll gap is removed. (Fails when a contract name comes back, because only first occurrences count.)", "quantifier": "all bar series and contract sequences", "why_tests_cant": "only returning names break it", "anchors": ["financial_ml/data_structures/basket.py:_compute_roll_gaps"]}
{"id": "C128", "title": "Basket volume is the tradable number of units", "statement": "With positive volumes the VOLUME column of basket_to_etf times the units held of every instrument is at most the traded volume of the instrument, with equality for one of them.", "quantifier": "all inputs", "why_tests_cant": "for all inputs", "anchors": ["financial_ml/data_structures/basket.py:basket_to_etf"]}
{"id": "C129", "title": "Sides documented for get_event_returns are accepted", "statement": "The docstring of get_event_returns documents sides 1 (long) and 0 (short); a call with such sides evaluates the events. (The code asserts side in {-1, 1}: side 0 raises AssertionError.) On success every event has side 1 or -1.", "quantifier": "all price tables, events and sides in {0,1}", "why_tests_cant": "no test passes a short side as documented", "anchors": ["financial_ml/labeling/triple_barrier.py:get_event_returns", "financial_ml/labeling/triple_barrier.py:_get_triple_barrier_returns"]}
{"id": "C130", "title": "Event outcomes do not use prices after the expiry", "statement": "The result of get_event_returns is a function of the prices up to the last expiry. (It is only a function of the prices up to the first bar at or after it: an expiry between two bars is back-filled from the next bar.)", "quantifier": "all pairs of price tables that agree up to a time", "why_tests_cant": "needs two price tables that differ only in the future", "anchors": ["financial_ml/labeling/triple_barrier.py:get_event_returns"]}
{"id": "C131", "title": "Each label gets its own average uniqueness", "statement": "label_avg_uniqueness gives every event the mean of 1/concurrency over its own bars. (It fails when two events start at the same time: both rows get the last of the two values.)", "quantifier": "all label tables, including equal start times", "why_tests_cant": "needs duplicated start times", "anchors": ["financial_ml/labeling/weighting.py:label_avg_uniqueness"]}
{"id": "C132", "title": "oldest_weight is the weight of the oldest observation", "statement": "apply_time_decay_to_weights documents oldest_weight (0 to 1) as the weight of the oldest observation. (The code gives c + (1-c)*u/T for the oldest uniqueness u and total T, so strictly more than c unless c = 1.)", "quantifier": "all positive uniqueness series and all 0 <= c <= 1", "why_tests_cant": "needs the exact weight of the oldest row for every series", "anchors": ["financial_ml/labeling/weighting.py:apply_time_decay_to_weights"]}
{"id": "C133", "title": "Purging removes events that have not ended", "statement": "An event without end time (NaT) that is kept in the train set by _get_purged_train_indices starts after every test interval. (It is also kept when it started before a test interval, which it may still overlap.)", "quantifier": "all events and test intervals", "why_tests_cant": "a missing end time is rare in test data", "anchors": ["financial_ml/evaluation/cross_validation.py:_get_purged_train_indices"]}
{"id": "C134", "title": "The market meanness index separates trend from reversion", "statement": "A strictly rising window of n prices has market meanness index floor(n/2)/(n-1); a window that crosses its median at every step has index 1.", "quantifier": "all windows of length >= 2", "why_tests_cant": "needs the exact count for every window length", "anchors": ["financial_ml/features/filters.py:get_mmi"]}
{"id": "C135", "title": "Corwin-Schultz recovers fixed quotes", "statement": "If every bar has the same high H and low L (0 < L <= H), corwin_schultz_spread returns the spread 2(H-L)/(H+L) and the volatility 0.", "quantifier": "all 0 < L <= H, window sizes and numbers of bars", "why_tests_cant": "algebraic identity through logs and roots", "anchors": ["financial_ml/features/microstructure.py:corwin_schultz_spread"]}
{"id": "C136", "title": "Missing observations get no differenced value", "statement": "A label of the result of frac_diff_fixed or frac_diff_expanding at which a column has a value is a label at which the input column has a value. (The expanding version tests the forward-filled column, so it gives a value to every gap.)", "quantifier": "all frames, orders and thresholds", "why_tests_cant": "needs gaps in the input", "anchors": ["financial_ml/features/frac_diff.py:frac_diff_expanding", "financial_ml/features/frac_diff.py:frac_diff_fixed"]}
{"id": "C137", "title": "List messages are read element by element", "statement": "plugin_entropy of a list (documented: list of string serializable data) counts the elements of the list: with w=1 the frequency of an element is its share of the list. (The elements are joined into one string, so elements with more than one character are split.)", "quantifier": "all lists of strings", "why_tests_cant": "needs elements with several characters", "anchors": ["financial_ml/features/entropy.py:_stringify", "financial_ml/features/entropy.py:_word_pmf"]}
{"id": "C138", "title": "Limit prices are defined up to the maximum position", "statement": "compute_limit_price returns a price for every current and target position within max_position. (It raises ZeroDivisionError exactly when the target is the maximum long position, and when target equals current; the maximum short position is fine.)", "quantifier": "all positions with |cur|,|target| <= max_position, w>0", "why_tests_cant": "a test of ordinary targets never reaches the maximum", "anchors": ["financial_ml/assets_allocation/position_sizing.py:compute_limit_price"]}
{"id": "C139", "title": "A reported concentration index is between 0 and 1", "statement": "Whenever compute_hhi_returns_concentration reports a number it is between 0 and 1. (If at least two returns are not losses and all of those are zero, it reports -1/(n-1).)", "quantifier": "all return series", "why_tests_cant": "tests use positive returns", "anchors": ["financial_ml/evaluation/metrics.py:compute_hhi_returns_concentration"]}
{"id": "C140", "title": "The deflated Sharpe ratio uses the expected maximum of the trials", "statement": "deflated_sharpe_ratio is the probabilistic Sharpe ratio against std(SR) times the expected maximum of n standard normals; the benchmark is not negative, 0 exactly when all trials agree, and grows with the number of trials; with one trial there is none.", "quantifier": "all matrices of returns", "why_tests_cant": "quantiles and all numbers of trials", "anchors": ["financial_ml/evaluation/metrics.py:deflated_sharpe_ratio"]}
{"id": "C141", "title": "American binomial prices are those of the best exercise policy", "statement": "With the risk-neutral probability in [0,1], the American binomial price is the largest expected discounted payoff over all exercise policies that depend on the moves so far, and some policy attains it.", "quantifier": "all parameters and tree sizes", "why_tests_cant": "all policies and trees", "anchors": ["financial_ml/tools/option.py:binom_option_price"]}
{"id": "C142", "title": "Option prices determine the asset price", "statement": "The Black-Scholes call increases with the underlying with slope in (0, exp(-qT)) and falls with the strike; each positive call price belongs to exactly one positive price of the underlying.", "quantifier": "all parameters > 0", "why_tests_cant": "calculus over all parameters", "anchors": ["financial_ml/tools/option.py:bsm_option_price", "financial_ml/tools/option.py:implied_asset_price"]}
{"id": "C143", "title": "The Black-Scholes call is a discounted expectation", "statement": "The call is exp(-rT) times the expected payoff when the underlying grows by the normal log return of bsm_return_distribution with drift r-q.", "quantifier": "all parameters > 0", "why_tests_cant": "integral over all outcomes", "anchors": ["financial_ml/tools/option.py:bsm_option_price", "financial_ml/tools/option.py:bsm_return_distribution"]}
{"id": "C144", "title": "Calls and puts under parity imply the same density", "statement": "If call and put quotes at the same strikes satisfy put-call parity, implied_underlying_discrete_pdf gives the same rows for both, with prices or implied volatilities interpolated, with or without smoothing.", "quantifier": "all quote tables and parameters", "why_tests_cant": "all tables; tests use one", "anchors": ["financial_ml/tools/option.py:implied_underlying_discrete_pdf"]}
{"id": "C145", "title": "The implied density and sampling weights are proper", "statement": "Rows of the implied density have increasing strikes within the quoted ones and densities >= 0, at most n_interpolate of them; the strikes are drawn with probabilities proportional to the densities that sum to 1; missing inputs are reported.", "quantifier": "all quote tables and parameters", "why_tests_cant": "all tables", "anchors": ["financial_ml/tools/option.py:implied_underlying_discrete_pdf", "financial_ml/tools/option.py:implied_underlying_distribution"]}
{"id": "C146", "title": "Conditional equity value respects limited liability", "statement": "_cond_equity_value is non-negative, at least assets less the present value of the debt, and less than the assets.", "quantifier": "all positive asset values, debts, volatilities and maturities, all alpha, beta and market returns", "why_tests_cant": "sign for all reals", "anchors": ["financial_ml/features/systematic_default.py:_cond_equity_value"]}
{"id": "C147", "title": "Firm parameters are those of the least-squares line", "statement": "In _regress_firm_params beta is the slope of the least-squares line of excess asset returns on excess market returns, sigma^2*interval its mean squared residual, and (alpha-sigma^2/2)*interval its intercept; a constant non-zero excess market return is an IndexError.", "quantifier": "all returns, rates and intervals, any least-squares solver", "why_tests_cant": "optimality over all lines", "anchors": ["financial_ml/features/systematic_default.py:_regress_firm_params"]}
{"id": "C148", "title": "Recursive CUSUM p-values use the null variance of each time", "statement": "recursive_residuals_cusum_stats documents S(t) ~ N(0, t-k-1); the p-value of each S(t) should be the normal upper tail of S(t)/sqrt(t-k-1).", "quantifier": "all residual series", "why_tests_cant": "needs the null law at every time", "anchors": ["financial_ml/features/structural_breaks.py:recursive_residuals_cusum_stats"]}
{"id": "C149", "title": "A list of lags is used as given", "statement": "With a list of lags the ADF design holds the level and the changes at exactly these lags.", "quantifier": "all series and lag lists", "why_tests_cant": "for all lag lists", "anchors": ["financial_ml/features/structural_breaks.py:_get_yx", "financial_ml/features/structural_breaks.py:_get_lag_df"]}
{"id": "C150", "title": "A seed makes the mixture sample reproducible", "statement": "gen_mixed_gaussians with np_rand_seed gives the same sample whatever the state of the global generator.", "quantifier": "all seeds and states", "why_tests_cant": "all generator states", "anchors": ["financial_ml/utils/simulation.py:gen_mixed_gaussians"]}
{"id": "C151", "title": "Simulated strategy risk does not depend on the shuffle", "statement": "strategy_probability_of_failure does not depend on the order of the returns, so simulate_strategy_probability_of_failure is that of the drawn numbers in the order drawn.", "quantifier": "all samples and shuffles", "why_tests_cant": "all permutations", "anchors": ["financial_ml/risk/strategy_risk.py:simulate_strategy_probability_of_failure", "financial_ml/risk/strategy_risk.py:strategy_probability_of_failure"]}
{"id": "C152", "title": "A runs bar closes exactly at the first tick that meets the rule", "statement": "aggregate_runs_bars closes each bar at the first tick at which the larger of the quantity bought and the quantity sold in the bar so far reaches the threshold in force, the reported theta column is that larger quantity and the reported threshold column that threshold; without initial expectations given, the expectations in force for the first bar are the share of buys among the first E_T_init ticks and the mean sizes of the buys and of the sells among them", "quantifier": "all tick tables on which the function returns bars, all metrics, all E_T_init", "why_tests_cant": "bar ends depend on running sums over the whole table; a test with a few ticks cannot tell the larger of two quantities from their sum", "anchors": ["financial_ml/data_structures/bars.py:aggregate_runs_bars", "financial_ml/data_structures/bars.py:_compute_runs_bar_sizes"]}
{"id": "C153", "title": "Market returns given to the default model are annualised", "statement": "Asset growth and default probability conditional on an annualised market return m use the market return in excess of the rate over the maturity, (m - r)*T, both when predicting and when fitting", "quantifier": "all parameters, rates, maturities and intervals", "why_tests_cant": "the two readings agree at a maturity of one year, the value used in tests", "anchors": ["financial_ml/features/systematic_default.py:FirmStructuralCreditRisk.predict_default", "financial_ml/features/systematic_default.py:FirmStructuralCreditRisk.fit"]}
{"id": "C154", "title": "Systematic default probabilities", "statement": "get_systematic_default_probs estimates every firm on its own dataset with its own parameters; the result has one entry for every number of defaults from 0 to the number of firms, the entries are in [0,1], follow the law of the number of defaults of independent firms, sum to 1, have mean the sum of the firm probabilities, and do not depend on the order of the firms; no firm raises IndexError, a firm without entry KeyError", "quantifier": "all sets of firms, datasets and fit results", "why_tests_cant": "the law is a statement about all subsets of firms", "anchors": ["financial_ml/features/systematic_default.py:get_systematic_default_probs"]}
{"id": "C155", "title": "The dataset of a firm joins same-day rows", "statement": "create_systematic_default_dataset has one row for every combination of a firm, a market and a yield row of the same date with a known yield, in the order of the firm rows; with unique dates every firm row is used at most once", "quantifier": "all three tables", "why_tests_cant": "joins with missing and repeated dates", "anchors": ["financial_ml/features/systematic_default.py:create_systematic_default_dataset"]}
{"id": "C156", "title": "Returns of the dataset are over one interval", "statement": "If firm and market data are evenly spaced, the rows of the dataset are evenly spaced, so that each return is over one interval", "quantifier": "all evenly spaced tables", "why_tests_cant": "depends on which dates lack a yield", "anchors": ["financial_ml/features/systematic_default.py:create_systematic_default_dataset"]}
{"id": "C157", "title": "Durbin-Watson statistic", "statement": "durbin_watson_stat is the sum of the squared changes over the sum of squares; it is at least 0 and less than 4, 0 exactly for constant non-zero residuals, does not change with the unit, and is missing exactly when all residuals are 0", "quantifier": "all lists of residuals", "why_tests_cant": "a strict bound over all lists", "anchors": ["financial_ml/utils/stats.py:durbin_watson_stat"]}
{"id": "C158", "title": "Autocorrelation", "statement": "pearson_autocorr is the correlation of the present pairs of observations lag rows apart; it is in [-1,1], invariant under change of unit and origin, 1 at lag 0, and missing exactly when one side of the pairs does not vary", "quantifier": "all series with missing values, all lags", "why_tests_cant": "Cauchy-Schwarz over all series", "anchors": ["financial_ml/utils/stats.py:pearson_autocorr"]}
{"id": "C159", "title": "Jarque-Bera p-value", "statement": "jarque_bera_pval is exp(-JB/2) with JB the statistic of the sample skewness and kurtosis; it is in (0,1], invariant under change of unit and origin, 1 exactly when the third central moment is 0 and the fourth three times the squared variance, and missing exactly for constant data", "quantifier": "all samples", "why_tests_cant": "all samples", "anchors": ["financial_ml/utils/stats.py:jarque_bera_pval"]}
{"id": "C160", "title": "Rank correlation p-values", "statement": "kendall_tau_pval and weighted_tau_pval return p-values, numbers in [0,1]", "quantifier": "all pairs of samples", "why_tests_cant": "the statistic also lies in [0,1] for positively related samples", "anchors": ["financial_ml/utils/stats.py:kendall_tau_pval", "financial_ml/utils/stats.py:weighted_tau_pval"]}
{"id": "C161", "title": "The probability of backtest overfitting is a probability", "statement": "compute_pbo returns a number in (0,1) whenever all choices of partitions were evaluated: the mass below 0 of the kernel density of the logits, the mean of Phi(-logit/h); at most one half if no logit is negative, at least one half if none is positive", "quantifier": "all matrices, evaluation functions and even numbers of partitions", "why_tests_cant": "fails only when all logits agree", "anchors": ["financial_ml/evaluation/backtest.py:compute_pbo", "financial_ml/utils/stats.py:KDERv"]}
{"id": "C162", "title": "The implied distribution of the underlying is a distribution on the positive numbers", "statement": "The result of implied_underlying_distribution has a distribution function that is 0 up to 0, increases and tends to 1", "quantifier": "all samples", "why_tests_cant": "the lost mass is tiny when the samples are far from 0", "anchors": ["financial_ml/tools/option.py:implied_underlying_distribution", "financial_ml/utils/stats.py:KDERv"]}
{"id": "C163", "title": "Quantile codes follow the quantiles of the fitted data", "statement": "A value gets one of the first i+1 symbols exactly when it is at most the i/(n-1) quantile of the fitted data, interpolated linearly between the sorted values, and the symbols split distinct fitted data evenly", "quantifier": "all data, all values, 2 <= n_quantiles <= 62", "why_tests_cant": "thresholds between data points matter only for new values", "anchors": ["financial_ml/features/entropy.py:QuantileEncoder"]}
{"id": "C164", "title": "Unit root tests of differenced log prices", "statement": "run_adf_tests gives one row per distinct order, in the given order; the row of an order holds the ADF results of the log prices differenced with the lags whose weight is at least 0.01, the 5% critical value, and the correlation in [-1,1] with the log prices at the same rows; order 0 tests the log prices themselves with correlation 1; the correlations do not depend on the currency", "quantifier": "all increasing indices, all positive prices, all lists of orders, any adfuller", "why_tests_cant": "needs every order and every price history", "anchors": ["financial_ml/features/frac_diff.py:run_adf_tests"]}
{"id": "C165", "title": "Yield curves pass through the given yields", "statement": "interpolate_yield_curve gives a smooth curve through the given yields and refuses maturities that are not strictly increasing or fewer than two points; between two given maturities the yield lies between the two given yields", "quantifier": "all lists of maturities and yields", "why_tests_cant": "values between knots are infinitely many", "anchors": ["financial_ml/tools/interest_rate.py:interpolate_yield_curve"]}
{"id": "C166", "title": "Daily volatility is the age-weighted deviation of daily returns", "statement": "get_daily_volatility gives one value per daily return: missing until two returns are known, then the root of the corrected variance of the returns so far, weighted by ((span-1)/(span+1))^age; it is 0 exactly for equal returns, does not depend on the currency, uses no later return, is missing throughout for span 1 and an error below; a value can be looked up by the time of its bar", "quantifier": "all price series, all spans, missing returns allowed", "why_tests_cant": "a formula over all histories; labels are visible only when looked up", "anchors": ["financial_ml/utils/time_series.py:get_daily_volatility"]}
{"id": "C167", "title": "Labels and purged splits exchange no price information", "statement": "The end and the return of a triple-barrier event depend only on the prices from the start of the event to its own end, not on prices between that end and the expiry. Consequently, when the events of a price table are split by purged k-fold or by combinatorial purged cross-validation, replacing the prices on all bars covered by test events by any other prices changes neither the end nor the return of any training event, and replacing the prices on all bars covered by training events changes neither the end nor the return of any test event.", "quantifier": "for every sorted price table, every list of events in order of start, every pair of multipliers and sides, every number of folds or groups, every embargo and every replacement of the prices", "why_tests_cant": "The claim joins the labelling code to two splitters and quantifies over arbitrary replacement prices on arbitrary covered bars; a test fixes one table, one split and one replacement, and overlaps at the edges of a fold are rare in samples.", "anchors": ["financial_ml/labeling/triple_barrier.py:_get_triple_barrier_returns", "financial_ml/evaluation/cross_validation.py:PurgedKFold.split", "financial_ml/evaluation/backtest.py:CombinatorialPurgedCV.split"]}
{"id": "C168", "title": "Bars do not depend on the units of price and volume", "statement": "Quote prices in another currency unit (factor a > 0) and volumes in another lot size (factor c > 0), and convert the size arguments accordingly: time, tick, volume, dollar, imbalance and runs bars then contain the same ticks bar by bar, with open, high, low, close and vwap multiplied by a and volume by c, and with the expectation series returned by imbalance and runs bars multiplied by the factor of the bar unit. A call that raises an exception raises the same one after conversion.", "quantifier": "for every list of ticks, all positive factors, and every setting of the aggregation arguments", "why_tests_cant": "An additive constant or a threshold left unconverted in one branch of the online threshold update shows only for tick streams that reach that branch with a factor other than one; tests use one unit.", "anchors": ["financial_ml/data_structures/bars.py:aggregate_time_bars", "financial_ml/data_structures/bars.py:aggregate_tick_bars", "financial_ml/data_structures/bars.py:aggregate_volume_bars", "financial_ml/data_structures/bars.py:aggregate_dollar_bars", "financial_ml/data_structures/bars.py:aggregate_imblance_bars", "financial_ml/data_structures/bars.py:aggregate_runs_bars"]}
{"id": "C169", "title": "Entropy does not depend on names of symbols, and codes not on units", "statement": "Renaming the symbols of a message by an injective map renames the words of the plug-in mass function, the Lempel-Ziv library and the longest match in the same way and leaves plug-in entropy and Kontoyiannis entropy unchanged. Binary codes are unchanged when series and threshold pass through the same strictly increasing map; sigma codes and quantile codes are unchanged when the series (and sigma in proportion) undergoes an increasing affine map.", "quantifier": "for every message over every alphabet, every injective renaming, every word length and window, every series, and every increasing affine map", "why_tests_cant": "The invariance is over all renamings and all alphabets; a test can compare a few messages, and a dependence on the order or on the textual form of symbols needs a specially chosen pair of alphabets.", "anchors": ["financial_ml/features/entropy.py:plugin_entropy", "financial_ml/features/entropy.py:lempelziv_lib", "financial_ml/features/entropy.py:konto_entropy", "financial_ml/features/entropy.py:binary_encode", "financial_ml/features/entropy.py:QuantileEncoder", "financial_ml/features/entropy.py:sigma_encode"]}
{"id": "C170", "title": "Option prices have no currency and no free spreads", "statement": "Multiplying spot, strike and dividends by a positive factor multiplies the Black-Scholes-Merton price, the binomial price of both exercise styles and the control-variate American price by the same factor, and errors and NaN stay what they are. A call falls and a put rises strictly with the strike, by less than the present value of the difference of the strikes, and a butterfly costs something. On the tree, prices are convex in spot and strike together, move with the strike by at most the (discounted, for European exercise) difference of the strikes, and rise (call) or fall (put) with the spot.", "quantifier": "for every positive factor, every spot, strike, rate, volatility, maturity, yield, dividend list, option type and exercise style, and every number of steps on an arbitrage-free tree", "why_tests_cant": "The statements compare prices over a continuum of strikes and factors; a mispriced spread can be smaller than the tolerance of a numerical test or appear only for certain parameters.", "anchors": ["financial_ml/tools/option.py:bsm_option_price", "financial_ml/tools/option.py:binom_option_price", "financial_ml/tools/option.py:binom_am_option_price"]}
{"id": "C171", "title": "The SADF statistic has no units and absorbs the trends of its regression", "statement": "Replacing a series by c times the series (c not zero) plus a polynomial in the position leaves every SADF statistic and the whole series of statistics unchanged, failures included, as long as the polynomial is one the regression contains: a level needs a constant, a slope needs the time trend and a curvature needs the quadratic trend.", "quantifier": "for every series, minimal sample length, constant option, number of lags, non-zero factor and every absorbed level, slope and curvature", "why_tests_cant": "The statement compares infinitely many pairs of regressions, with different regressors after the transformation; a numerical test only sees equality up to rounding of a few of them.", "anchors": ["financial_ml/features/structural_breaks.py:sadf_stat", "financial_ml/features/structural_breaks.py:sadf_stat_series", "financial_ml/features/structural_breaks.py:_get_yx", "financial_ml/features/structural_breaks.py:_fit_adf"]}
{"id": "C172", "title": "A call is a put with the two assets exchanged", "statement": "On the tree, the call on spot s0 with strike k, rate r and yield q costs the same as the put on spot k with strike s0, rate q and yield r, for both exercise styles and with the same failures; the same holds for futures options with the roles of price and strike exchanged, and for the Black-Scholes-Merton formula with positive spot and strike.", "quantifier": "for every spot, strike, rate, yield, volatility, maturity, number of steps and exercise style (formula: positive spot and strike)", "why_tests_cant": "The symmetry relates two different branches of the code (call and put, risk-free rate and yield) over a continuum of parameters; tests fix one option at a time.", "anchors": ["financial_ml/tools/option.py:binom_option_price", "financial_ml/tools/option.py:bsm_option_price"]}
{"id": "C173", "title": "Splits depend only on the order of the times", "statement": "Relabelling all times by any strictly increasing map (other time zone, other unit, event time instead of clock time) changes neither the rows kept by purging and embargo, nor the folds of PurgedKFold, nor the splits of CombinatorialPurgedCV, their recorded history and the backtest paths; errors are the same too.", "quantifier": "for every strictly increasing map of the times, all events (open ones included), tests, bar indices, embargo fractions, numbers of splits or groups, and every history of calls", "why_tests_cant": "Equality is claimed for every order-preserving relabelling and every event table at once; tests use one clock with evenly spaced bars.", "anchors": ["financial_ml/evaluation/cross_validation.py:apply_purging_and_embargo", "financial_ml/evaluation/cross_validation.py:PurgedKFold.split", "financial_ml/evaluation/backtest.py:CombinatorialPurgedCV.split", "financial_ml/evaluation/backtest.py:CombinatorialPurgedCV.get_backtest_paths"]}
{"id": "C174", "title": "Barrier returns and labels have no currency and no clock", "statement": "Multiplying all prices by a non-zero factor and relabelling all times by a strictly increasing map leaves every return and every label of the triple-barrier method unchanged, and moves the barrier and end times with the clock; errors stay the same errors.", "quantifier": "for every price table (NaN cells included), events, targets, expiries, sides, multipliers, minimal target, non-zero factor and strictly increasing time map", "why_tests_cant": "Back-filled rows, missing expiries and ties between barriers all have to be equivariant at once; an example fixes one currency and one clock.", "anchors": ["financial_ml/labeling/triple_barrier.py:get_event_returns", "financial_ml/labeling/triple_barrier.py:_get_triple_barrier_returns", "financial_ml/labeling/triple_barrier.py:get_event_labels"]}
{"id": "C175", "title": "Sample weights have no currency and no clock", "statement": "Concurrency counts, average uniqueness and the event indicator matrix depend only on the order of the bar and event times; weights by return attribution in addition do not change when all prices are multiplied by a positive factor. Errors stay the same errors.", "quantifier": "for every bar index, event table (open and repeated events included), price series, positive factor and strictly increasing time map", "why_tests_cant": "The statement quantifies over all order-preserving clocks and all currencies; a test sees one of each.", "anchors": ["financial_ml/labeling/weighting.py:count_events_per_bar", "financial_ml/labeling/weighting.py:label_avg_uniqueness", "financial_ml/labeling/weighting.py:get_event_indicators", "financial_ml/labeling/weighting.py:compute_weights_by_returns"]}
{"id": "C176", "title": "Performance metrics have no currency", "statement": "Multiplying positions, portfolio values or returns by a factor leaves the bet timings, holding period, time-weighted return, concentration, relative drawdowns, times under water, probabilistic and deflated Sharpe ratios unchanged, and multiplies drawdowns in money by that factor; moving the clock moves the reported times and changes no duration.", "quantifier": "for every series of positions, flows, values and returns, every non-zero (where signs matter: positive) factor and every shift of the clock", "why_tests_cant": "A test fixes one currency and one start date; the claim covers all of them at once, errors included.", "anchors": ["financial_ml/evaluation/metrics.py:get_position_timings", "financial_ml/evaluation/metrics.py:compute_holding_period", "financial_ml/evaluation/metrics.py:compute_time_weighted_return", "financial_ml/evaluation/metrics.py:compute_hhi_returns_concentration", "financial_ml/evaluation/metrics.py:compute_dd_and_tuw", "financial_ml/evaluation/metrics.py:probabilistic_sharpe_ratio", "financial_ml/evaluation/metrics.py:deflated_sharpe_ratio"]}
{"id": "C177", "title": "Position sizes treat long and short alike", "statement": "Reversing every side (or every predicted label) reverses the sign of the budgeted sizes and of the sizes from probabilities and changes nothing else. All sizes depend on the order of times only. In another currency, with the coefficient calibrated in that currency, sizes from divergence are unchanged and limit prices are converted.", "quantifier": "for all bars, events (open ones included), sides, budget functions, forecasts, step sizes, prices, coefficients, positive factors and strictly increasing time maps", "why_tests_cant": "Symmetry and invariance compare two runs for every input; tests look at single runs.", "anchors": ["financial_ml/assets_allocation/position_sizing.py:budgeted_position_size", "financial_ml/assets_allocation/position_sizing.py:gaussian_mixture_position_size", "financial_ml/assets_allocation/position_sizing.py:position_size_from_probabilities", "financial_ml/assets_allocation/position_sizing.py:position_size_from_divergence", "financial_ml/assets_allocation/position_sizing.py:get_sigmoid_coeff", "financial_ml/assets_allocation/position_sizing.py:compute_limit_price"]}
{"id": "C178", "title": "Runs bars do not depend on row labels", "statement": "aggregate_runs_bars builds its bars from the ticks in the order of the rows; the row labels of the frame (after sorting, slicing or filtering) are immaterial. (In volume and dollar units the code looks quantities up by label: a sorted frame gives other bars, a slice raises KeyError.)", "quantifier": "for all tick frames with integer row labels, all units and parameters", "why_tests_cant": "Tests use freshly built frames whose labels are positions; the failing frames are sorted or sliced ones.", "anchors": ["financial_ml/data_structures/bars.py:aggregate_runs_bars", "financial_ml/data_structures/bars.py:_compute_runs_bar_sizes"]}
{"id": "C179", "title": "Expectations are estimated from all ticks of past bars", "statement": "As documented, after each bar the expected imbalance is the exponentially weighted mean of the flows of the previous bars, and the expected buy and sell quantities are those of all previous buys and sells. (The imbalance estimate leaves out the closing tick, the runs estimates leave out tick 0.)", "quantifier": "for all flows, quantities, spans and size limits, and every closed bar", "why_tests_cant": "One missing tick shifts the thresholds slightly; only a comparison with the definition on every stream shows it.", "anchors": ["financial_ml/data_structures/bars.py:_compute_imbalance_bar_sizes", "financial_ml/data_structures/bars.py:_compute_runs_bar_sizes"]}
{"id": "C180", "title": "Bars with default expectations do not look ahead", "statement": "Bars that closed within the first m ticks do not depend on later ticks, also when the initial expectations are left to their default. (The default is estimated from the first E_T_init ticks, so bars that close before tick E_T_init depend on ticks after them; from m = E_T_init on the property holds.)", "quantifier": "for all pairs of streams sharing a prefix, all units and parameters", "why_tests_cant": "The statement is about every possible future of every prefix.", "anchors": ["financial_ml/data_structures/bars.py:aggregate_imblance_bars", "financial_ml/data_structures/bars.py:aggregate_runs_bars"]}
{"id": "C181", "title": "A bar closes as soon as it reaches max_bar_size", "statement": "With min_bar_size <= max_bar_size, at every tick before the last one of an imbalance or runs bar the size of the bar is below max_bar_size. (Tick 0 is never checked: a first tick larger than the limit does not close a bar.)", "quantifier": "for all streams, expectations and limits, every bar and every tick in it", "why_tests_cant": "The exception is the very first tick; the rule must hold for every later tick of every stream.", "anchors": ["financial_ml/data_structures/bars.py:_compute_imbalance_bar_sizes", "financial_ml/data_structures/bars.py:_compute_runs_bar_sizes"]}
{"id": "C182", "title": "The basket value does not depend on units or on the order of the instruments", "statement": "Quoting the prices and dividends of an instrument in another unit, its FX rate in another base currency and its volume in another share unit leaves the value series of the basket unchanged; if the factors are consistent the volume column is multiplied by the common factor. Permuting the instruments changes nothing.", "quantifier": "for all inputs, all positive unit factors per instrument, all permutations", "why_tests_cant": "Unit and order invariance relate pairs of runs on all inputs.", "anchors": ["financial_ml/data_structures/basket.py:basket_to_etf"]}
{"id": "C183", "title": "Only the rebalanced bars matter to the basket", "statement": "The result depends on the rebalance list only through the bars at which the basket is rebalanced: a listed first bar, a listed last bar, repetitions and bars outside the table change nothing. (A listed first bar drops the move from the first close to the next open.)", "quantifier": "for all inputs and all pairs of rebalance lists", "why_tests_cant": "The exception needs the first bar to be listed; the rest is about all lists.", "anchors": ["financial_ml/data_structures/basket.py:basket_to_etf"]}
{"id": "C184", "title": "No price move of held units is left out of the basket value", "statement": "On every bar the value changes by the whole profit of the units held: overnight move, intraday move and dividends. (After a rebalance the overnight move of the units held before is left out.)", "quantifier": "for all well-formed inputs and all bars", "why_tests_cant": "The loss is only visible on rebalance bars with an overnight gap.", "anchors": ["financial_ml/data_structures/basket.py:basket_to_etf"]}
{"id": "C185", "title": "The basket value follows the dollar value of the units held", "statement": "Without rebalancing and dividends the value is 1 plus the change of the dollar value of the units held. (The revaluation of held units by FX changes is left out.)", "quantifier": "for all well-formed inputs without rebalancing and dividends, all bars", "why_tests_cant": "With constant FX rates, as in most tests, the defect is invisible.", "anchors": ["financial_ml/data_structures/basket.py:basket_to_etf"]}
{"id": "C186", "title": "Fixed-window events work with every combination of options", "statement": "For a table of positive prices and 0 <= gap <= window, every combination of drop_partial_event and align_with_bars that has events returns them with their returns. (Without alignment a window that contains no bar raises IndexError, always so when partial events are kept and the gap is positive.)", "quantifier": "for all bars, windows, gaps and options", "why_tests_cant": "The failing combinations depend on the spacing of the bars.", "anchors": ["financial_ml/labeling/triple_barrier.py:get_fixed_window_events"]}
{"id": "C187", "title": "Every bar with a running event is counted", "statement": "Whatever the order of the events, every bar on which an event runs is listed with the number of events running. (The listed bars begin at the event listed first, not at the earliest one.)", "quantifier": "for all increasing bars and all lists of events", "why_tests_cant": "Test data lists events in time order; the defect needs another order.", "anchors": ["financial_ml/labeling/weighting.py:count_events_per_bar", "financial_ml/labeling/weighting.py:label_avg_uniqueness"]}
{"id": "C188", "title": "A negative oldest weight never raises a weight above the newest", "statement": "With a negative oldest_weight all decayed weights are at most 1 and grow with time. (Below -1 the slope changes sign: the older the observation, the larger its weight.)", "quantifier": "for all observations and all negative oldest weights", "why_tests_cant": "The sign change happens outside the range used in examples.", "anchors": ["financial_ml/labeling/weighting.py:apply_time_decay_to_weights"]}
{"id": "C189", "title": "Return weights depend on the prices during the events only", "statement": "Changing prices at bars at which no event runs does not change the return-attribution weights. (The price of the bar before each event start enters through the first return.)", "quantifier": "for all events, counts and pairs of price series agreeing during the events", "why_tests_cant": "A statement about pairs of runs over all price series.", "anchors": ["financial_ml/labeling/weighting.py:compute_weights_by_returns"]}
{"id": "C190", "title": "A negative PBO logit means below the test median", "statement": "In compute_pbo the logit of a choice of partitions is negative exactly if the strategy selected on the train rows is below the median on the test rows. (With an odd number of strategies the median itself gets a negative logit, and the added 1/1000 moves the border for 1999 or more strategies.)", "quantifier": "for all evaluation functions, argsorts, matrices and choices without ties on the test rows", "why_tests_cant": "Depends on the parity and number of strategies, which examples fix.", "anchors": ["financial_ml/evaluation/backtest.py:compute_pbo"]}
{"id": "C191", "title": "PBO splits are symmetric", "statement": "Train and test rows of every choice of compute_pbo are equally many and exchanging them gives another choice. (Rows left over when the number of partitions does not divide the number of rows are tested in every choice and never trained on.)", "quantifier": "for all numbers of rows and all even numbers of partitions", "why_tests_cant": "Test matrices have a number of rows divisible by the number of partitions.", "anchors": ["financial_ml/evaluation/backtest.py:compute_pbo"]}
{"id": "C192", "title": "Scoring without embargo_pct scores without embargo", "statement": "Leaving embargo_pct out of timeseries_cv_score gives the scores without embargo. (The default None is handed to PurgedKFold, where it raises TypeError.)", "quantifier": "for all estimators, data sets, scorings and event times", "why_tests_cant": "The claim is about a default that no example of the repository uses.", "anchors": ["financial_ml/evaluation/cross_validation.py:timeseries_cv_score"]}
{"id": "C193", "title": "PBO depends neither on leverage nor on the order of strategies", "statement": "With the default Sharpe ratio, multiplying the returns of each strategy by a positive number of its own leaves all results of compute_pbo unchanged, and so does listing the strategies in another order if there are no ties.", "quantifier": "for all return matrices, positive factors and permutations of the strategies", "why_tests_cant": "A statement about pairs of runs over all matrices and factors.", "anchors": ["financial_ml/evaluation/backtest.py:compute_pbo"]}
{"id": "C194", "title": "Combinatorial train sets have equal size", "statement": "With groups of equal size all train sets of CombinatorialPurgedCV have the same size, as its docstring says. (Overlapping events and the embargo remove different numbers of events from different splits.)", "quantifier": "for all event lists and numbers of groups dividing the number of events", "why_tests_cant": "Needs a comparison of all splits over all patterns of overlap.", "anchors": ["financial_ml/evaluation/backtest.py:CombinatorialPurgedCV"]}
{"id": "C195", "title": "Constant messages have the least entropy", "statement": "A constant message of length n gets the smallest Lempel-Ziv dictionary (k words with k(k+1) <= 2n < (k+1)(k+2)), the smallest Kontoyiannis estimate for every window and the plug-in entropy 0; no message of that length has smaller values.", "quantifier": "for all messages over all alphabets, all word lengths and windows", "why_tests_cant": "A minimum over all messages of all lengths.", "anchors": ["financial_ml/features/entropy.py:lempelziv_lib", "financial_ml/features/entropy.py:konto_entropy", "financial_ml/features/entropy.py:plugin_entropy"]}
{"id": "C196", "title": "Plug-in entropy has no direction", "statement": "Read backwards, a message has the same words backwards with the same frequencies, hence the same plug-in entropy.", "quantifier": "for all messages and word lengths up to the message length", "why_tests_cant": "Covers all messages and word lengths.", "anchors": ["financial_ml/features/entropy.py:_word_pmf", "financial_ml/features/entropy.py:plugin_entropy"]}
{"id": "C197", "title": "Fractional differences survive new observations", "statement": "Appending observations to a series keeps the fractionally differenced values computed before. (False: the threshold of the expanding method is applied to the longer series and drops values; the fixed window can grow with the series.)", "quantifier": "for all series, orders, thresholds in [0, 1] and numbers of appended observations", "why_tests_cant": "Compares two runs for every pair of lengths; the weights cut depend on both.", "anchors": ["financial_ml/features/frac_diff.py:frac_diff_expanding", "financial_ml/features/frac_diff.py:frac_diff_fixed"]}
{"id": "C198", "title": "CUSUM filter with missing observations", "statement": "A missing observation counts as if its row were not there. (False: NaN resets both sums, so a move across the gap is not an event; the filter restarts at every gap.)", "quantifier": "for all series with missing values and thresholds >= 0", "why_tests_cant": "All patterns of missing values; the reset comes from the order of arguments of max and min.", "anchors": ["financial_ml/features/filters.py:filter_symmetric_cusum"]}
{"id": "C199", "title": "Units and buy/sell symmetry of microstructure features", "statement": "Roll spread is in units of price, Kyle lambda in price per volume, Amihud lambda in return per money, Hasbrouck lambda in return per square root of money; VPIN has no unit and depends on the order of prices only; turning prices upside down (and the first flag) changes neither Kyle lambda nor VPIN nor the Roll spread.", "quantifier": "for all tick and bar tables with the stated positivity, all scale factors, and every regression routine returning a least-squares solution", "why_tests_cant": "Two-run property over real scale factors; needs uniqueness of least squares.", "anchors": ["financial_ml/features/microstructure.py:roll_effective_spread", "financial_ml/features/microstructure.py:kyle_lambda", "financial_ml/features/microstructure.py:amihud_lambda", "financial_ml/features/microstructure.py:hasbrouck_lambda", "financial_ml/features/microstructure.py:volume_synchronized_pin"]}
{"id": "C200", "title": "Wrong arguments raise", "statement": "Expanding differencing refuses a threshold outside [0, 1] by AssertionError and a table without columns by ValueError; a stationarity test without a 5% value, an event without a target and an eligible event without a side raise KeyError; the sequential bootstrap without events or with an event that spans no bar raises ValueError; no numbers are returned.", "quantifier": "for all tables, orders, events, multipliers and options", "why_tests_cant": "All wrong inputs of the stated kind, whatever else is given.", "anchors": ["financial_ml/features/frac_diff.py:frac_diff_expanding", "financial_ml/features/frac_diff.py:frac_diff_fixed", "financial_ml/features/frac_diff.py:run_adf_tests", "financial_ml/labeling/triple_barrier.py:get_event_returns", "financial_ml/labeling/weighting.py:sample_sequential_boostrap"]}
{"id": "C201", "title": "Uncorrelated instruments get inverse-variance weights", "statement": "If no two instruments are correlated the hierarchical allocation is the inverse-variance portfolio, whatever tree the clustering builds.", "quantifier": "for all numbers of instruments, all positive variances, all valid linkages", "why_tests_cant": "Recursion over every dendrogram and every size.", "anchors": ["financial_ml/assets_allocation/HRP.py:_recursive_bisection", "financial_ml/assets_allocation/HRP.py:hrp_allocations"]}
{"id": "C202", "title": "Hierarchical allocation has no unit", "statement": "Multiplying all returns by one factor (of either sign), adding a constant to each instrument or permuting the observations leaves the allocation, or the error, as it is.", "quantifier": "for all return matrices, non-zero factors, constants, permutations and clustering methods", "why_tests_cant": "Two-run property over real factors and all clustering methods.", "anchors": ["financial_ml/assets_allocation/HRP.py:hrp_allocations"]}
{"id": "C203", "title": "Exchangeable instruments get equal weights", "statement": "Instruments with equal variances and equal pairwise correlations get equal weights.", "quantifier": "for all numbers of instruments, variances and correlations in [0, 1)", "why_tests_cant": "Holds for every power of two, and for every number if uncorrelated; small even examples pass.", "anchors": ["financial_ml/assets_allocation/HRP.py:_recursive_bisection"]}
{"id": "C204", "title": "Left and right clusters are alike", "statement": "Which of two merged clusters the linkage names first has no influence on the weights.", "quantifier": "for all covariances and all pairs of linkages that differ in the order of the two sides", "why_tests_cant": "Two-run property over linkages; scipy fixes one order, so a test sees one only.", "anchors": ["financial_ml/assets_allocation/HRP.py:_quasi_diagonalize", "financial_ml/assets_allocation/HRP.py:_recursive_bisection"]}
{"id": "C205", "title": "Longer options are worth more", "statement": "A European option with longer time to maturity is worth at least as much.", "quantifier": "for all spot prices, strikes, non-negative rates, volatilities and pairs of maturities", "why_tests_cant": "Monotonicity over a continuum; true of the usual call examples.", "anchors": ["financial_ml/tools/option.py:bsm_option_price"]}
{"id": "C206", "title": "At expiry an option is worth its payoff", "statement": "With no time left both pricers return the payoff, and towards expiry the price goes to the payoff.", "quantifier": "for all spot prices, strikes, rates, volatilities and yields", "why_tests_cant": "Limit statement; and one boundary case of measure zero (at the money).", "anchors": ["financial_ml/tools/option.py:bsm_option_price", "financial_ml/tools/option.py:binom_option_price"]}
{"id": "C207", "title": "Strategy risk has no currency and no calendar", "statement": "Scaling profit and loss (or all returns) by a positive factor changes neither Sharpe ratio nor required precision, required frequency or probability of failure; scaling the frequency by s^2 and the target by s changes neither precision nor probability of failure, and scales the Sharpe ratio by s.", "quantifier": "for all positive factors and all arguments, errors included", "why_tests_cant": "Two-run property over real factors.", "anchors": ["financial_ml/risk/strategy_risk.py:strategy_sharpe_ratio", "financial_ml/risk/strategy_risk.py:strategy_required_precision", "financial_ml/risk/strategy_risk.py:strategy_required_freq", "financial_ml/risk/strategy_risk.py:strategy_probability_of_failure"]}
{"id": "C208", "title": "A failure probability below one half means the target is beaten", "statement": "The probability of failure is below 1/2 exactly if the Sharpe ratio of bets with the observed precision, mean gain and mean loss exceeds the target, and 1/2 exactly if it equals the target.", "quantifier": "for all samples with a gain and a loss, frequencies and non-negative targets", "why_tests_cant": "Equivalence over the reals with a boundary of measure zero.", "anchors": ["financial_ml/risk/strategy_risk.py:strategy_probability_of_failure"]}
{"id": "C209", "title": "The probability of failure accounts for the sample size", "statement": "The observed precision is compared with the required one in units of its sampling deviation sqrt(p(1-p)/n).", "quantifier": "for all samples with a gain and a loss", "why_tests_cant": "The number returned looks plausible for every sample; only the formula shows that n has no influence.", "anchors": ["financial_ml/risk/strategy_risk.py:strategy_probability_of_failure"]}
{"id": "C210", "title": "Events that have not ended are kept apart in PurgedKFold", "statement": "In every fold, of a train event and a test event one has ended before the other starts, an event without end time counting as lasting for ever.", "quantifier": "for all event lists ordered by start, with any ends missing", "why_tests_cant": "Missing ends are rare in test data, and a leak shows in no output.", "anchors": ["financial_ml/evaluation/cross_validation.py:PurgedKFold"]}
{"id": "C211", "title": "Train and test sets of PurgedKFold are disjoint whatever the embargo", "statement": "For any embargo fraction, negative ones included, no event is in both sets of a fold.", "quantifier": "for all event lists ordered by start and all embargo fractions", "why_tests_cant": "Negative fractions are neither refused nor tried.", "anchors": ["financial_ml/evaluation/cross_validation.py:PurgedKFold"]}
{"id": "C212", "title": "A fraction of the observations that is a whole number is taken exactly", "statement": "Where n times the embargo fraction (or the share of the first component) is a whole number, int() of the double product is that number.", "quantifier": "for all n and all decimal fractions between 0 and 1, in IEEE doubles", "why_tests_cant": "Most fractions are right; the wrong ones depend on the last bit of a double.", "anchors": ["financial_ml/evaluation/cross_validation.py:_get_embargo_times", "financial_ml/evaluation/cross_validation.py:PurgedKFold", "financial_ml/utils/simulation.py:gen_mixed_gaussians"]}
{"id": "C213", "title": "Doubles put every tick into the bar it belongs to", "statement": "The bar id computed from the running sum in doubles is the number of whole bars in the exact quantity traded so far.", "quantifier": "for all positive bar sizes and all lists of non-negative quantities, in IEEE doubles", "why_tests_cant": "Whole lots are right; decimal lots go wrong only at some boundaries.", "anchors": ["financial_ml/data_structures/bars.py:aggregate_volume_bars", "financial_ml/data_structures/bars.py:aggregate_dollar_bars"]}
{"id": "C214", "title": "Trees with many steps price as Black-Scholes", "statement": "As the number of steps grows, the European price of binom_option_price tends to the price of bsm_option_price with the same arguments; so the control-variate correction of binom_am_option_price tends to 0, and without yield and with r >= 0 American calls tend to the closed formula.", "quantifier": "for all positive prices, strikes, times and volatilities, every rate and yield, calls and puts, on spot and futures", "why_tests_cant": "A limit: a test sees finitely many steps, and the two prices never agree exactly.", "anchors": ["financial_ml/tools/option.py:binom_option_price", "financial_ml/tools/option.py:bsm_option_price", "financial_ml/tools/option.py:binom_am_option_price"]}
{"id": "C215", "title": "Finished bars are final", "statement": "When ticks are appended to a stream, tick, volume, dollar and time bars keep every bar but the last unchanged, and the last bar only grows: its open stays, its high does not fall, its low does not rise and its volume does not fall.", "quantifier": "for all streams with non-negative prices and volumes, all appended ticks (no earlier than the stream for time bars) and all bar sizes, over exact numbers", "why_tests_cant": "A later tick may change an earlier bar in one stream of infinitely many.", "anchors": ["financial_ml/data_structures/bars.py:aggregate_tick_bars", "financial_ml/data_structures/bars.py:aggregate_volume_bars", "financial_ml/data_structures/bars.py:aggregate_dollar_bars", "financial_ml/data_structures/bars.py:aggregate_time_bars"]}
{"id": "C216", "title": "Coarser volume bars from finer ones", "statement": "Volume bars of m times freq are the finer volume bars of freq grouped by their id divided by m, with open, high, low, close, volume and vwap computed from the finer bars.", "quantifier": "for all streams with non-negative volumes, all freq > 0 and all m >= 1, over exact numbers", "why_tests_cant": "Whether the two ways agree depends on where sums cross bar limits; tests see a few streams.", "anchors": ["financial_ml/data_structures/bars.py:aggregate_volume_bars", "financial_ml/data_structures/bars.py:resample_time_to_volume_bars"]}
{"id": "C217", "title": "A drawn event is less likely to be drawn again", "statement": "Drawing an event in the sequential bootstrap never raises the probability of drawing it in the next step.", "quantifier": "for all indicator matrices and all earlier draws", "why_tests_cant": "The claim fails only for particular overlaps after particular draws.", "anchors": ["financial_ml/labeling/weighting.py:sample_sequential_boostrap"]}
{"id": "C218", "title": "More events mean less uniqueness", "statement": "With events added, the average uniqueness of an event is at most what it was, and is equal exactly when no added event runs on one of its bars.", "quantifier": "for all bars, events and added events", "why_tests_cant": "Needs every configuration of overlaps.", "anchors": ["financial_ml/labeling/weighting.py:label_avg_uniqueness"]}
{"id": "C219", "title": "Purging works test by test", "statement": "Purging by two lists of test intervals leaves exactly the events that each list leaves; the order of the tests does not matter, and more tests never add a training event.", "quantifier": "for all events, open or closed, all tests, with and without embargo", "why_tests_cant": "Interaction of two test intervals with one event depends on all their positions.", "anchors": ["financial_ml/evaluation/cross_validation.py:apply_purging_and_embargo", "financial_ml/evaluation/cross_validation.py:_get_purged_train_indices"]}
{"id": "C220", "title": "Sizes from probabilities use no later event", "statement": "The position sizes reported up to any time are those computed from what is known at that time: events that start later and ends that come later do not matter.", "quantifier": "for all events with ends not before their starts, all probabilities, predictions and times", "why_tests_cant": "Look-ahead shows only when the future is varied; a test has one future.", "anchors": ["financial_ml/assets_allocation/position_sizing.py:position_size_from_probabilities", "financial_ml/assets_allocation/position_sizing.py:_avg_active_positions"]}
{"id": "C221", "title": "Budgeted sizes use no later event", "statement": "The budgeted position sizes up to any time are those computed from the bars and events known at that time.", "quantifier": "for all bars, events and times", "why_tests_cant": "A test with one series of events does not vary the future.", "anchors": ["financial_ml/assets_allocation/position_sizing.py:budgeted_position_size"]}
{"id": "C222", "title": "A closed position is not held", "statement": "When every position has ended, the last size reported is 0.", "quantifier": "for all closed positions", "why_tests_cant": "The reported times are those of starts and ends; a test must know what is expected after the last one.", "anchors": ["financial_ml/assets_allocation/position_sizing.py:_avg_active_positions"]}
{"id": "C223", "title": "CUSUM events are the fewest cuts", "statement": "The events of the CUSUM filter cut the series into stretches that move by at most the threshold; no other cuts do so with fewer cuts or with a later cut of the same number. So a larger threshold gives no more events and none earlier.", "quantifier": "for all series and all non-negative thresholds", "why_tests_cant": "Optimality is over all sets of cuts.", "anchors": ["financial_ml/features/filters.py:filter_symmetric_cusum"]}
{"id": "C224", "title": "CUSUM events of a larger threshold are events of a smaller one", "statement": "Every event of the CUSUM filter with a larger threshold is also one with a smaller threshold.", "quantifier": "for all series and pairs of thresholds", "why_tests_cant": "Fails for particular series only.", "anchors": ["financial_ml/features/filters.py:filter_symmetric_cusum"]}
{"id": "C225", "title": "Lag of the Hull moving average", "statement": "On a linear trend the Hull average of period n is the trend with a lag of (floor(sqrt(n)) - 1)/2 - 1/2 bars for even n and (floor(sqrt(n)) - 1)/2 - 1 for odd n; it is less than that of a simple average, and none exactly for n = 4, 6, 8, 9, 11, 13, 15.", "quantifier": "for all linear trends and all n >= 2", "why_tests_cant": "All periods.", "anchors": ["financial_ml/features/filters.py:hull_ma"]}
{"id": "C226", "title": "Reported drawdowns are final", "statement": "When values are appended, every reported drawdown but the last is unchanged, the last one keeps its time and can only get deeper, and reported times under water do not change.", "quantifier": "for all series and all appended values (positive ones for relative drawdowns)", "why_tests_cant": "All continuations of a series.", "anchors": ["financial_ml/evaluation/metrics.py:compute_dd_and_tuw"]}
{"id": "C227", "title": "The Lempel-Ziv dictionary grows with the message", "statement": "When symbols are appended, the dictionary keeps its words and grows by at most one word per symbol.", "quantifier": "for all messages and all appended symbols", "why_tests_cant": "All continuations of a message.", "anchors": ["financial_ml/features/entropy.py:lempelziv_lib"]}
{"id": "C228", "title": "Wider barriers end an event no earlier", "statement": "With wider horizontal barriers, or none, and a later expiry an event ends at the same time or later; an event that took its profit does the same with the same return when only the stop loss is widened or the expiry put off.", "quantifier": "for all price tables, events with non-negative target, multipliers and expiries", "why_tests_cant": "All price paths and multipliers.", "anchors": ["financial_ml/labeling/triple_barrier.py:_get_triple_barrier_returns"]}
{"id": "C229", "title": "An embargo as long as the feature window keeps test prices out of train features", "statement": "If features look back over at most w bars, purging with an embargo of at least w bars (for PurgedKFold, w at most one more than the embargo in bars) keeps only train rows before the test interval, or rows whose whole feature window lies after it; fixed-window fractional differences of train rows then do not depend on test prices.", "quantifier": "for all sorted indices, samples, test intervals, embargoes and window lengths", "why_tests_cant": "All prices inside the test interval.", "anchors": ["financial_ml/evaluation/cross_validation.py:apply_purging_and_embargo", "financial_ml/evaluation/cross_validation.py:PurgedKFold", "financial_ml/features/frac_diff.py:frac_diff_fixed"]}
{"id": "C230", "title": "Return weights of train rows do not depend on test prices", "statement": "Changing prices only at the bars of the test interval leaves the return weights of the train rows unchanged, up to one common factor.", "quantifier": "for all price series, samples and test intervals", "why_tests_cant": "All changes of test prices.", "anchors": ["financial_ml/labeling/weighting.py:_get_return_attributions", "financial_ml/evaluation/cross_validation.py:PurgedKFold"]}
{"id": "C231", "title": "A short event is the mirror of a long one under symmetric barriers", "statement": "With equal multipliers for profit and loss, the long and the short side of one event end at the same time, and the short trade is labelled a success exactly when the event without side is labelled -1.", "quantifier": "for all price tables, events, targets and multipliers", "why_tests_cant": "All price paths.", "anchors": ["financial_ml/labeling/triple_barrier.py:_get_triple_barrier_returns", "financial_ml/labeling/triple_barrier.py:get_event_labels"]}
{"id": "C232", "title": "A constant gain never lowers the probabilistic Sharpe ratio", "statement": "Adding the same non-negative gain to every return does not lower the probability that the Sharpe ratio exceeds 0.", "quantifier": "for all non-constant return series and gains", "why_tests_cant": "All real return series.", "anchors": ["financial_ml/evaluation/metrics.py:probabilistic_sharpe_ratio"]}
{"id": "C233", "title": "Regions of early exercise are what theory says", "statement": "If the American put should be exercised at a price, so it should at every lower price; the call at every higher price; and an option exercised with more time to go is exercised with less time to go.", "quantifier": "for all non-negative prices, strikes, rates and (for calls) yields, all volatilities and step counts with a probability between 0 and 1", "why_tests_cant": "All real parameters and any number of steps.", "anchors": ["financial_ml/tools/option.py:binom_option_price"]}
{"id": "C234", "title": "Parity bounds for American options", "statement": "The American call less the American put lies between the underlying without its yield less the strike and the underlying less the present value of the strike.", "quantifier": "for all non-negative prices, strikes, rates and yields, and any number of steps with a probability between 0 and 1", "why_tests_cant": "All real parameters and any number of steps.", "anchors": ["financial_ml/tools/option.py:binom_option_price"]}
{"id": "C235", "title": "The CUSUM filter cannot fire more often than the series moves", "statement": "The number of events times the threshold is less than the sum of the absolute changes; if no change exceeds d, more than threshold/d bars pass between events.", "quantifier": "for all series and thresholds", "why_tests_cant": "Series of any length.", "anchors": ["financial_ml/features/filters.py:filter_symmetric_cusum"]}
{"id": "C236", "title": "A hopeless strategy lowers the probability of overfitting", "statement": "Adding a strategy that is the worst on every train and test set changes no selection, raises every logit and so never raises the probability of backtest overfitting. (The share of negative logits does not rise. The probability is read off a kernel estimate whose width shrinks when the logits move closer together, and it can rise.)", "quantifier": "for all performance matrices without ties, and all numbers of partitions", "why_tests_cant": "All real matrices.", "anchors": ["financial_ml/evaluation/backtest.py:compute_pbo"]}
{"id": "C237", "title": "The labelling pipeline runs through", "statement": "From complete prices, CUSUM events on the closes, targets above the minimum and vertical barriers give one row for each event, in order, ending on a bar between start and barrier with a return; each event has a uniqueness in (0,1], and time decay gives each a weight in [0,1], 1 for the newest.", "quantifier": "for all price tables on an increasing index without missing opens and closes, thresholds, targets, barriers and holding periods", "why_tests_cant": "All price tables of any length.", "anchors": ["financial_ml/features/filters.py:filter_symmetric_cusum", "financial_ml/utils/time_series.py:get_vertical_barriers", "financial_ml/labeling/triple_barrier.py:get_event_returns", "financial_ml/labeling/weighting.py:label_avg_uniqueness", "financial_ml/labeling/weighting.py:apply_time_decay_to_weights"]}
{"id": "C238", "title": "PCA weights are determined by the covariance", "statement": "pca_weights depends on covariance, risk distribution and risk target only, not on which orthonormal eigenvectors the library returns.", "quantifier": "for all positive definite covariance matrices", "why_tests_cant": "All matrices of any size and every eigendecomposition.", "anchors": ["financial_ml/assets_allocation/pca_hedge.py:pca_weights"]}
{"id": "C239", "title": "Dropping rare labels again changes nothing", "statement": "drop_rare_labels is idempotent; with stronger bounds it keeps part of what it keeps with weaker ones; dropping with weaker bounds first makes no difference.", "quantifier": "for all labels, shares and numbers of classes", "why_tests_cant": "All lists of labels of any length.", "anchors": ["financial_ml/labeling/weighting.py:drop_rare_labels"]}
{"id": "C240", "title": "The implied rate withstands wrong quotes", "statement": "If the quotes of more than half of the common strikes satisfy parity with the same rate, the median returned by implied_risk_free_rate is that rate whatever the other quotes; it always lies between the smallest and the largest rate.", "quantifier": "for all quotes", "why_tests_cant": "All real quotes and any number of strikes.", "anchors": ["financial_ml/tools/option.py:implied_risk_free_rate"]}
{"id": "C241", "title": "The level CUSUM statistic is bounded", "statement": "The statistic at time t is at most the square root of t in size, reached by a straight line; so its p-value is never below the normal tail at that value.", "quantifier": "for all series and reference times", "why_tests_cant": "All real series of any length.", "anchors": ["financial_ml/features/structural_breaks.py:levels_cusum_stats"]}
{"id": "C242", "title": "Time-weighted returns chain", "statement": "The growth over a period cut in two at a row is the product of the growths of the parts; an inner row without cash flow can be left out.", "quantifier": "for all tables of values and flows with non-zero balances", "why_tests_cant": "Tables of any length.", "anchors": ["financial_ml/evaluation/metrics.py:compute_time_weighted_return"]}
{"id": "C243", "title": "Ornstein-Uhlenbeck paths with the same shocks approach each other", "statement": "Two paths of gen_discrete_ou_process that differ in the seed only keep their order and approach by the factor whose power to the half life is one half; a change of unit and origin of forecast, seed and volatility changes the path accordingly.", "quantifier": "for all parameters, shocks and numbers of steps", "why_tests_cant": "All real parameters and shocks.", "anchors": ["financial_ml/utils/simulation.py:gen_discrete_ou_process"]}
{"id": "C244", "title": "The exponentially weighted mean is linear and forgets geometrically", "statement": "If two series agree from some position on and differ by at most d before, their fast_ewma values differ by at most d times the decay factor to the number of common values seen; the mean of a linear combination is that combination of the means.", "quantifier": "for all series, spans of at least 1 and both variants", "why_tests_cant": "Series of any length.", "anchors": ["financial_ml/utils/time_series.py:fast_ewma"]}
{"id": "C245", "title": "Discretised position sizes in doubles", "statement": "With every operation rounded to a double, the discretised position size is the double nearest to the size discretised exactly; it stays in [-1, 1], grows with the size given, is within half a step (and rounding) of it, and does not drift when discretised again.", "quantifier": "for all sizes and steps that are doubles", "why_tests_cant": "one wrong rounding needs a size within an ulp of the middle of two steps", "anchors": ["financial_ml/assets_allocation/position_sizing.py:_discretize_position_sizes"]}
{"id": "C246", "title": "Sequential bootstrap: expected uniqueness of a draw", "statement": "In sample_sequential_boostrap, whatever has been drawn, the uniqueness expected of the next event drawn is at least the plain mean of the uniquenesses (what a uniform draw gives), with equality only if all are the same; drawing an event raises the uniqueness of no event and lowers it for exactly the events that share a bar with it.", "quantifier": "all indicator matrices in which every event covers a bar, all earlier draws", "why_tests_cant": "The gain over uniform draws is an expectation over random draws.", "anchors": ["financial_ml/labeling/weighting.py:sample_sequential_boostrap", "financial_ml/labeling/weighting.py:_get_avg_uniqueness"]}
{"id": "C247", "title": "Option prices move no more than the discounted spot", "statement": "When the spot rises, the formula price of a call rises and that of a put falls, each by less than the rise discounted at the yield; two spots give European tree prices no further apart than the spots discounted at the yield, and American ones no further apart than the spots when the yield is not negative.", "quantifier": "all spots above the dividends, positive strikes, volatilities and maturities; trees whose probability lies in [0, 1]", "why_tests_cant": "Finite differences at chosen spots test a few points only.", "anchors": ["financial_ml/tools/option.py:bsm_option_price", "financial_ml/tools/option.py:binom_option_price"]}
{"id": "C248", "title": "A constant level fades under fractional differencing", "statement": "For an order d in (0, 1) the weights are 1 at lag 0, negative and shrinking at other lags, with a positive sum; a constant level c becomes c(1-d)(1-d/2)...(1-d/i) at observation i of the expanding window (positive, falling, and below any share of c from some observation on) and the constant with as many factors as the width in the fixed window; for values in [0, M] each differenced value lies below the observation by at most M times what the level has lost.", "quantifier": "all orders in (0, 1), index lengths, levels and thresholds with a width", "why_tests_cant": "A limit in the length of the series.", "anchors": ["financial_ml/features/frac_diff.py:_get_weights", "financial_ml/features/frac_diff.py:frac_diff_expanding", "financial_ml/features/frac_diff.py:frac_diff_fixed"]}
{"id": "C249", "title": "A longer embargo only removes training observations", "statement": "With a longer embargo PurgedKFold succeeds on the same arguments with the same test sets, each train set is a sublist of what it was, and no fold loses more observations than the embargo grew by; the combinatorial splits have the same test sets and train sublists too.", "quantifier": "all events, numbers of splits and pairs 0 <= p <= q of embargo shares", "why_tests_cant": "Compares pairs of runs over all shares.", "anchors": ["financial_ml/evaluation/cross_validation.py:PurgedKFold.split", "financial_ml/evaluation/backtest.py:CombinatorialPurgedCV.split"]}
{"id": "C250", "title": "Riskier firms shift the default distribution upwards", "statement": "If no firm of get_systematic_default_probs becomes safer, the probability of at least k defaults does not fall for any k, nor does the mean of any loss growing with the number of defaults; the probabilities of no default and of all firms defaulting are the products of the single probabilities.", "quantifier": "all lists of probabilities in [0, 1]", "why_tests_cant": "Stochastic dominance over all loss functions.", "anchors": ["financial_ml/features/systematic_default.py:get_systematic_default_probs", "financial_ml/features/systematic_default.py:get_default_count_probs"]}
{"id": "C251", "title": "Shifting profit to a larger gain raises the concentration", "statement": "Moving an amount from a gain to one at least as large raises the concentration of the gains in compute_hhi_returns_concentration and leaves that of the losses unchanged; the same holds for losses.", "quantifier": "all lists of three or more returns, in any order", "why_tests_cant": "All amounts and positions.", "anchors": ["financial_ml/evaluation/metrics.py:compute_hhi_returns_concentration"]}
{"id": "C252", "title": "A feature the model ignores has no importance", "statement": "In get_mean_decrease_accuracy a feature which the fitted models do not look at, or which has one value in all rows, has mean importance 0 with error 0, however it is shuffled; the value is missing only when no fold is left or the average score is perfect.", "quantifier": "all estimators, shuffles, splits and scorings", "why_tests_cant": "Shuffles are random and estimators arbitrary.", "anchors": ["financial_ml/explain/feature_importance.py:get_mean_decrease_accuracy"]}
{"id": "C253", "title": "Later bars do not change reported features", "statement": "Values of hull_ma, high_low_volatility, corwin_schultz_spread, tick_rule, volume_synchronized_pin and get_daily_volatility for the bars so far stay as they are when bars are added, so no feature looks ahead; Hull averages depend on the last n + floor(sqrt n) - 1 observations, range volatility on its window and the Corwin-Schultz columns on one bar more.", "quantifier": "all series, windows and continuations (index increasing for daily returns; later ticks in later bars for VPIN)", "why_tests_cant": "Every continuation of every series.", "anchors": ["financial_ml/features/filters.py:hull_ma", "financial_ml/features/microstructure.py:high_low_volatility", "financial_ml/features/microstructure.py:corwin_schultz_spread", "financial_ml/features/microstructure.py:tick_rule", "financial_ml/features/microstructure.py:volume_synchronized_pin", "financial_ml/utils/time_series.py:get_daily_volatility"]}
{"id": "C254", "title": "Rank correlation depends on the order only", "statement": "kendall_tau_pval does not change under strictly increasing maps of the variables or under a reordering of the observations; without ties it is 1 exactly for the same and -1 exactly for opposite orders.", "quantifier": "all pairs of lists and all increasing maps", "why_tests_cant": "All monotone maps.", "anchors": ["financial_ml/utils/stats.py:kendall_tau_pval"]}
{"id": "C255", "title": "Residual statistics in reversed time", "statement": "durbin_watson_stat and pearson_autocorr give the same value for the reversed series; the Durbin-Watson statistic is twice one less the share of neighbour products, less the share of the two end squares.", "quantifier": "all series and lags", "why_tests_cant": "Algebraic identity over all series.", "anchors": ["financial_ml/utils/stats.py:durbin_watson_stat", "financial_ml/utils/stats.py:pearson_autocorr"]}
{"id": "C256", "title": "Forward rates chain", "statement": "The implied forward rate over two periods is the length-weighted mean of the rates of the periods; it changes its sign when spot and forward are exchanged or inverted, is independent of the currency, positive exactly when the forward is above the spot and increasing in it; a call and a put of bsm_option_price cost the same exactly when the implied rate of the strike is the interest rate less the yield.", "quantifier": "all positive prices and times", "why_tests_cant": "Identities over reals.", "anchors": ["financial_ml/tools/interest_rate.py:get_implied_forward_rate", "financial_ml/tools/option.py:bsm_option_price"]}
{"id": "C257", "title": "Better prices never lower a label", "statement": "If the highs, lows and closes of the path of a long trade are raised (those of a short trade lowered), the start price kept, then the label that _get_triple_barrier_returns and get_event_labels give the trade is never lowered.", "quantifier": "all sorted price tables with positive start price, limits, events", "why_tests_cant": "Compares two price paths over all paths.", "anchors": ["financial_ml/labeling/triple_barrier.py:_get_triple_barrier_returns", "financial_ml/labeling/triple_barrier.py:get_event_labels"]}
{"id": "C258", "title": "Options, interest rate and yield", "statement": "In bsm_option_price and binom_option_price a higher interest rate or a lower yield raises calls and lowers puts, European or American, also with cash dividends in the formula; for options on futures a higher rate lowers both, the European ones exactly by the discount.", "quantifier": "all positive prices, times and volatilities; trees whose step is fine enough for probabilities in [0,1]", "why_tests_cant": "Monotone in real parameters through a backward induction.", "anchors": ["financial_ml/tools/option.py:bsm_option_price", "financial_ml/tools/option.py:binom_option_price"]}
{"id": "C259", "title": "Better payouts", "statement": "A larger profit or smaller loss lowers strategy_required_precision; these or a higher precision lower strategy_required_freq for a positive target; raising returns never raises strategy_probability_of_failure.", "quantifier": "all profits, losses, frequencies, targets and lists of returns", "why_tests_cant": "Monotone in real parameters.", "anchors": ["financial_ml/risk/strategy_risk.py:strategy_required_precision", "financial_ml/risk/strategy_risk.py:strategy_required_freq", "financial_ml/risk/strategy_risk.py:strategy_probability_of_failure"]}
{"id": "C260", "title": "Roll estimates the bid-ask bounce", "statement": "For trades at the mid price plus or minus half a spread c, averaged over all assignments of buys and sells, the noise variance returned by roll_effective_spread is that of the mid prices less 2c^2(1/(T-1)^2+1/(T-3)), and for a mid price that moves steadily or not at all the average square of the returned spread is at least (2c)^2(T-2)/(T-3).", "quantifier": "for all mid price paths, half spreads and numbers of trades T >= 4", "why_tests_cant": "An expectation over all 2^T assignments of sides, for every T.", "anchors": ["financial_ml/features/microstructure.py:roll_effective_spread"]}
{"id": "C261", "title": "The last data point of a drawdown series is ignored", "statement": "compute_dd_and_tuw gives the same result with and without the last data point, as documented. (It does not: a last value below everything since the last high deepens or adds a drawdown; any other last value changes nothing.)", "quantifier": "for all series with increasing times", "why_tests_cant": "The last value matters only if it is a new low after the last high.", "anchors": ["financial_ml/evaluation/metrics.py:compute_dd_and_tuw"]}
{"id": "C262", "title": "Implied volatilities of related quotes agree", "statement": "A call and a put quoted on parity are both refused or both imply the same volatility; a dearer quote implies a larger volatility; a quote in another currency implies the same volatility.", "quantifier": "for all quotes, parameters and root finders that keep their contract", "why_tests_cant": "All real quotes, compared two at a time.", "anchors": ["financial_ml/tools/option.py:implied_volatility", "financial_ml/tools/option.py:bsm_option_price"]}
{"id": "C263", "title": "Copies of an instrument count once", "statement": "Next to any number of copies of one instrument that the clustering puts together, an uncorrelated instrument gets the weight it has next to a single copy. (It does not: the list is cut in the middle and not where the tree divides. It holds if the cut separates the copies from the rest.)", "quantifier": "for all numbers of copies, variances and linkages", "why_tests_cant": "The cut falls among the copies for some numbers of copies only.", "anchors": ["financial_ml/assets_allocation/HRP.py:_recursive_bisection", "financial_ml/assets_allocation/HRP.py:hrp_allocations"]}
{"id": "C264", "title": "Simulated processes have the right moments", "statement": "With independent shocks of mean 0 and variance 1, simulated geometric Brownian motions have expectation s0(1+mu dt)^i and second moment s0^2((1+mu dt)^2+sigma^2 dt)^i, which tend to those of the continuous process as the steps get finer; the Ornstein-Uhlenbeck process has expectation f+phi^t(p0-f) and variance sigma^2(1-phi^(2t))/(1-phi^2). With an integer random_state the variance is larger.", "quantifier": "for all parameters, numbers of steps and distributions of the shocks", "why_tests_cant": "Expectations over all random histories and a limit.", "anchors": ["financial_ml/utils/simulation.py:gen_geometric_brownian", "financial_ml/utils/simulation.py:gen_discrete_ou_process"]}
{"id": "C265", "title": "A feature better in every tree ranks higher (MDI)", "statement": "If a feature is at least as important as another one in every tree of the forest, get_mean_decrease_impurity gives it at least as large a mean importance. (As written, trees in which a feature has importance zero are left out of its average, so a feature used once can outrank one that is as good there and used elsewhere as well; the claim holds for features used in the same trees.)", "quantifier": "for every forest with non-negative importances, any number of features and trees, and every pair of features", "why_tests_cant": "Random forests that use one column per tree hide the effect; it needs trees that use different features, and a test asserts an order only for particular data.", "anchors": ["financial_ml/explain/feature_importance.py:get_mean_decrease_impurity"]}
{"id": "C266", "title": "The reported error of an MDI importance is the standard error of its mean", "statement": "Relative to the mean importance, the std column of get_mean_decrease_impurity is the standard error of the average over the trees that use the feature: their sample standard deviation over the root of their number. (As written, the root is of the number of all trees, while the deviation and the mean are over the trees that use the feature; the reported error is too small by the root of the fraction of trees that use the feature, and right when all do.)", "quantifier": "for every forest with non-negative importances and every feature used in at least two trees", "why_tests_cant": "The factor is one in every example in which all trees use all features, and no numerical test compares with a standard error.", "anchors": ["financial_ml/explain/feature_importance.py:get_mean_decrease_impurity"]}
{"id": "C267", "title": "MDI depends neither on the order of trees and features nor on the unit of impurity", "statement": "Reordering the trees leaves the result of get_mean_decrease_impurity unchanged; reordering the features moves each row to its new place; multiplying all importances by a positive factor changes nothing.", "quantifier": "for every forest, every permutation of trees and of features and every positive factor", "why_tests_cant": "A test fixes one order; missing entries, the normalisation by the sum and the error column must all be equivariant.", "anchors": ["financial_ml/explain/feature_importance.py:get_mean_decrease_impurity"]}
{"id": "C268", "title": "Shuffled prices have a market meanness index of about three quarters", "statement": "Over all orders of n distinct prices the market meanness index of get_mmi averages 3/4 + 1/(4(n-1)) for even n and 3/4 - 1/(4n) for odd n.", "quantifier": "Every number of distinct prices, every set of distinct prices, all orders.", "why_tests_cant": "The average is over n! orders of arbitrary real prices; a test tries a few random shuffles.", "anchors": ["financial_ml/features/filters.py:get_mmi"]}
{"id": "C269", "title": "Recursive residuals decompose the squared errors", "statement": "The recursive residuals behind the CUSUM test number T - k, and their squares add up to the sum of squared errors of the least-squares fit to all T observations, which no other coefficients make smaller.", "quantifier": "Every number of variables and observations with independent first k rows, all real data.", "why_tests_cant": "An identity of least squares for every design matrix; a test checks one sample up to rounding.", "anchors": ["financial_ml/features/structural_breaks.py:recursive_residuals_cusum_stats"]}
{"id": "C270", "title": "The recursive CUSUM test does not depend on units or on a trend in the variables", "statement": "Scaling y by c and adding any linear combination of the variables leaves the statistics as they are (with the sign of c); replacing the variables by an invertible combination of them changes nothing; data fitted exactly have NaN statistics.", "quantifier": "All real data, factors c other than zero, coefficients and invertible matrices.", "why_tests_cant": "Quantifies over all matrices and all samples.", "anchors": ["financial_ml/features/structural_breaks.py:recursive_residuals_cusum_stats"]}
{"id": "C271", "title": "The recursive CUSUM statistic at a time uses no later observation", "statement": "The statistics of the first observations are the first statistics of a longer sample.", "quantifier": "Every sample and every continuation.", "why_tests_cant": "Look-ahead shows only in comparing runs on all continuations of a sample; it is hidden in the scale of the library.", "anchors": ["financial_ml/features/structural_breaks.py:recursive_residuals_cusum_stats"]}
{"id": "C272", "title": "Fractional differencing weights are accurate in doubles", "statement": "The weights computed in doubles differ from the exact binomial weights by a relative error of at most a fixed number of roundings per lag, for every order.", "quantifier": "Every order and every lag.", "why_tests_cant": "The error must be bounded for every order and every number of lags; a test sees only sampled orders.", "anchors": ["financial_ml/features/frac_diff.py:_get_weights"]}
{"id": "C273", "title": "The sequential bootstrap is never refused by the draw in doubles", "statement": "The probabilities handed to np.random.choice, computed in doubles with any order of summation, are non-negative and pass its check that they add up to one, so that no draw raises.", "quantifier": "Every list of positive average uniquenesses of up to 2^23 events, every order of summation.", "why_tests_cant": "Rounding errors depend on all the values and on the order of summation; no sample shows that none adds up beyond the tolerance.", "anchors": ["financial_ml/labeling/weighting.py:sample_sequential_boostrap"]}
{"id": "C274", "title": "HRP weights in doubles are positive and add up to one", "statement": "Recursive bisection in doubles gives every asset a positive weight not above one, and the weights add up to one.", "quantifier": "Every set of assets and all positive cluster variances that are doubles.", "why_tests_cant": "Quantifies over all covariances and all rounding errors.", "anchors": ["financial_ml/assets_allocation/HRP.py:_recursive_bisection"]}
{"id": "C275", "title": "Every purged fold has training events", "statement": "With two or more folds and at least as many events that do not overlap, every split of PurgedKFold has training events. (False: two events in two folds leave nothing to train on. With half of the events rounded up, two more and the embargo no more than all events, every split has training and test events.)", "quantifier": "all non-overlapping event series, fold counts and embargoes", "why_tests_cant": "fails only for few events or long embargoes", "anchors": ["financial_ml/evaluation/cross_validation.py:PurgedKFold.split"]}
{"id": "C276", "title": "Scores exist for all valid data", "statement": "For an estimator that can be fitted to data that are not empty, timeseries_cv_score returns one score per split of any splitter with usable splits; with the default splitter, non-overlapping events and not too long an embargo it returns one score per fold and get_mean_decrease_accuracy returns one row per feature and a mean score.", "quantifier": "all data, events, fold counts, embargoes, both scorings and all estimators", "why_tests_cant": "no sample of data shows that no valid input raises", "anchors": ["financial_ml/evaluation/cross_validation.py:timeseries_cv_score", "financial_ml/explain/feature_importance.py:get_mean_decrease_accuracy"]}
{"id": "C277", "title": "SADF regressions use at least min_sample_len rows", "statement": "Every regression of sadf_stat uses at least min_sample_len rows, so that the call returns whenever those regressions can be estimated. (False: the shortest has min_sample_len - lags rows, and the call can raise because of it.)", "quantifier": "all series, constants, lags and minimum lengths", "why_tests_cant": "needs lags and a short minimum", "anchors": ["financial_ml/features/structural_breaks.py:sadf_stat"]}
{"id": "C278", "title": "SADF statistics exist exactly if the shortest regression has independent regressors", "statement": "sadf_stat returns exactly if the regressors of the last min_sample_len - lags times are linearly independent; sadf_stat_series exactly if this holds at every time from min_sample_len on. So no series has a statistic if min_sample_len < 2*lags + 1 + number of deterministic terms, and with a constant one flat stretch of that length leaves the whole series without statistics.", "quantifier": "all series, constants, lags and minimum lengths", "why_tests_cant": "an equivalence over all series", "anchors": ["financial_ml/features/structural_breaks.py:sadf_stat", "financial_ml/features/structural_breaks.py:sadf_stat_series"]}
{"id": "C279", "title": "Barriers are touched in doubles when they should be", "statement": "With prices, target and multipliers that are doubles, the event ends, and its return has the sign, computed in double arithmetic, as with exact arithmetic on the same doubles. Refuted: a price of exactly 110 after 100 passes a target of 0.1 in doubles, so that an event that should expire with a loss is closed with a profit. Proved: when no bar comes within a rounding error of a barrier, times, cause and return (up to rounding) are right.", "quantifier": "all price tables, events and multipliers", "why_tests_cant": "rounding only matters for prices that reach a barrier nearly exactly, which random tests do not hit", "anchors": ["financial_ml/labeling/triple_barrier.py:_get_triple_barrier_returns"]}
{"id": "C280", "title": "The sign of a return is right in doubles", "statement": "For positive doubles p and s the double p/s - 1 is positive, zero or negative as p is above, at or below s; so when the touches are found where they are, the label and the meta-label of an event are right, however small the return.", "quantifier": "all positive doubles; all price tables of positive doubles and events", "why_tests_cant": "a statement about all pairs of neighbouring doubles", "anchors": ["financial_ml/labeling/triple_barrier.py:_get_triple_barrier_returns", "financial_ml/labeling/triple_barrier.py:get_event_labels"]}
{"id": "C281", "title": "The CUSUM filter is right in doubles", "statement": "With doubles as values and threshold the events are where the series has moved by more than the threshold since the last event. Refuted both ways: 0.1, 0.6, 0.01 has a missed event at threshold 0.59 and 0.73, 0.97, 3.59 a spurious one at 2.86. Proved: exact for whole multiples of a power of two; right up to an error of (thr + 3D)/2^53 per value, D bounding single moves; exact when no move is within that error of the threshold.", "quantifier": "all series, thresholds >= 0", "why_tests_cant": "rounding errors accumulate over the whole series", "anchors": ["financial_ml/features/filters.py:filter_symmetric_cusum"]}
{"id": "C282", "title": "CUSUM events in doubles keep symmetry and binary scale", "statement": "In double arithmetic the events do not change when the series is negated, nor when series and threshold are multiplied by a power of two.", "quantifier": "all series of rationals, all thresholds (>= 0 for negation), all powers of two", "why_tests_cant": "symmetry of accumulated rounding over all series", "anchors": ["financial_ml/features/filters.py:filter_symmetric_cusum"]}
{"id": "C283", "title": "The fast EWMA in doubles stays within the data", "statement": "Computed in IEEE doubles, every value of fast_ewma lies between any bounds of the values so far. (It does not: the mean of 3 and 3 with span 2 is 2.9999999999999996. Position i is within (i+1)/2^49 of the exact mean, relative to the mean of the absolute values, with and without adjustment; with span 1 the series is returned exactly.)", "quantifier": "for all series of up to 2^46 doubles, all spans from 1, both modes, and every power function making at most n roundings for exponent n", "why_tests_cant": "Rounding errors depend on every digit of the data and accumulate with its length.", "anchors": ["financial_ml/utils/time_series.py:fast_ewma"]}
{"id": "C284", "title": "Concentration of returns in doubles is a number from 0 to 1", "statement": "Computed in IEEE doubles, the concentration of returns is between 0 and 1 as documented. (It is not: five returns of 1% each give -6.9e-17. It is within (n+2)/2^49 of the exact index for n returns of the sign; it is exactly 1 if one position makes all gains; changing all signs exchanges the two indices exactly.)", "quantifier": "for all lists of up to 2^46 returns and every order of addition making at most n roundings for n summands", "why_tests_cant": "Whether the index leaves its range depends on the last bits of the returns.", "anchors": ["financial_ml/evaluation/metrics.py:compute_hhi_returns_concentration"]}
{"id": "C285", "title": "Drawdowns in doubles are the exact ones, rounded", "statement": "Computed in IEEE doubles, drawdowns are reported at exactly the same times as with exact arithmetic; in money each is the exact one rounded, is positive, and the largest is the largest fall rounded; relative ones of positive doubles are positive, at most 1, within 2^-52 of the exact ones, and the deepest is at the exact deepest; times under water have relative error below 2^-51 and whole days are exact.", "quantifier": "for all series of doubles (positive ones for relative drawdowns) and all whole numbers of days below 2^22", "why_tests_cant": "A fall of one unit in the last place must not be reported as a drawdown of zero; all pairs of doubles.", "anchors": ["financial_ml/evaluation/metrics.py:compute_dd_and_tuw"]}
{"id": "C286", "title": "The VWAP of a bar in doubles is between its low and high", "statement": "Computed in IEEE doubles, the VWAP of _compute_bar_stats lies between low and high. (It does not: one trade of 3 at 0.1 gives a VWAP above 0.1 and one of 3 at 0.35 a VWAP below 0.35. It is within (n+1)/2^51 of the exact VWAP for n ticks, and inside the range, the exact one rounded once, for prices and volumes on binary grids.)", "quantifier": "for all lists of ticks with non-negative doubles as prices and volumes, and every order of addition", "why_tests_cant": "Two roundings decide; most prices and volumes in examples, and all powers of two, pass.", "anchors": ["financial_ml/data_structures/bars.py:_compute_vwap", "financial_ml/data_structures/bars.py:_compute_bar_stats"]}
{"id": "C287", "title": "Resampled bars in doubles are the bars of the ticks", "statement": "Computed in IEEE doubles, resampling the bars of consecutive pieces gives the bar of all their ticks. (It does not: VWAP 0.15 instead of 0.15000000000000002 for trades of 2 at 0.3, 3 at 0.1 and, in the second bar, 3 at 0.1. Time, open, high, low and close agree; volume and VWAP are within n/2^51 and 3(n+1)/2^51 of the exact ones for n ticks, and the volume is exact for volumes on a binary grid.)", "quantifier": "for all pieces of ticks with non-negative doubles as prices and volumes, and every order of addition", "why_tests_cant": "Needs a comparison of two computations over all tick lists and cuts.", "anchors": ["financial_ml/data_structures/bars.py:_resample_vwap", "financial_ml/data_structures/bars.py:_resample_bar_stats", "financial_ml/data_structures/bars.py:_compute_bar_stats"]}
{"id": "C288", "title": "Empty periods do not count in the time-weighted return", "statement": "In floats with infinities and NaN, a period that begins with a zero balance and ends with nothing is left out of compute_time_weighted_return: the result is the growth over the periods that begin with a balance, minus one, so a total loss gives -1 whatever follows. Full claim: this holds whenever no period begins or ends with a debt. It is false: a period that begins with nothing and ends with something makes the result infinite, and NaN if another period is a total loss; without debts these are all the cases. Where every period begins with a balance the result is that of the exact model.", "quantifier": "Every table of begin values and cash flows; for the classification, tables without negative balances or values.", "why_tests_cant": "A test checks a few portfolios; an infinite result hides behind rows in which the balance cancels exactly.", "anchors": ["financial_ml/evaluation/metrics.py:compute_time_weighted_return"]}
{"id": "C289", "title": "Hierarchical risk parity with assets that do not move", "statement": "In floats with infinities and NaN: if one of two or more assets has zero variance, _recursive_bisection raises nothing and returns NaN for every asset; and if the returns of one instrument are all the same, hrp_allocations raises ValueError, because scipy refuses distances that are not finite. Full claim: a symmetric positive semidefinite covariance matrix with positive variances gives weights that are numbers. It is false: with two perfectly hedged pairs the code divides zero by zero and every weight is NaN. Partial: if every portfolio has positive variance the weights are numbers, positive, and sum to one. Where the exact model gives weights the floats are the same.", "quantifier": "Every covariance matrix, order of assets, table of returns and clustering function.", "why_tests_cant": "A test with random returns never meets an asset that stands still or a perfect hedge.", "anchors": ["financial_ml/assets_allocation/HRP.py:_recursive_bisection", "financial_ml/assets_allocation/HRP.py:_get_cluster_var", "financial_ml/assets_allocation/HRP.py:_get_inverse_cov_portfolio", "financial_ml/assets_allocation/HRP.py:hrp_allocations"]}
{"id": "C290", "title": "Events that start at a price of zero", "statement": "In floats with infinities and NaN, with prices that are not negative: a long event that starts at an open of zero, with a profit barrier and a target, never stops out and takes profit at the first bar with a positive high, with an infinite return; a short one with a stop never takes profit and stops out at that bar with a return of minus infinity. Full claim: when all prices are numbers and none is negative the return of an event is a number. It is false by these cases. Partial: it holds when the price at the start is not zero. Where the exact model gives an outcome the floats are the same.", "quantifier": "Every sorted price table, event, multipliers and expiry.", "why_tests_cant": "A test uses prices away from zero; the infinite return ends up as label 1 without an error.", "anchors": ["financial_ml/labeling/triple_barrier.py:_get_triple_barrier_returns"]}
{"id": "C291", "title": "RET_PRICES after a close of zero", "statement": "In floats with infinities and NaN: if the raw close of some bar is zero and the adjusted close moves on the next bar, no value of the RET_PRICES column from the next bar on is a number, however prices recover. Full claim: with prices that are numbers and not negative every value of the column is a number. It is false. Partial: if the adjusted close does not move after a close of zero, the value after such a close is NaN and every other value is the product of the factors 1 + change/close of the bars before it whose close is not zero. Where the exact model gives the column the floats are the same.", "quantifier": "Every adjusted and raw close series of the same length.", "why_tests_cant": "A test uses prices away from zero; pandas skips NaN in products but not infinities.", "anchors": ["financial_ml/data_structures/basket.py:adjust_rolled_series"]}
{"id": "C292", "title": "Binomial option prices in doubles", "statement": "With every operation rounded to doubles and library functions exp, sqrt and power that are monotone and positive: if the yield is at most the rate and the drift of a step is at most its volatility, the up probability is from 0 to 1. Then the American price is at least the European and at least the intrinsic value, both are not negative, prices are monotone in the strike and in the spot, all exactly. With n steps the price is within a relative n*2^-50 of exact backward induction on the same tree. Full claim: a put is worth at most its strike. It is false: a put with strike 15 can be worth 15 + 2^-49. Partial: at most the strike times 1 + n*2^-50.", "quantifier": "Every option, rate, volatility and number of steps up to 2^50.", "why_tests_cant": "Tests compare prices with a tolerance; ordering between the styles and strikes is not compared to the last bit.", "anchors": ["financial_ml/tools/option.py:binom_option_price"]}
{"id": "C293", "title": "Average uniqueness in doubles", "statement": "In doubles, with the mean summed in any order and fewer than 2^52 bars, the average uniqueness of a label is above 0 and at most 1, is exactly 1 if and only if no other event overlaps its bars, and is within (b+1)*2^-52 of the exact value for a label over b bars.", "quantifier": "Every sorted bar index and every set of closed events.", "why_tests_cant": "A test sees a few overlaps; that the value never exceeds 1 by a rounding needs all sums of reciprocals in all orders.", "anchors": ["financial_ml/labeling/weighting.py:label_avg_uniqueness"]}
{"id": "C294", "title": "Time decay in doubles", "statement": "In doubles, for positive uniquenesses and -1 + 2^-50 <= oldest_weight <= 1, decayed weights are in the order of time, from 0 to 1, do not fall with time, the newest is exactly 1, and with oldest_weight 1 all are. Full claim: with oldest_weight c from 0 to 1 no weight is below c. It is false: with c = 1/8 and uniquenesses 2^-60 and 25 the older observation weighs 1/8 - 2^-53. Partial: no weight is below c - 2^-50.", "quantifier": "Every series of positive uniquenesses and every oldest weight in the range.", "why_tests_cant": "A test compares weights with a tolerance.", "anchors": ["financial_ml/labeling/weighting.py:apply_time_decay_to_weights"]}
{"id": "C295", "title": "Budgeted position sizes in doubles", "statement": "In doubles, for bars in order and events ordered by start with both sides present and budgets (largest numbers of open long and short events) whose product is below 2^52: each size is from -1 to 1, has exactly the sign of the exact size (zero if and only if equal shares of the two budgets are used), is within 2^-51 of it, and is 1 if and only if the whole long budget and none of the short one is used (-1 likewise). With all sides reversed the sizes change their sign.", "quantifier": "Every bar index and every set of long and short events.", "why_tests_cant": "A test sees a few counts; that equal shares such as 1/3 and 2/6 cancel exactly and unequal ones never do needs all fractions.", "anchors": ["financial_ml/assets_allocation/position_sizing.py:budgeted_position_size", "financial_ml/utils/data.py:fill_index"]}
{"id": "C296", "title": "The holding period in doubles", "statement": "In doubles, for increasing times and any order of summation: the holding period is missing if and only if the position is never reduced, and for a series that ends flat it is within n*2^-48 of the length of the series of the position-days held per size given up (n observations). Full claim: it is between zero and the length of the series. It is false: a position of 0.1 held for three days has a holding period above 3, and one of 0.1 entered after 106 days and left a nanosecond later has a negative one. Partial: it leaves this interval by at most n*2^-48 of the length.", "quantifier": "Every position series with up to 2^48 observations.", "why_tests_cant": "A test compares with a tolerance, and on few series.", "anchors": ["financial_ml/evaluation/metrics.py:compute_holding_period"]}
{"id": "C297", "title": "MDA importances are finite", "statement": "get_mean_decrease_accuracy gives a finite mean importance to each feature whenever the model is not perfect on average. (It does not: if in one fold shuffling a feature makes an imperfect score perfect, the importance of the feature is minus infinity with a NaN error, whatever the other folds say. Otherwise it is the average over the folds whose shuffled score is not perfect, at most 1, and NaN if there are none.)", "quantifier": "all estimators, shuffles, splits and both scorings, with scores bounded by the perfect score", "why_tests_cant": "it takes a fold in which a random shuffle reaches the perfect score", "anchors": ["financial_ml/explain/feature_importance.py:get_mean_decrease_accuracy"]}
{"id": "C298", "title": "Time decay weights every known observation", "statement": "apply_time_decay_to_weights gives a weight from 0 to 1 to every observation with a positive uniqueness, for oldest_weight from -1 to 1, even if some uniquenesses are missing. (It does not: if the newest uniqueness is NaN, or oldest_weight is -1, all weights are NaN. Otherwise a missing uniqueness affects only its own weight: the others are those of the known observations alone.)", "quantifier": "all series of positive or missing uniquenesses", "why_tests_cant": "a NaN in the newest row, or the exact value -1, is not in a sample", "anchors": ["financial_ml/labeling/weighting.py:apply_time_decay_to_weights"]}
{"id": "C299", "title": "Return weights with prices of zero", "statement": "compute_weights_by_returns gives weights that sum to the number of events whenever some event has a return, also if a price is 0. (It does not: a zero price on the last bar of an event, or on the bar before its first, makes the weight of every event away from it 0 and the others NaN. What holds for all prices: no weight is infinite or negative, and all are 0 or NaN or those that are numbers sum to the number of events.)", "quantifier": "all events, counts and prices", "why_tests_cant": "needs a price of zero at the edge of an event", "anchors": ["financial_ml/labeling/weighting.py:compute_weights_by_returns", "financial_ml/labeling/weighting.py:_get_return_attributions"]}
{"id": "C300", "title": "The strategy compute_pbo selects", "statement": "compute_pbo selects, in every choice of partitions, a strategy whose train Sharpe ratio no other exceeds. (It does not: a strategy without returns on the train rows has the Sharpe ratio NaN, np.argmax selects it and np.argsort ranks it best; with one strategy that never trades every logit is the same and the density estimate fails. If every strategy trades on the train rows the claim holds.)", "quantifier": "all return matrices and numbers of partitions", "why_tests_cant": "needs an idle strategy; then the symptom is an error far from its cause", "anchors": ["financial_ml/evaluation/backtest.py:compute_pbo", "financial_ml/evaluation/metrics.py:sharpe_ratio"]}
{"id": "C301", "title": "Events without a forecast in position sizes", "statement": "position_size_from_probabilities takes the average size over the open events that have a forecast, and 0 if there are none. (The average is right, but where no open event has a forecast the size is NaN instead of 0; with step_size 0 all sizes are NaN.)", "quantifier": "all events with missing probabilities, classes or sides", "why_tests_cant": "needs a time at which all open events lack a forecast", "anchors": ["financial_ml/assets_allocation/position_sizing.py:position_size_from_probabilities"]}
{"id": "C302", "title": "Missing values in drawdowns", "statement": "compute_dd_and_tuw ignores missing values. (It does if the first value is present: the result is that of the series without the missing rows. A missing first value is a ValueError, whatever follows.)", "quantifier": "all series with missing values, of any length", "why_tests_cant": "NaN in the first row only arises for real return series, whose first value is often missing", "anchors": ["financial_ml/evaluation/metrics.py:compute_dd_and_tuw"]}
{"id": "C303", "title": "Missing returns in the concentration", "statement": "compute_hhi_returns_concentration gives the concentration of the returns that are present. (It does if at least three are present. With two and a missing one the minimum of three returns is not enforced, the result is the square of (a-b)/(a+b) instead of NaN.)", "quantifier": "all lists of returns with missing entries", "why_tests_cant": "the length check counts missing rows", "anchors": ["financial_ml/evaluation/metrics.py:compute_hhi_returns_concentration"]}
{"id": "C304", "title": "Events without a label in drop_rare_labels", "statement": "After drop_rare_labels, if more than min_classes labels remain each has more than the share min_pct of the returned events. (It has that share of the labelled events only: events without a label are all kept and never counted. The labelled events are treated as if the others were not there.)", "quantifier": "all lists of labels with missing entries", "why_tests_cant": "needs events without a label next to rare labels", "anchors": ["financial_ml/labeling/weighting.py:drop_rare_labels"]}
{"id": "C305", "title": "Spacings that are not positive are refused by sigma_encode", "statement": "sigma_encode raises for every non-empty series if the spacing is not positive. (A spacing of 0 raises a ValueError; a negative spacing is refused with an IndexError exactly if some value is more than 63 spacings above the least one.)", "quantifier": "all series and all spacings that are not positive", "why_tests_cant": "the range of the series and the spacing vary without bound", "anchors": ["financial_ml/features/entropy.py:sigma_encode"]}
{"id": "C306", "title": "Options with a zero strike", "statement": "With a zero strike a call is worth the discounted forward (the limit of the prices for small strikes) and a put nothing.", "quantifier": "all positive spots net of dividends, rates, volatilities, maturities, dividends and yields", "why_tests_cant": "the parameters are real numbers; the behaviour depends on how the spot was computed", "anchors": ["financial_ml/tools/option.py:bsm_option_price"]}
{"id": "C307", "title": "Quotes that imply no bond price", "statement": "implied_risk_free_rate gives the median over the pairs with a positive implied bond price, as if the others had not been quoted. (Pairs with a negative one are ignored. A pair with a bond price of exactly zero counts as an infinite rate: it moves the median, which is infinite once there are as many such pairs as good ones. At expiry the median is an infinity or NaN.)", "quantifier": "all chains of calls and puts with positive strikes, spots, dividends and times", "why_tests_cant": "the median over pairs of any number with bond prices of any sign; infinite rates only arise for exact zeros", "anchors": ["financial_ml/tools/option.py:implied_risk_free_rate"]}
{"id": "C308", "title": "Instruments without weight in a basket", "statement": "An instrument that never has weight does not matter to the value and the volume of basket_to_etf, whatever its prices and volumes. (True if it has a price whenever units are bought and volume on every bar. Bought at a price of zero, even with weight zero, it leaves no later value a number; with a volume of zero the volume of the basket is NaN. If an instrument with weight has no price at first the volume is zero until a rebalance.)", "quantifier": "all baskets of any number of instruments and bars", "why_tests_cant": "needs a zero price or volume at the bar where units are bought; the effect lasts for the rest of the series", "anchors": ["financial_ml/data_structures/basket.py:basket_to_etf"]}
{"id": "C309", "title": "Limit prices are real numbers", "statement": "compute_limit_price returns a real number for every order if the coefficient is positive. (True for targets within the maximum position; an order that adds to a position at or beyond the maximum gets a complex price, whose real part is the forecast. With a negative coefficient position_size_from_divergence raises up to a divergence of sqrt(-w), and returns at least the maximum size beyond it.)", "quantifier": "all positions, maximum positions, forecasts and coefficients", "why_tests_cant": "complex numbers appear without an error, only for positions beyond the maximum", "anchors": ["financial_ml/assets_allocation/position_sizing.py:compute_limit_price", "financial_ml/assets_allocation/position_sizing.py:_inverse_price", "financial_ml/assets_allocation/position_sizing.py:position_size_from_divergence"]}
{"id": "C310", "title": "Negative embargoes", "statement": "A smaller embargo keeps whatever training events a larger one keeps, also below zero, and the training and test sets of a fold of PurgedKFold have nothing in common. (True for embargoes of zero and more. With n bars an embargo of minus s bars is the embargo of n - s bars, so that a slightly negative embargo purges nearly everything after a test; in PurgedKFold.split a negative embargo lets the training set reach back into the test set.)", "quantifier": "all events, bars and embargo fractions of either sign", "why_tests_cant": "A test tries a few positive embargoes; that the negative ones are another positive one holds for every number of bars.", "anchors": ["financial_ml/evaluation/cross_validation.py:_get_embargo_times", "financial_ml/evaluation/cross_validation.py:apply_purging_and_embargo", "financial_ml/evaluation/cross_validation.py:PurgedKFold.split"]}
{"id": "C311", "title": "Raising one return", "statement": "If one return is raised, the Sharpe ratio rises. (True as long as the raised return stays below a mean that is not negative. Raising a good return further can lower the ratio, and as one of n + 1 returns grows without bound the ratio tends to 1/sqrt(n), whatever the others are.)", "quantifier": "all lists of returns and all positions in them", "why_tests_cant": "A claim about every sample and every size of the change, with a limit that no run reaches.", "anchors": ["financial_ml/evaluation/metrics.py:sharpe_ratio"]}
{"id": "C312", "title": "Order and repetition of a sample", "statement": "The order of the observations matters neither to the Jarque-Bera p-value nor to the Sharpe ratio and its probability. A sample repeated k times has the k-th power of the p-value and the same Sharpe ratio; its probabilistic ratio is that of the sample with k times as many observations.", "quantifier": "all samples and all numbers of repetitions", "why_tests_cant": "A test repeats one sample a few times.", "anchors": ["financial_ml/utils/stats.py:jarque_bera_pval", "financial_ml/evaluation/metrics.py:sharpe_ratio", "financial_ml/evaluation/metrics.py:probabilistic_sharpe_ratio"]}
{"id": "C313", "title": "Mixtures of a firm and the market", "statement": "A firm that holds the fraction w of another firm, u of the market and the rest at the risk-free rate has, by _regress_firm_params, beta w*beta + u, sigma |w|*sigma, and w times the intercept alpha - sigma^2/2; measuring against a market levered s times divides beta by s. A firm that holds only the market and cash has no alpha and no sigma. The order and the repetition of the dates do not matter.", "quantifier": "all return histories in which the excess return of the market changes, all fractions", "why_tests_cant": "A regression on one history says nothing about mixtures of all histories.", "anchors": ["financial_ml/features/systematic_default.py:_regress_firm_params"]}
{"id": "C314", "title": "Estimators with a memory", "statement": "The importance of a feature in get_single_feature_importance is what it is when the feature is the only one, and the scores of timeseries_cv_score are out of sample, for every estimator. (True for an estimator whose fit forgets earlier fits: then the table has one row for every feature, in the order of first occurrence, and neither the other features nor their data nor the order matter. The estimator is not cloned between folds and features, so that one that goes on learning is scored on rows it was fitted to.)", "quantifier": "all estimators, data, splitters and lists of features", "why_tests_cant": "The tests use one estimator that forgets.", "anchors": ["financial_ml/explain/feature_importance.py:get_single_feature_importance", "financial_ml/evaluation/cross_validation.py:timeseries_cv_score"]}
{"id": "C315", "title": "Precisions and frequencies that do not exist", "statement": "strategy_required_precision gives a real number for every positive frequency, and strategy_required_freq a number that is not negative, or None. (True for a loss that is not positive and a profit that is not negative, and for precisions between 0 and 1. If the loss is given as a positive number the precision is complex exactly if 4*freq*loss*profit exceeds (target*(profit - loss))^2. At a precision above 1 the Sharpe ratio is imaginary and the required frequency, which the check of the result accepts, negative.)", "quantifier": "all targets, frequencies, precisions and thresholds", "why_tests_cant": "A test does not try a loss with the wrong sign or a precision that is no probability.", "anchors": ["financial_ml/risk/strategy_risk.py:strategy_required_precision", "financial_ml/risk/strategy_risk.py:strategy_required_freq", "financial_ml/risk/strategy_risk.py:strategy_sharpe_ratio"]}
{"id": "C316", "title": "Events at prices below zero", "statement": "A long event takes profit on a bar whose high is above the price at the start, stops out on a bar whose low is below it, and at the expiry has a positive return just if the price has risen. (True if the price at the start is positive. From a negative price, as a roll-adjusted series can have, everything is the other way round: a long event is stopped out by a rise.)", "quantifier": "all price tables, events with a side of 1 and multipliers", "why_tests_cant": "Test prices are positive; the claim is about every table.", "anchors": ["financial_ml/labeling/triple_barrier.py:_get_triple_barrier_returns"]}
{"id": "C317", "title": "Periodic messages are little more complex than constant ones", "statement": "For a message of length n that repeats itself after p symbols: the plug-in entropy with words of length w is at most log2(p)/w; the Lempel-Ziv dictionary has k words with k(k+p) <= 2pn; if p fits into the window and 2p <= n, then the windowed Kontoyiannis estimate is exactly that of a message with a single symbol; with the expanding window it exceeds that by at most (log2 1 + ... + log2 p)/(n//2).", "quantifier": "for all messages over all alphabets, all periods, word lengths and windows", "why_tests_cant": "Bounds over all periods and lengths; samples of periodic messages do not show the rate.", "anchors": ["financial_ml/features/entropy.py:lempelziv_lib", "financial_ml/features/entropy.py:konto_entropy", "financial_ml/features/entropy.py:plugin_entropy", "financial_ml/features/entropy.py:_longest_match"]}
{"id": "C318", "title": "Sizes from the divergence in doubles", "statement": "If the divergence of forecast and market price is a double, then the size int(x (w + x^2)^-0.5 max_size) computed in doubles is the exact size. (Refuted: w = 24, divergence 5, max_size 7 have the size 5 and get 4. Proved: for fewer than 2^49 units and a power that is accurate to one unit in the last place the size is within one unit of the exact one, at most max_size in absolute value, never opposite to the divergence, odd, and exact unless the exact number of units is within max_size 2^-49 of a whole number other than zero.)", "quantifier": "for all doubles, all coefficients w > 0, all sizes below 2^49 and all powers accurate to one unit in the last place", "why_tests_cant": "The loss of a unit happens at isolated inputs only, the ones at which the sigmoid was calibrated among them.", "anchors": ["financial_ml/assets_allocation/position_sizing.py:position_size_from_divergence", "financial_ml/assets_allocation/position_sizing.py:_scaled_sigmoid"]}
{"id": "C319", "title": "Sigma codes in doubles", "statement": "A series of doubles has in doubles the sigma code it has exactly, and a value k spacings above the minimum has symbol number k. (Both refuted: with spacing 0.1 the doubles 0.1 and 0.5 are less than four spacings apart and coded as four, and 0.3 above a minimum of 0 is symbol 2. Proved: every symbol number is right up to a relative error of 2^-53 of the difference, hence within one of the exact number; the code keeps the order; it is exact for values that are whole multiples of a power of two.)", "quantifier": "for all non-empty series of rationals and all spacings above 0", "why_tests_cant": "Rounding errors that matter occur at isolated values, those on the boundaries of the intervals.", "anchors": ["financial_ml/features/entropy.py:sigma_encode"]}
{"id": "C320", "title": "Sizes at the limit price", "statement": "At the limit price of an order the sizing function chooses a position between the current and the target position. (Refuted: selling from 2 to 1 of 4 with forecast 10 and w = 1 the limit price is negative and the size there is 3. Proved: for an order to buy from a non-negative position the size at the limit price is above the current position and at most the target, and a larger order has no higher limit price.)", "quantifier": "for all forecasts, coefficients w > 0, maximal sizes and positions below them", "why_tests_cant": "The limit price is an average of inverse sigmoids; that it lies where the sizing function is between the two positions is a statement on all orders.", "anchors": ["financial_ml/assets_allocation/position_sizing.py:compute_limit_price", "financial_ml/assets_allocation/position_sizing.py:position_size_from_divergence"]}
{"id": "C321", "title": "Default counts in doubles", "statement": "Computed in doubles, the probability of every number of defaults among n firms has a relative error of at most 4 n^2 2^-53, however small it is; it is not negative, and zero only if the exact probability is. The order of the firms does not matter. (The last claim is refuted in doubles: with probabilities 1/2, 1/4 and 0.1 exchanging the last two firms changes the probability of one default. Proved: the results of two orders differ by at most twice the error bound.)", "quantifier": "for all lists of fewer than 2^25 probabilities", "why_tests_cant": "Tail probabilities can lose all their digits in algorithms that subtract; that this one does not, for any number of firms, is a statement on every sequence of roundings.", "anchors": ["financial_ml/features/systematic_default.py:get_default_count_probs", "financial_ml/features/systematic_default.py:get_systematic_default_probs"]}
{"id": "C322", "title": "Repeated trials and the deflated Sharpe ratio", "statement": "Counting every trial k times never raises the deflated Sharpe ratio of a trial, and it raises a positive benchmark. (The first claim is refuted for one column per trial, the default: the number of observations is then taken to be the size of the whole matrix, so copies of the trials make the same returns count as more observations. Proved: the claim for one row per trial, and the claim on the benchmark along both axes.)", "quantifier": "for all matrices of returns, all numbers of copies and both axes", "why_tests_cant": "Adding copies is the way to game a correction for multiple testing; that it never pays is a statement on all matrices.", "anchors": ["financial_ml/evaluation/metrics.py:deflated_sharpe_ratio", "financial_ml/evaluation/metrics.py:probabilistic_sharpe_ratio"]}
{"id": "C323", "title": "Risk of hierarchical risk parity portfolios", "statement": "The returns of the allocated portfolio have no larger sample variance than those of the riskiest instrument; for uncorrelated instruments the variance is the inverse of the sum of the inverse variances, no more than that of each of them; and the portfolio is never riskier than equal weights. (The last claim is refuted for three instruments that move together, and proved for two instruments of any correlation.)", "quantifier": "for all returns, all clusterings and all positive definite covariance matrices", "why_tests_cant": "Whether an allocation reduces risk is a comparison of quadratic forms over all covariance matrices; on random ones it nearly always does.", "anchors": ["financial_ml/assets_allocation/HRP.py:hrp_allocations", "financial_ml/assets_allocation/HRP.py:_recursive_bisection"]}
{"id": "C324", "title": "Vertical barriers of longer holding periods, later events and more bars", "statement": "A longer holding period never gives an event an earlier vertical barrier, nor a barrier to an event without one. Of two events the later has no earlier barrier. Additional bars only bring barriers forward, and bars after a barrier do not move it. (The first claim is refuted for events out of order; all are proved for events in increasing order.)", "quantifier": "for all increasing indices, all event times and all holding periods", "why_tests_cant": "Monotonicity in the parameter and in the data relates infinitely many pairs of runs.", "anchors": ["financial_ml/utils/time_series.py:get_vertical_barriers"]}
{"id": "C325", "title": "Hull moving averages with other aggregates and window weights", "statement": "With every aggregate function the Hull moving average commutes with affine changes of the values; it is missing exactly in the first n + floor(sqrt n) - 2 positions; with maxima it never exceeds the largest value. (The first claim is refuted for sums. Proved: for means, weighted means and medians and all affine changes; for maxima and minima and increasing changes, decreasing ones exchange the two.)", "quantifier": "for all series, all periods n >= 2, all weights with a sum other than zero and all affine changes", "why_tests_cant": "The aggregate function is an argument; the claims hold for some functions and fail for others, which a test of the default does not show.", "anchors": ["financial_ml/features/filters.py:hull_ma"]}
{"id": "C326", "title": "Size of PCA portfolios", "statement": "The default portfolio of pca_weights is the largest (in the sum of the squared weights) of all with a variance up to the square of the risk target, and has the least variance of all at least as large; no distribution of the risk that adds up to 1 gives a larger one. It also has the least variance of all portfolios with the same total weight. (The last claim is refuted: two uncorrelated assets of variances 1 and 4.)", "quantifier": "for all positive definite covariance matrices, eigendecompositions and risk targets", "why_tests_cant": "Optimality over all portfolios.", "anchors": ["financial_ml/assets_allocation/pca_hedge.py:pca_weights"]}
{"id": "C327", "title": "Time-weighted return in doubles", "statement": "In doubles the time-weighted return is that of a growth close to the exact one, in relation to it. (Refuted: a portfolio that falls to 2^-60 of its value and recovers has a return of -1 instead of 0. Proved: within n/2^49 for n periods, none of which loses more than half.)", "quantifier": "for all tables of positive doubles up to a million rows and every order of the product", "why_tests_cant": "Rounding errors of all tables.", "anchors": ["financial_ml/evaluation/metrics.py:compute_time_weighted_return"]}
{"id": "C328", "title": "Range estimators for inverse quotes", "statement": "High-low volatility and the Corwin-Schultz spread and volatility are the same for the inverse quotes. There is a spread exactly where the mean squared range of neighbouring bars exceeds that of the pair, and a volatility exactly where it is less than twice that of the pair. A spread is at most the relative range of the widest bar it is made from. (The last claim is refuted for a window of 2 and proved for a window of 1, the default.)", "quantifier": "for all positive bars and windows", "why_tests_cant": "A symmetry and a sharp bound over all bars.", "anchors": ["financial_ml/features/microstructure.py:high_low_volatility", "financial_ml/features/microstructure.py:corwin_schultz_spread"]}
{"id": "C329", "title": "Return attribution splits each return once", "statement": "With bars in order, positive prices and events ordered by distinct starts, also with gaps between the events: the unnormalised weight of an event in compute_weights_by_returns is the absolute value of its share (return of each of its bars divided by the number of running events); the shares add up to the log return over the bars on which some event runs, and the unnormalised weights add up to the absolute value of that return.", "quantifier": "all bars, prices and events", "why_tests_cant": "an identity over all overlapping patterns of events", "anchors": ["financial_ml/labeling/weighting.py:_get_return_attributions", "financial_ml/labeling/weighting.py:compute_weights_by_returns", "financial_ml/labeling/weighting.py:count_events_per_bar"]}
{"id": "C330", "title": "The yield curve moves with the yields", "statement": "interpolate_yield_curve: the curve of a combination of two sets of yields for the same maturities is the same combination of the two curves; a parallel shift of the yields shifts the whole curve; yields on a cubic polynomial (of degree less than the number of maturities) give that polynomial; measuring maturities in another unit or from another day gives the same yields.", "quantifier": "all maturities, yields and evaluation times", "why_tests_cant": "statements about a function at every maturity", "anchors": ["financial_ml/tools/interest_rate.py:interpolate_yield_curve"]}
{"id": "C331", "title": "The asset price implied by a call", "statement": "implied_asset_price for a Black-Scholes call with a positive price, from a positive first estimate: it returns or raises RuntimeError, and what it returns is a positive asset price at which the call is worth the given price up to the tolerance times the discount factor of the yield; from an estimate above the asset price it returns, given enough iterations, a price not below it; the result is within the tolerance of the asset price.", "quantifier": "all option parameters, prices, estimates, tolerances and iteration counts", "why_tests_cant": "all runs of an iteration over the reals", "anchors": ["financial_ml/tools/option.py:implied_asset_price", "financial_ml/tools/option.py:bsm_option_price"]}
{"id": "C332", "title": "An equity value determines the asset value", "statement": "The equity value used in the default model (_cond_equity_value), for any growth of the assets: every positive equity value belongs to exactly one positive asset value; the larger of two positive equity values belongs to the larger asset value and the smaller default probability; the equity value grows with the asset value.", "quantifier": "all debts, rates, volatilities, maturities and firm parameters", "why_tests_cant": "a statement about all real asset values, with existence and uniqueness of a root", "anchors": ["financial_ml/features/systematic_default.py:_cond_equity_value", "financial_ml/features/systematic_default.py:_d1", "financial_ml/features/systematic_default.py:_d2"]}
{"id": "C333", "title": "Kernel estimates keep the mean of the data", "statement": "The kernel density estimate behind compute_pbo and implied_underlying_distribution: it integrates to one, its mean is the mean of the data and its variance that of the data plus the square of the kernel width; data multiplied by a positive factor and shifted give the distribution moved in the same way; data with opposite signs give the mirrored one; logits that occur as often as their opposites give a probability of overfitting of one half.", "quantifier": "all data", "why_tests_cant": "integrals over the real line, for all samples", "anchors": ["financial_ml/utils/stats.py:KDERv", "financial_ml/evaluation/backtest.py:compute_pbo"]}
{"id": "C334", "title": "What a fixed window leaves out", "statement": "For an order between 0 and 1 and a series bounded by M, each value of frac_diff_fixed differs from the value of frac_diff_expanding for the same time by at most M times the difference of what the two leave of a constant level (attained by a constant series), hence by at most M * threshold * (width + 1) / order; for a series without negative values it is never smaller.", "quantifier": "all series, orders between 0 and 1 and thresholds", "why_tests_cant": "a bound for all series of all lengths", "anchors": ["financial_ml/features/frac_diff.py:frac_diff_fixed", "financial_ml/features/frac_diff.py:frac_diff_expanding", "financial_ml/features/frac_diff.py:_get_weights_fixed"]}
{"id": "C335", "title": "The most correlated instruments become neighbours", "statement": "hrp_allocations: the two instruments with the highest correlation are neighbours in the order that _quasi_diagonalize returns for the clustering of the encoded distance matrix.", "quantifier": "all returns of all numbers of instruments", "why_tests_cant": "a statement about all correlation matrices and the clusterings they lead to", "anchors": ["financial_ml/assets_allocation/HRP.py:hrp_allocations", "financial_ml/assets_allocation/HRP.py:_quasi_diagonalize", "financial_ml/assets_allocation/HRP.py:_corr_to_dist"]}
{"id": "C336", "title": "Volatility on the tree", "statement": "A higher volatility never lowers the price of an option on the binomial tree, call or put, American or European, as long as the lower volatility leaves the up-probability between 0 and 1. So implied_volatility with the tree as pricing function rejects exactly the prices that no volatility of the bracket gives, and otherwise returns a number close to a volatility that gives the price. This volatility need not be the only one: a European call with a strike below the lowest price of the tree is worth the discounted difference of forward and strike whatever the volatility. (Without the condition on the drift the price can fall.)", "quantifier": "for all spot prices, strikes, maturities, rates, yields, volatilities, numbers of steps and brackets", "why_tests_cant": "The comparison is between two different trees and rests on the convexity of the value at every step; a test compares a few pairs of volatilities", "anchors": ["financial_ml/tools/option.py:binom_option_price", "financial_ml/tools/option.py:implied_volatility"]}
{"id": "C337", "title": "A riskier instrument gets less weight", "statement": "Multiplying the returns of one instrument by a factor above one (leverage) lowers its weight in the hierarchical allocation; correlations, tree and order stay as they are. (Refuted for instruments that hedge each other: more volatility can make the hedge better and double the weight. Proved for two instruments, for three without negative covariances and for any number of uncorrelated ones.)", "quantifier": "for all covariance matrices, orders, clusterings and factors above one", "why_tests_cant": "The weight is a product of shares of cluster variances that move in opposite directions", "anchors": ["financial_ml/assets_allocation/HRP.py:_recursive_bisection", "financial_ml/assets_allocation/HRP.py:hrp_allocations"]}
{"id": "C338", "title": "The Sharpe ratio of a mixture of strategies", "statement": "A portfolio that holds two strategies in nonnegative amounts has at least the Sharpe ratio of the worse of the two. (Refuted for losing strategies: two with ratio -2 give a mixture with ratio -6, as less variation makes the loss more certain. Proved for strategies that do not lose.) For uncorrelated strategies the squared ratio of every portfolio, long or short, is at most the sum of the squared ratios, and some portfolio attains it.", "quantifier": "for all pairs of return series and all amounts", "why_tests_cant": "The bound is a comparison over a continuum of mixtures and rests on the Cauchy-Schwarz inequality; a test tries a few mixtures", "anchors": ["financial_ml/evaluation/metrics.py:sharpe_ratio"]}
{"id": "C339", "title": "Default probabilities have no currency", "statement": "Equity and debt stated in another currency (or in millions instead of units) give the same probability of default. (Refuted: a debt below one unit counts as one unit, so a firm that reports in billions gets another probability.) Holds when the debt is at least one unit in both currencies; then fit and create_firm_model estimate the same parameters and asset returns and convert the asset values, and create_firm_model does not depend on the base of the two indices.", "quantifier": "for all firms, parameters, currencies, datasets, tolerances and exact root finders", "why_tests_cant": "Invariance of an iterated estimation under every change of unit; a test tries a few units, usually large ones", "anchors": ["financial_ml/features/systematic_default.py:FirmStructuralCreditRisk.predict_default", "financial_ml/features/systematic_default.py:FirmStructuralCreditRisk.fit", "financial_ml/features/systematic_default.py:create_firm_model", "financial_ml/features/systematic_default.py:_d1"]}
{"id": "C340", "title": "Merging symbols adds no information", "statement": "A code that gives some symbols of another code the same name has no more entropy: neither the plug-in entropy, which stays the same exactly if no two different words become equal, nor the estimate of Kontoyiannis, nor the Lempel-Ziv dictionary grow; a sigma code with a k times as wide spacing has no more plug-in entropy. (Refuted for the dictionary: bbacba has three words, bbabba four; holds if no two or all symbols are merged. Refuted for sigma codes of series beyond the alphabet, which the wider spacing tells apart; holds below.)", "quantifier": "for all messages, mergers of symbols, word lengths, windows, series and spacings", "why_tests_cant": "The claim is about every pair of codes of every message; a test compares a few codes", "anchors": ["financial_ml/features/entropy.py:plugin_entropy", "financial_ml/features/entropy.py:konto_entropy", "financial_ml/features/entropy.py:lempelziv_lib", "financial_ml/features/entropy.py:sigma_encode", "financial_ml/features/entropy.py:_longest_match"]}
{"id": "C341", "title": "Exact bubbles and exact reversion", "statement": "If over the shortest regression of sadf_stat the changes follow the regressors without error, with a positive coefficient of the level, the statistic is +inf whatever came before; if at all times they do with a coefficient that is not positive, it is -inf.  A price growing (shrinking) at a constant rate is such a case, without constant and, around any level, with one.", "quantifier": "all series, minimal lengths, deterministic terms, lags and coefficients", "why_tests_cant": "tests use noisy series, where the division by a standard error of zero does not occur", "anchors": ["financial_ml/features/structural_breaks.py:sadf_stat", "financial_ml/features/structural_breaks.py:_fit_adf"]}
{"id": "C342", "title": "VPIN of merged bars", "statement": "volume_synchronized_pin over n bars, at the last of each n bars, is its value over one bar for the same ticks with each n bars merged into one of n times the volume; it is at most the mean of the one-bar values.", "quantifier": "all ticks with bar ids, bar volumes, n and initial flags", "why_tests_cant": "the equality of two bar constructions is a relation between runs on different frames", "anchors": ["financial_ml/features/microstructure.py:volume_synchronized_pin", "financial_ml/features/microstructure.py:tick_rule"]}
{"id": "C343", "title": "VPIN of the volume bars of the library", "statement": "With the bar ids of aggregate_volume_bars(..., return_bar_id=True) and volume_per_bar = freq, volume_synchronized_pin is a number from 0 to 1.  (A bar may hold up to freq plus its first trade, so values above 1 occur; they are at most 1 plus the largest trade over freq, and at most 1 if all trades have the same size and freq is a multiple of it.)", "quantifier": "all ticks with non-negative volumes, freq, n and initial flags", "why_tests_cant": "needs two modules together and trades that cross a bar limit", "anchors": ["financial_ml/features/microstructure.py:volume_synchronized_pin", "financial_ml/data_structures/bars.py:aggregate_volume_bars"]}
{"id": "C344", "title": "More confident forecasts", "statement": "If every forecast favours a long position at least as much as before (same times, predictions and sides, with a higher probability for a long one and a lower one for a short one), position_size_from_probabilities reports a position no smaller at any time.", "quantifier": "all lists of forecasts with probabilities from 0 to 1, at least two classes, positive steps", "why_tests_cant": "a relation between two runs through averaging and rounding to the step", "anchors": ["financial_ml/assets_allocation/position_sizing.py:position_size_from_probabilities", "financial_ml/assets_allocation/position_sizing.py:_avg_active_positions", "financial_ml/assets_allocation/position_sizing.py:_discretize_position_sizes"]}
{"id": "C345", "title": "One more event in budgeted sizes", "statement": "One more long (short) event never lowers (raises) the size of budgeted_position_size at a bar where it is open, and never raises (lowers) it at any other bar.", "quantifier": "all bars, events in order of start with both sides open somewhere, and positions of the new event", "why_tests_cant": "a relation between two runs, where the new event also changes the normalising maximum", "anchors": ["financial_ml/assets_allocation/position_sizing.py:budgeted_position_size", "financial_ml/labeling/weighting.py:count_events_per_bar"]}
{"id": "C346", "title": "Missing prices and volumes in bars", "statement": "In a volume bar the VWAP lies between low and high even if ticks lack their price or volume, and each known price lies within some bar.  (Both fail: a volume without price counts in the divisor only and pulls the VWAP below the low, to zero without any price; a tick without volume is in no bar.  The VWAP is never above the high, is within the bar if no traded volume lacks its price, and dollar bars are exactly those of the complete ticks.)", "quantifier": "all lists of ticks with missing values, all frequencies", "why_tests_cant": "tests rarely have missing cells, and the claim is about every bar of every stream", "anchors": ["financial_ml/data_structures/bars.py:_compute_vwap", "financial_ml/data_structures/bars.py:_compute_bar_stats", "financial_ml/data_structures/bars.py:aggregate_volume_bars", "financial_ml/data_structures/bars.py:aggregate_dollar_bars"]}
{"id": "C347", "title": "Frequencies that are not positive", "statement": "aggregate_volume_bars refuses a frequency that is not positive.  (It does not: zero gives a single bar of all ticks from the first trade on, and for tick bars one of all but the first tick; a negative frequency gives the bars in reverse order of time.)", "quantifier": "all lists of ticks with non-negative volumes", "why_tests_cant": "the result looks like a bar frame; only its meaning is wrong", "anchors": ["financial_ml/data_structures/bars.py:aggregate_volume_bars", "financial_ml/data_structures/bars.py:aggregate_tick_bars", "financial_ml/data_structures/bars.py:_group_ticks_to_bars"]}
{"id": "C348", "title": "Tick rule with missing prices", "statement": "The tick rule gives every tick with a price the flag it has in the stream of the ticks with a price.  (It does not: the flags that are known are right, but the flag is NaN at a missing price and at the tick after it, and stays NaN as long as the price does not change.)", "quantifier": "all lists of prices with missing ones", "why_tests_cant": "tests of the tick rule have complete prices", "anchors": ["financial_ml/features/microstructure.py:tick_rule"]}
{"id": "C349", "title": "Imbalance bars after a missing price", "statement": "No imbalance bar is larger than max_bar_size, also if prices are missing.  (False: after a missing price the imbalance and the size of the bar are NaN, no comparison holds, and all later ticks are put into one bar.)", "quantifier": "all tick streams, units, limits, spans and initial values", "why_tests_cant": "nothing fails; the bars just stop, and a test stream without gaps cannot show it", "anchors": ["financial_ml/data_structures/bars.py:aggregate_imblance_bars", "financial_ml/data_structures/bars.py:_compute_imbalance_bar_sizes", "financial_ml/features/microstructure.py:tick_rule"]}
{"id": "C350", "title": "Strategies that are best in every split", "statement": "If one strategy is best on all train and test sets, compute_pbo returns a probability of overfitting below one half.  (It does not: all logits are equal and the kernel estimate raises; the same for a strategy that is always best in training and always worst in testing.)", "quantifier": "all performance matrices, evaluation functions, numbers of partitions and strategies", "why_tests_cant": "needs a strategy that wins every split; the test of the repository has one that wins most of them", "anchors": ["financial_ml/evaluation/backtest.py:compute_pbo", "financial_ml/utils/stats.py:KDERv"]}
{"id": "C351", "title": "Runs bars of ticks with missing values", "statement": "Runs bars treat buys and sells alike, also if volumes are missing: turning all prices around leaves the bars as they are.  (False: after a buy without volume there are no more bars unless a maximal size ends them, after a sell without volume there are.)  Tick runs bars keep to their maximal size whatever prices are missing.", "quantifier": "all tick streams, units, limits, spans and initial values", "why_tests_cant": "depends on which argument of max is NaN; both results look like ordinary bars", "anchors": ["financial_ml/data_structures/bars.py:aggregate_runs_bars", "financial_ml/data_structures/bars.py:_compute_runs_bar_sizes", "financial_ml/features/microstructure.py:tick_rule"]}
{"id": "C352", "title": "Range estimators of bars with missing prices", "statement": "The start time that corwin_schultz_spread puts beside an estimate is the time of the first bar of its window, also if bars have missing prices.  (False: rows of incomplete windows are dropped, while the start times are taken from the first bars in order.)  Estimates are there exactly for windows without gap, and do not depend on the missing prices.", "quantifier": "all bars, windows and indexes", "why_tests_cant": "the estimates are right and only the time beside them is not; needs a gap in the middle of the bars", "anchors": ["financial_ml/features/microstructure.py:corwin_schultz_spread", "financial_ml/features/microstructure.py:high_low_volatility"]}
{"id": "C353", "title": "Roll spread of ticks with a missing price", "statement": "The effective spread that roll_effective_spread reports for ticks with missing prices is the spread for some prices in their place.  (False: it is always 0, with the variance of the true price NaN.)", "quantifier": "all price series and sets of missing prices", "why_tests_cant": "a spread of 0 is an ordinary result and no exception is raised", "anchors": ["financial_ml/features/microstructure.py:roll_effective_spread"]}
{"id": "C354", "title": "Price impact regressions with missing values", "statement": "If a price or volume is missing, no number is reported as price impact.  (True for Kyle, which refuses, and for Amihud, which refuses or reports NaN; false for Hasbrouck, for which a missing volume counts as 0.)", "quantifier": "all ticks and bars, all sets of missing values, all least squares solvers", "why_tests_cant": "the number reported looks like any other; depends on how groups skip missing values", "anchors": ["financial_ml/features/microstructure.py:kyle_lambda", "financial_ml/features/microstructure.py:amihud_lambda", "financial_ml/features/microstructure.py:hasbrouck_lambda"]}
{"id": "C355", "title": "VPIN of ticks with missing values", "statement": "VPIN of ticks with missing prices is the VPIN for some prices in their place.  (False: ticks without flag are neither bought nor sold.)  It differs from the VPIN for any such prices by at most the volume without flag over the volume of the window.", "quantifier": "all ticks, bar ids, windows and sets of missing values", "why_tests_cant": "needs a comparison with all prices that could have been in the gaps", "anchors": ["financial_ml/features/microstructure.py:volume_synchronized_pin", "financial_ml/features/microstructure.py:tick_rule"]}
{"id": "C356", "title": "Encoders of series with missing values", "statement": "Missing values do not change the symbols of the other values.  (True of binary codes and of quantile codes fitted on complete data; false if the data of the fit have a gap: then every symbol is 0 and the code has entropy 0.)  sigma_encode refuses missing values.", "quantifier": "all series, fit data, alphabets, thresholds and spacings", "why_tests_cant": "one missing value among the fit data, and the code still looks like a code", "anchors": ["financial_ml/features/entropy.py:QuantileEncoder.fit", "financial_ml/features/entropy.py:QuantileEncoder.transform", "financial_ml/features/entropy.py:binary_encode", "financial_ml/features/entropy.py:sigma_encode"]}
{"id": "C357", "title": "Triple barriers with missing prices", "statement": "An event whose opening price is missing gets no label.  (False with cancel_expired_event: the label is 0.)  Missing prices of later bars never end an event too early: for any prices in the gaps it ends at the same time or before.", "quantifier": "all price tables with gaps, events, sides and barriers", "why_tests_cant": "a crossing hidden by a gap leaves a plausible event; the label 0 is an ordinary label", "anchors": ["financial_ml/labeling/triple_barrier.py:_get_triple_barrier_returns", "financial_ml/labeling/triple_barrier.py:get_event_labels"]}
{"id": "C358", "title": "Return weights with missing prices", "statement": "With some prices missing, the weights by returns are those for some prices in their place.  (False: the move over the gap is lost, and a single event over the gap has the weight NaN instead of 1.)  Events without missing prices are attributed the same returns, whatever prices stand in the gaps.", "quantifier": "all event times, counts and price series with gaps", "why_tests_cant": "skipping NaN in a sum is silent; the remaining weights look ordinary", "anchors": ["financial_ml/labeling/weighting.py:_get_return_attributions", "financial_ml/labeling/weighting.py:compute_weights_by_returns"]}
{"id": "C359", "title": "Returns of fixed-window events with missing prices", "statement": "Every return reported with missing prices is the return for some prices in their place.  (False: a move over a bar without prices is reported as 0.)  An event whose first bar lacks a price has the return NaN; an event without gaps has the same return whatever prices stand in the gaps elsewhere.", "quantifier": "all bars with gaps, windows and options", "why_tests_cant": "the sum skips NaN silently, so that the return is plausible but too small", "anchors": ["financial_ml/labeling/triple_barrier.py:get_fixed_window_events"]}
{"id": "C360", "title": "Hull moving average with missing values", "statement": "hull_ma of a series with missing values is missing at a position if one of the last n + floor(sqrt n) - 1 values is, and elsewhere equals (missing or not) that of any complete series with the same known values.  This holds for every aggregate function.", "quantifier": "all series with gaps, periods of at least 2 and aggregate functions", "why_tests_cant": "a gap in the nested windows lasts longer than the period suggests", "anchors": ["financial_ml/features/filters.py:hull_ma"]}
{"id": "C361", "title": "Basket values with missing prices", "statement": "The values of basket_to_etf with missing prices are NaN or those for some prices in their place.  (False: fillna(0) also drops the price changes to and from a missing close, so that an instrument that doubles over a gap leaves the value unchanged.)  Until the first gap the values are those for any prices; a missing opening price after a rebalance makes all later values NaN.", "quantifier": "all baskets with missing opening and closing prices, weights and rebalancing bars", "why_tests_cant": "the value series has no visible gap; only the level is wrong", "anchors": ["financial_ml/data_structures/basket.py:basket_to_etf"]}
{"id": "C362", "title": "Time-weighted return with missing values", "statement": "The time-weighted return of a portfolio with missing values is that for some values in their place.  (False: a portfolio that doubles over a missing value is reported to return 0.)  A row without value or cash flow cuts the portfolio in two: the growth is that until there times that of the rows after.", "quantifier": "all portfolios with missing values and cash flows", "why_tests_cant": "product skips NaN silently; the return is a plausible number", "anchors": ["financial_ml/evaluation/metrics.py:compute_time_weighted_return"]}
{"id": "C363", "title": "Bet timings and holding period with missing positions", "statement": "With missing positions the timings of bets and the holding period are those for some positions in the gaps.  (False for both: a flip over a gap is reported at no time; a position opened in a gap is taken as held since the start.)  Times at known positions after known ones are right, and positions missing at the end count as the last one kept.", "quantifier": "all series of positions with gaps", "why_tests_cant": "comparisons with NaN are false, so that a wrong branch is taken silently", "anchors": ["financial_ml/evaluation/metrics.py:get_position_timings", "financial_ml/evaluation/metrics.py:compute_holding_period"]}
{"id": "C364", "title": "Rolled series with missing prices", "statement": "Every adjusted price of a bar with known close is that for some prices in the gaps.  (False: with match_end and no close at the last bar but one, all adjusted prices are NaN even if nothing was rolled.)  It holds if the opens at the rolls, the closes before them and, for match_end, the close of the last bar but one are known.  Without the prices at the rolls nothing is removed and the raw prices come back.", "quantifier": "all bars with gaps, contract series, columns and both ends", "why_tests_cant": "one NaN, far from the bar looked at, decides about the whole series", "anchors": ["financial_ml/data_structures/basket.py:_compute_roll_gaps", "financial_ml/data_structures/basket.py:adjust_rolled_series"]}
{"id": "C365", "title": "Daily volatility of closes with missing values", "statement": "In get_daily_volatility exactly the daily returns to or from a missing close are missing; the other returns are those for any closes in the gaps.  At a bar whose return is missing the volatility of the bar before is repeated.  Volatilities up to the first missing return do not depend on the gaps.", "quantifier": "all series of closes with gaps and distinct times, spans above 1, daily and intraday data", "why_tests_cant": "pandas keeps ageing the weights at a gap, which must leave the corrected deviation as it was", "anchors": ["financial_ml/utils/time_series.py:get_daily_volatility"]}
{"id": "C366", "title": "The fast EWMA of a series with missing values", "statement": "fast_ewma with adjust=True equals the exponentially weighted mean of pandas, in which missing values have no weight.  (False with gaps: the fast mean is NaN from the first missing value on.)  Until the first missing value both agree.", "quantifier": "all series with gaps and spans of at least 2", "why_tests_cant": "the docstring promises pandas semantics; the compiled loop never recovers from one NaN", "anchors": ["financial_ml/utils/time_series.py:fast_ewma"]}
{"id": "C367", "title": "The ADF regression for prices with missing values", "statement": "In the design of the SADF regressions every row explains a change of the price by the price just before it.  (False with gaps: changes to and from a gap are dropped, but the levels are taken by position from the end of the raw series, so that before a gap a change is paired with the level two bars later or with NaN.)  The rows after the last gap are right, and without gaps the design is that of C119.", "quantifier": "all series with gaps, numbers of lags and deterministic terms", "why_tests_cant": "the regression still runs and gives a plausible statistic", "anchors": ["financial_ml/features/structural_breaks.py:_get_yx"]}
{"id": "C368", "title": "The CUSUM test on levels for values with gaps", "statement": "The statistic of levels_cusum_stats at a time is NaN if a value until then is missing, also one before the reference level; otherwise it and its p-value are those for any numbers in the gaps.", "quantifier": "all series with gaps and reference indices", "why_tests_cant": "one gap anywhere in the past, even before the reference, ends the series of statistics", "anchors": ["financial_ml/features/structural_breaks.py:levels_cusum_stats"]}
{"id": "C369", "title": "Probability of failure for returns with missing values", "statement": "strategy_probability_of_failure with missing returns is that of the known returns.  (False: a missing return counts as a bet but neither as a gain nor as a loss, so that the precision is too low; with a gain and a loss the reported probability is strictly higher.)", "quantifier": "all lists of returns with gaps, positive frequencies and targets", "why_tests_cant": "the number of bets and the selections silently disagree about NaN", "anchors": ["financial_ml/risk/strategy_risk.py:strategy_probability_of_failure"]}
{"id": "C370", "title": "Residual statistics of series with missing values", "statement": "pearson_autocorr of a series with missing values is that of its known values, and durbin_watson_stat is missing as soon as one residual is.  (The first part is false: values are paired with the row lag positions before, and a pair with a missing value is dropped, so only missing values before the first and after the last known value do not matter.)", "quantifier": "all series with gaps and all lags", "why_tests_cant": "the pairing after a gap differs from that of the shortened series, and tests use complete series", "anchors": ["financial_ml/utils/stats.py:pearson_autocorr", "financial_ml/utils/stats.py:durbin_watson_stat"]}
{"id": "C371", "title": "Purging has no direction", "statement": "Without embargo the same events are purged in reversed time, and purging is mutual: an event is kept by the test intervals exactly if all of these are kept by the event.  (The second part is false for events that have not ended: such an event is purged by a test interval in which it starts but, as a test interval, purges nothing that starts before it.)", "quantifier": "all lists of events and test intervals", "why_tests_cant": "tests check a few overlaps in one direction of time", "anchors": ["financial_ml/evaluation/cross_validation.py:_get_purged_train_indices", "financial_ml/evaluation/cross_validation.py:apply_purging_and_embargo"]}
{"id": "C372", "title": "Market meanness index of a series with missing values", "statement": "get_mmi of a series with missing values is that of its known values.  (False whatever the compiled median makes of NaN: the steps to and from a missing value are never counted in the numerator but always in the denominator, so the index is at most the fraction of steps between known values, and 0 if the median is NaN.)", "quantifier": "all series with gaps, every behaviour of the median on NaN", "why_tests_cant": "numerator and denominator silently disagree about NaN, and the result is still a number between 0 and 1", "anchors": ["financial_ml/features/filters.py:get_mmi"]}
{"id": "C373", "title": "Strategies with missing returns in compute_pbo", "statement": "compute_pbo selects on the train rows a strategy that no strategy with known returns beats.  (False: one missing return makes the Sharpe ratio NaN, and argmax takes NaN for the maximum, so the first strategy with a missing return on the train rows is selected.)", "quantifier": "all matrices of returns with gaps, all choices of partitions, all sorting functions", "why_tests_cant": "the selection is internal, and the probability returned looks like any other", "anchors": ["financial_ml/evaluation/backtest.py:compute_pbo", "financial_ml/evaluation/metrics.py:sharpe_ratio"]}
