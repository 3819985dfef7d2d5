# Formal model of ndt93/FinancialML in Lean 4

This directory holds a Lean 4 model of the Python package in `/repo/financial_ml`, a small
independent specification of what a user relies on, and machine-checked proofs relating the two.
The list of properties is `properties.jsonl` (C01, C02, ...), the state of each one is
`MANIFEST.json`, and the mutation record is `seeded/LOG.jsonl`.

## 1. Layout

* `lean/Verif/Py/*.lean` - Python / numpy / pandas primitives used by more than one area.
* `lean/Verif/<Area>/Model.lean` - the code, function by function, each definition citing
  file and lines in `/repo`.
* `lean/Verif/<Area>/Spec.lean` - what the user expects, written without using the model.
* `lean/Verif/<Area>/Lemmas.lean` - helper lemmas.
* `lean/Verif/<Area>/Props.lean` - property theorems only (`C07_...`), each followed by an
  `example` showing that a concrete, non-trivial case satisfies its hypotheses.
  An area with several source files has several pairs of files, e.g. `Options/BsmModel.lean` and
  `Options/BsmProps.lean`.
* `lean/Verif/Conformance/*.lean` - the repository's own tests, replayed on the model (see section 2).
* `lean/Verif/Axioms.lean` - `#print axioms` for the property theorems.

Names: a theorem `Cnn_...` proves property Cnn.  If the code violates part of the property,
the negation is proved with a concrete witness (`Cnn_..._counterexample`) and the part that
does hold is a theorem whose name ends in `_partial`.

## 2. Trusted base

* The Lean 4.33.0 kernel, and the axioms `propext`, `Classical.choice`, `Quot.sound`
  (checked per theorem in `Verif/Axioms.lean`).  No axiom is added; no `sorry`, `native_decide`
  or `bv_decide` is used.
* The reading of the Python code.  The code is not executed; the tie is the citation on every
  definition.
* The reading of pandas / numpy / scipy / numba semantics as recorded in the comments of
  `Verif/Py` and of each model: `cumsum`, `diff`, `searchsorted`, label slicing (inclusive on
  both ends), `groupby` (groups sorted by key, order inside a group kept), `reindex(bfill)`,
  `rolling`, alignment of two Series on a union index, truth of `NaN` comparisons (false).
* **Numbers.**  Prices, volumes and returns range over an arbitrary linearly ordered field `K`
  (so over ℚ and ℝ), or over ℝ where `sqrt`, `exp`, `log` or the normal cdf occur.  Floating
  point rounding is NOT modelled, with the exceptions that are about rounding (C45, C212, C213,
  C245, C272-C274, C279-C287 and C292-C296, IEEE doubles on ℚ).  `inf` is an explicit value only where the code uses it (`max_bar_size=np.inf` is
  `none`, i.e. no bound).  `NaN`/`NaT` are `Option.none`.
  C288-C291 and C297-C300 redo eight computations with explicit `inf` and `NaN` (`FinML.Flt`, `Verif/Py/Float.lean`): what the
  code returns where the exact model only says `unmodelled` because of a zero divisor.  There a zero divisor counts as `+0`.
* **Time.**  Timestamps and durations are integers (pandas stores nanoseconds as int64); int64
  overflow is not modelled.
* **Randomness and solvers** (`np.random`, `brentq`, `newton`, OLS of statsmodels, `eigh`,
  `linkage`, KDE, `UnivariateSpline`, `CubicSpline`, `adfuller`, tree learners) are parameters.  Theorems hold for every
  behaviour of the parameter, or for every behaviour meeting a contract stated as hypothesis.
* **Exceptions** are values of `Except PyErr`.  A branch that raises in the code raises in the
  model; theorems are stated for the successful result and the failing inputs are
  characterised where the property is about them.

* **Library formulas** taken from the documentation: `Series.autocorr`, `durbin_watson`, `jarque_bera`,
  `kendalltau` (tau-b), `ewm(...).std()` (the loop of pandas), `gaussian_kde` (Scott's factor), `rv_continuous.cdf` (integral of the density),
  `RecursiveLS(...).cusum` (recursive residuals and their scale), the check of
  `np.random.choice` that probabilities add up to one (Kahan sum, tolerance 2^-26), the secant loop of
  `scipy.optimize.newton` (C331 only; elsewhere `newton` is a parameter).

**Checking the reading.**  `lean/Verif/Conformance/*.lean` replays the repository's own tests on the model: the
inputs of `/repo/test` are given to the model's functions, evaluated by the kernel over ℚ, and compared with
the values that the tests assert (labels, weights, purged and combinatorial splits, encoders, CUSUM, Hull
average, fractional differencing, ADF design matrix, tick rule, position timings, drawdowns, rolls, baskets).
Tests with irrational values (return distributions, strategy risk, HRP distances, forward rates) are replayed as
proved bounds of the precision that the test asserts; resampled bars are replayed too.
These files are tests of the reading, not proofs of properties, and no claim refers to them.

Not modelled: the Shapiro-Wilk and Dickey-Fuller p-values of `utils/stats.py` (calls of a library), plots,
`__repr__`, dtype effects (e.g. numba's refusal of int64 arrays), performance, threads.

## 3. Plan for each property

M = what is modelled, P = how it is proved.

### Bars (`Verif/Bars`; bars.py, microstructure.tick_rule, time_series.fast_ewma)
* C01 M: `_compute_bar_stats`, `_compute_vwap` on a list of ticks. P: induction for max/min/sum bounds; vwap by weighted mean inequality.
* C02 M: `_group_ticks_to_bars` as sort-unique of ids plus filter. P: sums over a partition by key; contiguity by induction on nondecreasing id lists.
* C03 M: id = index // freq. P: blocks of `List.take/drop`, arithmetic of `/`.
* C04 C05 C06 M: id = floor(cumulative / freq). P: monotone floor; counterexample by evaluation for C05.
* C07 C08 C09 C10 M: `_compute_imbalance_bar_sizes` as a fold over ticks with the same state variables. P: loop invariant; spec is a declarative "closes first when".
* C11 C12 M: `_compute_runs_bar_sizes` as a fold in `Except`. P: same invariant; witness for the failing stream.
* C13 M: `fast_ewma` both branches. P: closed form by induction, bounds by weighted mean.
* C244 M: as C13. P: from the closed form and the recursion; geometric sums.
* C14 M: `_resample_bar_stats`. P: homomorphism of open/high/low/close/sum/weighted mean under concatenation.
* C15 M: `Grouper` bins floor(t/interval) from first to last. P: bins partition; raise iff empty bin.
* C215, C216 M: as C01-C04, C14. P: runs of equal keys under appending and under integer division of the keys; homomorphism of C14.
* C125 C126 C152 M: arguments of the aggregate functions, sign-reversed streams. P: evaluation of a witness; first-time rule as in C07-C12.
* C168 M: ticks with rescaled price and volume. P: equivariance of each loop step under the factor.
* C178 M: the runs loop with the quantity column looked up by row label. P: labels that are positions; pigeonhole for the accepted labels; witness.
* C179 C180 C181 M: as C07-C12. P: from the first-time rule; witnesses.
* C182 C183 C184 C185 M: the ETF loop of basket.py. P: invariance and telescoping along the loop; witnesses.

### Basket (`Verif/Basket`; basket.py)
* C16 C17 C18 M: loop as recursion over bars, instruments as a finite list of functions. P: induction on t; scale invariance by cancelling row constants.
* C19 C20 C21 M: first occurrences, gaps, cumsum, iloc[-2]. P: telescoping; counterexamples by evaluation.
* C127 C128 M: as C16-C21. P: witness with a contract that returns; algebra of tradable units.

### Labels (`Verif/Labels`; triple_barrier.py)
* C22-C27 M: price table as sorted list of rows, label slice, barrier scan, concat alignment. P: first-index characterisation; locality from filter congruence; counterexamples by evaluation.
* C28 C29 M: searchsorted alignment, sums of log diffs (ℝ, or abstract log values). P: telescoping sums; counterexample.
* C129 C130 M: side assertion, back-filled expiry. P: witnesses; partial results under exact expiries.
* C174 M: as C22-C27. P: every step commutes with a strictly increasing map of times and a factor on prices.
* C231 M: as C22-C27. P: crossings of the two sides exchanged; witnesses.
* C237 M: as C22, C30, C33, C37, C53. P: prices unchanged by filling on the index; the properties of the parts.
* C257 M: as C22-C27. P: hits of the barriers compared at the first touch; witness of a short trade that expires.
* C186 M: as the fixed windows. P: a window without a bar makes the return lookup fail; the window of the last bar is one.
* C167 M: events composed with the splitters of `Verif/CV`. P: locality of the barrier scan up to the end, disjointness from purging.

### Time series helpers (`Verif/TimeSeries`)
* C30 C31 M: searchsorted + positional pairing. P: monotonicity of searchsorted; counterexamples.
* C166 M: the pandas loop of `ewm(span).std()`, labels of the result. P: loop invariant against weighted sums; counterexample.

### Weighting (`Verif/Weighting`; weighting.py)
* C32 C33 C34 M: counts by in-place increments over label slices, reindex, means. P: counting lemmas, double counting of (event, bar) incidences.
* C35 M: loop with the random draw as a parameter that returns some column. P: induction over draws.
* C273 M: quotients by a rounded sum in any order, the Kahan sum of numpy. P: relative errors of the sum, error of the compensated loop.
* C246 M: as C35. P: Chebyshev sum inequality; one more event on a bar lowers its share.
* C36 C37 C38 M: direct. P: algebra; well-founded recursion on number of classes.
* C131 C132 M: row labels as keys, decay line. P: witnesses; equality under unique start times.
* C175 M: as C32-C36. P: as C174, and logarithms of ratios.
* C187 C188 C189 M: as C32-C36. P: bars listed as an interval of the index; sign of the slope; returns as functions of two bars; witnesses.
* C230 M: as C36, C41. P: bars covered by a train event lie outside the test interval; witnesses.
* C239 M: as C38. P: the same sequence of lists, stopped earlier or later.

### Cross validation and backtests (`Verif/CV`; cross_validation.py, backtest.py)
* C39-C43 M: interval masks, embargo map, array_split, searchsorted. P: order reasoning; counterexample for C43.
* C219 M: as C39. P: the fold of masks as one filter; the embargo map test by test.
* C249 M: as C39-C47. P: floor of a larger share; masks under inclusion.
* C229 M: as C39, C41, C60. P: positions in a sorted index; windows of the fixed differences.
* C236 M: as C48 and C161. P: ranks shift by one under an added worst column; monotone logit; logits move closer, so the
  kernel narrows; the probability is refuted at two logits and bounded when no logit is negative.
* C223-C225 M: as C53, C57. P: greedy segmentation against any cuts; sums of ramps.
* C232 M: as C98. P: shift invariance of central moments; monotone quotient; witness.
* C242 M: as C93. P: products over consecutive rows.
* C226 M: as C95. P: blocks of high-water marks under appending.
* C261 M: as C95. P: the blocks of high-water marks with one more value.
* C227 M: as C72. P: uniqueness of the parse.
* C228 M: as C22. P: sets of crossings under inclusion.
* C217 C218 M: as the concurrency count and the sequential bootstrap. P: termwise comparison of 1/count sums; witness of four events for C217.
* C44-C47 M: itertools.combinations, group bounds, path matrix filled by counters, iterators as interleaved operations. P: combinatorics of sublists; invariant over histories.
* C45 M: exact arithmetic and an IEEE-double rounding on ℚ. P: floor identities; witness evaluated by the kernel; the rounding is nearest, ties to even.
* C210, C211 M: as C41. P: one fold with missing ends and any embargo; witnesses.
* C213 M: running sums with the double rounding of C45. P: induction on the sum; error bound of i+2 roundings.
* C245 M: discretised sizes with the rounding of C45, both signs. P: error of one rounding, uniqueness of the nearest integer.
* C279, C280 M: the triple barriers with the double rounding of C45. P: error of two roundings against the margin; ratio of two doubles over a common unit.
* C281, C282 M: the CUSUM filter with the double rounding of C45. P: each sum tracks the rise since its own reset up to one error per value; negation swaps the two sums.
* C283 M: `fast_ewma` with the double rounding of C45, the power a parameter. P: count roundings as factors between (1-2^-53)^k and its reciprocal; weights are a positive sum, so a factor; the weighted sum is within the same factor of the sum of absolute values.
* C284 M: the concentration index with the double rounding of C45, the order of addition a parameter. P: the same count of roundings; 1 - 1/n loses at most two.
* C285 M: drawdowns with the double rounding of C45; grouping and comparison are exact. P: rounding is monotone; the ratio of two different doubles never rounds to one.
* C286 C287 M: bar statistics and resampling with the double rounding of C45, the order of addition a parameter (any tree of rounded additions). P: count of roundings as in C283; on a binary grid every partial sum is a double.
* C288 C289 C290 C291 M: time-weighted return, recursive bisection and `hrp_allocations`, triple barriers and RET_PRICES with explicit infinities and NaN; finite numbers exact. P: agreement with the exact models by induction; NaN and infinities absorb; witnesses.
* C292 C293 C294 M: binomial prices, average uniqueness and time decay with a rounding after every operation; exp, sqrt and power as parameters with contracts. P: monotonicity of the rounding and `x*(1+d)` factors by induction over the tree; reciprocals at most one add to at most the count; `1 - a + a` rounds to 1; agreement with the exact models when nothing is rounded.
* C295 C296 M: budgeted sizes and holding period with a rounding after every operation. P: fractions of counts differ by more than two roundings; the loop in doubles follows the exact one with factors near 1 on the entry time, and every term of a rounded sum has its own factor.
* C297 M: importances of `get_mean_decrease_accuracy` with numpy's division by zero, skipped NaN, infinite means. P: cases of the row of a feature, agreement with the exact model, finiteness refuted.
* C298 M: time decay with missing uniquenesses (NaN skipped by `cumsum`) and infinite slopes. P: which weights are NaN, the others as without the missing ones.
* C299 M: weights by returns with log 0, zero counts, skipped NaN. P: cases of the weights for all inputs, one zero price, agreement with the exact model.
* C300 M: the row and the table of compute_pbo with NaN and infinite Sharpe ratios. P: first NaN in argmax, NaN last in argsort, the case of an idle strategy, agreement with the exact model.
* C301 M: position sizes with missing probabilities, classes and sides. P: skipping mean over the known sizes; witness.
* C302 M: expanding maximum, groupby and drop_duplicates with missing values. P: induction on the rows, number of distinct values with and without the missing one.
* C303 M: concentration with missing returns. P: cases of the two lengths.
* C304 M: loop of drop_rare_labels on optional labels. P: induction on the iterations against the loop of C38.
* C305 M: `sigmaEncode` total in the spacing, numpy indices counted from the end (`npIndex`). P: floor and ceiling of a quotient with a negative divisor, `mapM` of functions with one kind of error.
* C306 M: as C108, with numpy's division where cash dividends have made the spot a numpy number. P: infinite `d1`, bounds of C109 for the limit.
* C307 M: `impliedRiskFreeRateE`, rates as extended reals, NaN as `none`. P: the sorted rates are the sorted good ones followed by infinities; the median by comparing the counts.
* C308 M: `basketToEtfF`, the loop of C16 in floats with infinities and NaN. P: the number part commutes with every operation (divisors are numbers); induction on the bars.
* C309 M: limit prices as complex numbers (`computeLimitPriceC`), `int` of a complex number raises. P: sums of real and of imaginary parts.
* C310 M: `_get_embargo_times` with a negative step (slices from the end). P: entries of the zipped list, then C40 and C42.
* C311 M: the model of `sharpe_ratio` (Metrics/SharpeModel). P: mean and variance after an insertion; limit of a quotient of polynomials.
* C312 M: Metrics/SharpeModel and `jarqueBeraPval` of Stats/Model. P: sums over a flattened `replicate`, permutations of sums.
* C313 M: as C147. P: the least-squares line is unique (midpoint argument), so the transformed line is the fitted one.
* C314 M: `get_single_feature_importance` with the state of the estimator and `.loc` assignment of rows (`sfiS`). P: the loop is `mapM` over the features without repetitions if fits forget.
* C315 M: strategy_risk.py with complex roots. P: factorised discriminant; the two imaginary roots of the check cancel.
* C316 M: as C22. P: the sign of `p/s0 - 1` for a negative `s0`.
* C317 M: as C71-C73. P: a window equals the window at its start modulo p, so at most p words of each
  length; counting words by length for the dictionary.
* C318 M: `_scaled_sigmoid` with rounded operations, the power `** -0.5` a parameter (`Alloc/DivDoubleModel`).
  P: counting roundings (`Near`), square root of the factor of the base, truncation of near numbers.
* C319 M: `sigmaEncode` with a rounded difference (`Entropy/SigmaDoubleModel`). P: monotonicity and relative error of
  the rounding, floors.
* C320 M: as C86, C89. P: the mean of the divergences of the steps lies between the first and the last; the sigmoid is
  monotone.
* C321 M: the convolutions with rounded operations (`Default/CountDoubleModel`). P: levels of roundings per entry of the
  vector, at most one more per row; at most 2n² - 1 for n firms by induction over the merges.
* C322 M: as C140. P: repetition keeps the moments, the expected maximum grows with the number of trials, the cdf is monotone.
* C323 M: as C80. P: Jensen's inequality for a long-only portfolio; closed form for two instruments; witness.
* C324 M: as C30. P: least elements of nested sets.
* C325 M: `hullMa` with the aggregate function as an argument (`Filters/HullAggModel`). P: equivariance of each aggregate,
  then of the composition; windows of windows.
* C326 M: as C82. P: expansion in the orthonormal eigenvectors; witness of two assets.
* C327 M: `timeWeightedReturnR` (`Metrics/TwrDoubleModel`), with rounding and product as arguments. P: counting roundings;
  the return of a period that loses at most half keeps its relative accuracy.
* C328 M: as C60, C61. P: alpha and sigma in closed form as differences of roots.
* C329 M: `returnAttributions` with the counts of `countEventsPerBar`. P: sum over bars exchanged with sum over events; one sign; witness.
* C330 M: `interpolateYieldCurve`. P: not-a-knot splines are closed under combinations and changes of unit; uniqueness from the contract.
* C331 M: `newtonSecant`, the loop of scipy's secant method. P: chords of an increasing convex function; limit of the call at zero volatility for the witness.
* C332 M: `condEquityValue` (in place). P: derivative of the equity value; the ratio of the normal distribution function to its density increases; intermediate values.
* C333 M: `gaussianKde`, `Kde.pdf`, `Kde.cdf` (in place). P: Gaussian integrals kernel by kernel.
* C334 M: in place. P: the dropped lags have negative weights that add up to a telescoping product.
* C335 M: `quasiDiagonalize` (in place); single linkage of row distances as a relation. P: the first merge stays together in the leaves; four directions on a circle as witness.
* C336 M: `binom_option_price`, `implied_volatility` over a tree. P: a wider tree spreads the same mean, and values are
  convex, so prices rise with the volatility; the solver rejects exactly the prices outside the range of the bracket;
  deep in the money calls do not feel the volatility.
* C337 M: `_recursive_bisection`, `hrp_allocations` of levered returns. P: order unchanged; the weight of the levered
  instrument falls for two, for three without negative covariances and for uncorrelated instruments; refuted for hedges.
* C338 M: `sharpe_ratio` of a mixture of two return series. P: a long-only mixture is no worse than the worse strategy
  (refuted for losing strategies); bound for uncorrelated strategies.
* C339 M: `predict_default`, `fit`, `create_firm_model` with an exact root finder. P: no dependence on the currency (refuted
  by `max(1, debt)`; proved for debts of at least one unit), nor on the bases of the indices.
* C340 M: entropies of a message and of its image under a map of the symbols. P: plug-in and Kontoyiannis entropies do
  not grow; Lempel-Ziv dictionary and wider spacings refuted, proved in part.
* C341 M: `sadfStat` (Breaks/Model). P: a specification `Follows` of changes without error; uniqueness of the least-squares coefficients (`Independent`) gives the coefficient of the level, the squared error is 0, the quotient is infinite.
* C342 M: `vpin` (Micro/Model). P: `merged` relabels the bars by rank // n; the imbalance of a merged bar is the sum of those of its parts.
* C343 M: `aggregateVolumeBars` (Bars/Model) followed by `vpin`. P: the runs of C04 bound the volume of each bar; refuted as stated, see section 4.
* C344 M: as C86. P: the size of an event is monotone in its probability, averages and rounding to the step keep order.
* C345 M: as C83. P: one insertion raises the count at open bars and the maximum by at most one each; the ratio r/m grows with both.
* C346 M: bar statistics and bar ids with NaN as `none` (Bars/MissModel). P: the rows with an id are those of the filtered frame; grouping commutes with monotone renaming of ids; refuted as stated, see section 4.
* C347 M: the same, with infinite ids for `freq = 0`. P: all ids equal give one group; falling ids reverse the groups; refuted as stated, see section 4.
* C348 M: `tick_rule` with NaN as `none` (Bars/MissFlowModel). P: induction on the stream; flags that are known agree with those of the filtered stream; refuted as stated, see section 4.
* C349 M: the imbalance loop with NaN size, imbalance and threshold (Bars/MissFlowModel). P: a state with NaN size cannot close a bar, and two ticks after the missing price it is reached; refuted as stated, see section 4.
* C350 M: as C161. P: the strict maximum is selected and its rank is counted (C48_row); equal logits raise (C161); refuted as stated, see section 4.
* C351 M: the runs loop with NaN quantities, flags and thresholds; `max` keeps a NaN only as first argument (Bars/RunsMissModel). P: bar ends as an invariant of the loop; after a buy without volume either the sum of buys or the threshold is NaN; refuted as stated, see section 4.
* C352 M: the rolling range estimators over bars with missing high or low (Micro/MissModel). P: columns with entries taken out, carried through the rolling windows; rows counted by complete windows; refuted as stated, see section 4.
* C353 M: Roll's spread of prices some of which are NaN (`max(0, nan)` is 0). P: with a gap the result is (0, NaN) whatever the prices; complete prices give C59.
* C354 M: the three price impact regressions with NaN (`sm.OLS` refuses NaN among the regressors, and has NaN parameters with NaN among the responses; `last` and `sum` of a group skip NaN). P: by position of the gap.
* C355 M: VPIN with NaN flags and volumes. P: a known flag is the flag for any prices in the gaps, so that the error is at most the volume without flag.
* C356 M: the three encoders of series with NaN (`np.quantile` is NaN throughout; `searchsorted` puts NaN last; `astype(int)` refuses). P: takeWhile over quantiles that are all NaN or all known; C71 for the entropy.
* C357 M: as C21-C24, whose rows may lack prices. P: a table with more known prices has more crossings, so that events end no later; a missing opening price makes all returns NaN.
* C358 M: `logReturnsM`, log differences of prices that may be missing, in the attribution of C36. P: the returns of an event without gaps are those of any fill, bar by bar; witness.
* C359 M: `retRowsM`, log returns of bars that may lack prices. P: the rows of an event without gaps are those of any fill; witness.
* C360 M: `hullAggM`, the rolling windows of C325 on a series with missing values. P: the positions at which each of the three windows is complete.
* C361 M: `stateAtM`, the basket of C16 with optional opening and closing prices. P: induction over the bars; NaN absorbs; witness.
* C362 M: `twrReturnM`, the returns of C93 with optional values. P: the returns after a gap are those of the rows after it; witness.
* C363 M: `positionTimingsM`, `holdStepM`, comparisons with NaN are false. P: membership in the three index lists; steps at gaps change nothing; witnesses for all positions in the gap.
* C364 M: `adjustRolledSeriesM`, the rolled series of C19 with optional prices; `cumsum` skips NaN. P: skipped gaps are zero for every fill; induction over the bars and the adjusted columns; witness.
* C365 M: `dailyVolatilityM`, the daily volatility of C166 with optional closes. P: lookup by label; a round without return scales both weight sums, which cancels.
* C366 M: `fastEwmaM`, the loops of C13 with optional values. P: the result is that of C13 cut off at the first gap; witness.
* C367 M: `getYxIntM`, the ADF design of C119 with optional prices. P: the changes of a suffix without gaps are the last ones; positions from the end; witness.
* C368 M: `levelsCusumStatsM`, the test of C118 with optional values; `np.cumsum` does not skip NaN. P: a gap makes a squared change NaN and with it all later sums.
* C369 M: `probabilityOfFailureM`, the probability of C102 with optional returns. P: the score (t-p)/(p(1-p)) decreases in p for thresholds between 0 and 1.
* C370 M: `durbinWatsonM`, the statistic of C157 with optional residuals; `pearsonAutocorr` has optional values already. P: a missing value in front makes no pair; the other end by C255.
* C371 M: `applyPurging` of C39. P: in reversed time the first two kinds of overlap change places and the third stays; mutuality by the interval specification of C39.
* C372 M: `mmiM`, the index of C56 with optional values; the compiled median is a parameter, since its treatment of NaN is not specified. P: a step is counted in at most one of the two sums, and only between known values.
* C373 M: `pboOneMiss`, one choice of `compute_pbo` as in C300 with optional returns; mean and deviation spread NaN. P: NaN ends the search of `np.argmax`.
* C212 M: `int(n*p)` with the double rounding of C45. P: error bounds of two roundings; witness.
* C48 M: partition arithmetic, ranks, logit. P: combinatorics, logit finiteness.
* C49 C50 C51 C52 M: models and splitters as parameters; calls recorded. P: unfolding over all parameters.
* C275 C276 M: as C41, C49, C51. P: a fold is at most half of the events, rounded up, and one more event and the embargo are
  lost; the loops over folds return whenever the library does; witness of two events in two folds.
* C265 C266 C267 M: as C51. P: a row of the result in closed form; witnesses; invariance of sums under permutation.
* C252 M: as C52. P: shuffled table seen equal by the model; equal scores in each fold.
* C133 M: NaT end as `none`. P: witness; purging when all ends are known.
* C173 M: as C39-C47. P: every comparison of times is invariant under a strictly increasing map.
* C190 C191 C192 C193 C194 M: as C39-C47 and compute_pbo. P: rank as number of worse strategies; counting of choices with a partition; positive homogeneity of the Sharpe ratio; uniqueness of the sorted order without ties; witnesses.

### Filters and microstructure (`Verif/Filters`, `Verif/Micro`)
* C53 C54 C55 M: loop state (pos, neg, events). P: closed form of pos/neg as running max/min of differences since reset.
* C235 M: as C53. P: each event needs a sum of changes above the threshold; sums over disjoint stretches.
* C56 C57 M: counts, rolling means. P: bounds, affine equivariance by linearity.
* C253 M: as C56-C62, C31. P: rolling windows and groups under appending, sums of window lengths.
* C58 M: `tick_rule` loop. P: induction.
* C59-C62 M: as written, over ℝ where sqrt/log occur. P: sign and bound arguments; counterexamples.
* C63 C64 M: regression through a least-squares contract, `add_constant` skip rule. P: uniqueness of least-squares slope.
* C268 M: as C56. P: the median splits the ranks; pairs of neighbours counted over all orders.
* C134 C135 M: as C56, C60. P: monotone series; algebra of two-day high and low.
* C198 M: `max`/`min` of Python with NaN. P: a missing difference empties both sums; witness.
* C199 M: as C58-C64. P: tick rule under monotone maps, homogeneity of least squares, of rolling sums and of covariances.
* C260 M: as C59. P: the estimates as sums over products of price moves, averaged over all subsets of buys; sides are flipped to show that odd terms vanish.

### Fractional differencing (`Verif/FracDiff`)
* C65-C69 M: weight recursion, dot products, cumulative weight loss. P: `Ring.choose` closed form, Chu-Vandermonde for composition.
* C136 M: missing values as `Option`. P: witness; fixed-width version proved.
* C164 M: `adfuller` as a parameter, rows stored by order. P: invariant of the loop over orders; Cauchy-Schwarz; ratio of successive weights.
* C197 M: as C65-C69. P: weights of a longer series extend those of a shorter one; witnesses.
* C248 M: as C65-C69. P: partial sums of the weights as products; harmonic series for the limit.
* C272 M: the weight loop with the double rounding of C45. P: relative error per lag; absolute error and signs by induction; witness.
* C200 M: as C22-C27, C65-C69, C164. P: first failing step.

### Entropy (`Verif/Entropy`)
* C70-C77 M: dictionaries as association lists / sets, loops with fuel or structural recursion. P: counting, Jensen inequality for entropy, maximality of matches.
* C137 M: joining of elements. P: witness; single-character elements.
* C163 M: linear interpolation between sorted values. P: floor arithmetic, counting in a strictly sorted list; witness.
* C169 M: messages over any alphabet. P: equivariance under injective maps, order isomorphism of the codes.
* C195 C196 M: as C70-C77. P: words of different lengths in a dictionary, longest match at most the window; reversal of words.

### Allocation (`Verif/Alloc`; HRP.py, pca_hedge.py, position_sizing.py)
* C78-C82 M: functions on matrices; linkage and eigh as parameters. P: Gram-matrix triangle inequality; tree induction; algebra.
* C238 M: as C82. P: eigenvalues from an orthonormal basis; witness with two assets.
* C83-C90 M: as written. P: monotone/odd bounds; counterexamples.
* C274 M: recursive bisection with the double rounding of C45, cluster variances as parameters. P: induction on the halving; witnesses.
* C177 M: as C83-C90. P: swap of the two sides in the aligned difference, oddness of rounding, equivariance under strictly increasing time maps.
* C220-C222 M: as C83-C86. P: events cut at a time; bounds of C83; witnesses.
* C201-C204 M: as C77-C82. P: induction over the bisection with the sum of inverse variances as invariant; bilinearity of sample covariance.
* C263 M: as C79-C81. P: refuted by evaluation of a linkage of four items; partial by inversion of the bisection at its first cut.
* C138 M: division by zero as an error. P: witness; strict bound on the position.

### Metrics and risk (`Verif/Metrics`, `Verif/Risk`)
* C91-C99 M: as written; normal cdf from Mathlib. P: induction, Cauchy-Schwarz/Pearson inequality; counterexamples.
* C100-C102 M: closed formula over ℝ. P: quadratic root identity, monotonicity.
* C207-C209 M: as C100-C102. P: homogeneity of the quadratic formula; uniqueness of the precision with a given Sharpe ratio.
* C259 M: as C100-C102. P: the ratio as distance from break-even; sums of the two parts of a sample; witness.
* C139 C140 C151 M: as C91-C102. P: sums of squares; permutation invariance.
* C176 M: as C91-C102. P: homogeneity of sums, cumulative products and maxima; shifts cancel in differences.
* C251 M: as C91-C99. P: sum of squares under a transfer.

### Options and rates (`Verif/Options`)
* C103-C107 M: tree as backward induction over levels. P: induction over levels.
* C108-C113 M: formula over ℝ with Φ = cdf of the standard Gaussian. P: symmetry and monotonicity of Φ, derivative in sigma.
* C141-C145 M: stopping policies on the tree, Gaussian integral, finite differences. P: backward induction, change of variables, convexity.
* C233 C234 M: as C103-C107. P: backward induction over the tree; values Lipschitz in the price.
* C247 M: as C103-C113. P: put-call parity with monotone prices; Lipschitz values by backward induction.
* C258 M: as C103-C113. P: a step of the tree in terms of discount and yield, values that grow more than in proportion.
* C262 M: as C110. P: from C110 with parity (C108), monotonicity in the volatility and homogeneity (C170).
* C170 M: as C103-C113. P: homogeneity by cases, convexity of the payoff carried through the tree, strict convexity of the formula in the strike.
* C240 M: as C111. P: counting in a sorted list.
* C172 M: as C103-C113. P: change of numeraire on the tree (exchanged probabilities), symmetry of d1 and d2.
* C205-C206 M: as C103-C113. P: derivatives of the Black-Scholes function in (0, 1), monotone in volatility; squeeze for the limit.
* C214 M: as C103-C113. P: characteristic function of the last row of the tree, its limit by derivatives at 0, Levy continuity, put-call parity for calls.
* C165 M: `CubicSpline` as a parameter with a contract. P: Lagrange interpolation meets the contract; witness.
* C256 M: as C113. P: logarithms of products; parity.

### Systematic default (`Verif/Default`)
* C114-C117 M: pairwise convolution, fit loop with parameters for solver and regression. P: polynomial products; loop invariant.
* C146 C153 M: conditional equity value and default. P: sign arguments; ideal root finder by choice for the counterexamples.
* C154-C156 M: inner joins, dictionaries of firms. P: Poisson-binomial law from C115; filter and map algebra; counterexample by evaluation.
* C250 M: as C114. P: change of one probability at a time; sums over the coefficients.
* C147 M: regression contract. P: least-squares line is unique.

### Structural breaks (`Verif/Breaks`)
* C118-C121 M: lag matrix as list operations, OLS through normal equations. P: index algebra, projection inequality, supremum.
* C241 M: as C118. P: Cauchy-Schwarz inequality.
* C269-C271 M: `RecursiveLS` of statsmodels from its documentation. P: rank-one update of the normal equations, positive leverage; squares add one residual at a time; witness with a constant variable.
* C148 C149 M: as C118-C121. P: witnesses; equality at the last time, lists that start with 0; which lists are refused.
* C277 C278 M: as C119-C121. P: the rows of the design in closed form; fewer times than regressors are dependent (dimension);
  dependence of the last times decides; witness with one lag and two rows at least.
* C171 M: as C118-C121. P: an invertible change of the regressors leaves the t-statistic of the level alone.

### Simulation (`Verif/Sim`)
* C122-C124 M: generators as recursion over a list of draws. P: induction.
* C243 M: as C123. P: induction over the steps.
* C264 M: as C122, C123. P: products and sums of independent random variables (Mathlib probability), limits of (1 + g n)^n.
* C150 M: truth value of the seed. P: witness 0; other seeds proved.

### Statistics (`Verif/Stats`; utils/stats.py, the kernel density steps of backtest.py and option.py)
* C157-C160 M: library formulas on lists. P: Cauchy-Schwarz on lists, moments of affine images, counting pairs of positions.
* C254 C255 M: as C157-C160. P: signs of differences under increasing maps; sums over reversed lists.
* C161 C162 M: mean of Gaussian kernels, cdf as an integral. P: fundamental theorem of calculus per kernel; limits of Φ.

## 4. Disagreements between the code and the properties

Each entry is a proved counterexample (`..._counterexample`); the code is left as it is.

* C05: a volume bar can close below `freq` or above it, because ids are `cumsum // freq`: a tick that
  crosses the boundary is counted in the next bar.
* C12: `_compute_runs_bar_sizes` raises when a bar closes before both a buy and a sell were seen
  (the EWMA of an empty array is read at -1).
* C15: `aggregate_time_bars` raises IndexError when an interval between the first and the last tick
  is empty.
* C125: `b_ewma_span=0` is documented as "use the default" and raises ZeroDivisionError instead.
* C126: an all-sell opening makes the initial runs threshold NaN (Python's `max(nan, x)` is nan),
  an all-buy opening does not (`max(x, nan)` is x).
* C20: `gaps.iloc[-2]` ignores a roll on the last bar; with a single bar it raises IndexError.
* C21: RET_PRICES becomes negative when, on a roll date, the new contract falls from open to close by
  more than the previous close.
* C127: `drop_duplicates` sees only first occurrences, so a contract that comes back (A, B, A) is not
  treated as a roll.
* C23: an event without barrier hit reports `close/open - 1` without the side, so an expired short
  trade has the wrong sign.
* C25: events filtered by `min_target` come back through the outer join of the columns when they have
  an expiry (always, when no expiries are given), and the missing side raises ValueError.
* C29: the return of a fixed-window event counts the close-to-close return of the start bar as well as
  its open-to-close return.
* C30: `get_vertical_barriers` drops the events without barrier from the end of the list, so with
  events out of order barriers are attached to the wrong events.
* C31: with daily data a bar after a gap of more than a day is paired with itself (return 0).
* C129: the documented side 0 for short trades fails an assertion.
* C130: an expiry between two bars is filled from the next bar, so prices after the expiry decide the
  outcome.
* C131: events with equal start times share one row label, so both get the last one's uniqueness.
* C132: the oldest observation weighs more than `oldest_weight` (it already includes its own share).
* C43: the first event that starts after the test span is always lost (`searchsorted(...) + 1`),
  even without embargo and when it overlaps no test event.
* C45: group bounds are computed in floating point; with 15 events and 11 groups the last event is in
  no group.
* C47: iterating the combinatorial splitter a second time appends the recorded paths again.
* C50: single feature importance does not pass the event times on, so with `PurgedKFold` it always
  raises.
* C133: an event without end time (NaT) that started before a test interval is not purged.
* C59: the noise variance of the Roll model is negative when the covariance of successive changes is
  below minus half their variance (prices 0,1,0,1,0); the covariance divides by one less than the
  number of pairs, the variance by the number of changes.
* C62: VPIN takes the absolute value after summing the imbalances of the window, so a bar of buys and
  a bar of sells cancel.
* C64: `sm.add_constant` adds no column to a constant non-zero regressor, so `res.params[1]` raises
  IndexError.
* C136: the expanding fractional difference tests the forward-filled column for missing values, so a
  gap gets a value; the fixed width version tests the input and skips it.
* C137: a list message is joined into one string, so an element with several characters is counted as
  several symbols.
* C83: `budgeted_position_size` (and `gaussian_mixture_position_size`) raise IndexError if all events
  have the same side.
* C85: `_avg_active_positions` selects rows by label, so an event that has ended is averaged as long as
  another event with the same start is open.
* C89: `compute_limit_price` is the negative of a sum over the wrong range when selling.
* C90: `fill_index` adds `fill_val` to present entries and fills missing ones with 0.
* C138: `compute_limit_price` divides by zero when the order reaches `max_position`, and when the target
  equals the current position.
* C91: `get_position_timings` reports the first time of a series that starts flat (NaN differs from 0).
* C96: `compute_dd_and_tuw` drops high-water marks without drawdown before taking time differences, so
  the time under water can run past the recovery; the last one is not reported.
* C98: `probabilistic_sharpe_ratio` uses excess kurtosis where the formula needs raw kurtosis; the result
  is NaN for e.g. returns 1 and 3.
* C99: `returns.shape[axis] if axis else returns.size` counts all entries for axis 0, the default axis of
  `deflated_sharpe_ratio`.
* C102: `strategy_required_precision` depends on the square of the target, so the failure probability
  falls as a negative target rises to 0.
* C139: `compute_hhi_returns_concentration` reports -1/(n-1) if the returns that are not losses are all 0.
* C104: an American option can be worth less than a European one in `binom_option_price` when the
  probability of the tree is outside [0,1]; the code does not check it.
* C111: `callput.shape == 0` never holds; without common strikes the median is NaN and the series empty.
- C146 (refuted): `_cond_equity_value` shifts `d1` and `d2` by `alpha*t + beta*m` without growing the
  assets by the same factor. The value is then not the price of any option: it can be negative when the
  shift is positive and below assets less the present value of the debt when it is negative, and it is
  always at most the Black-Scholes price.
- C116: `fit` forms the excess market return as `expected_market_ret - rate*interval` and then multiplies
  by the maturity, so an annualised return and a rate per interval are subtracted; `predict_default`
  subtracts `rate*maturity` from an annualised return and does not multiply by the maturity. The two agree
  only for a maturity and an interval of one year. Modelled as written.
- C115: with empty vectors in the list the order can decide between a result and a ValueError
  (`np.zeros(-1)`); the theorem is for non-empty vectors.
- C148 (refuted): `recursive_residuals_cusum_stats` divides every S(t) by sqrt(T-k-1), the standard
  deviation of the last one, while its docstring says S(t) ~ N(0, t-k-1). Earlier p-values are too large.
- C149 (refuted): `x.iloc[:, 0] = level` overwrites the first lag of a list of lags, so the list [1] loses
  its only lag; lists that start with 0 are used as given. A list that repeats a lag raises a ValueError (`join`).
- C119: `diff.iloc[-x.shape[0]:]` with an empty design is `iloc[-0:]`, which keeps every change; the product
  then raises a ValueError.
- C123: `norm.rvs(random_state=<int>)` starts a new generator on every call, so every shock of
  `gen_discrete_ou_process` is the same number.
- C150 (refuted): `if np_rand_seed:` in `gen_mixed_gaussians` ignores the seed 0.
- C153 (refuted): see C116; `predict_default` is right for a maturity of one year, `fit` for an interval of
  one year.
- C156 (refuted): `create_dataset` drops dates without a yield before returns are taken, so a return can span
  two intervals.
- C160 (refuted): `kendalltau(x, y)[0]` and `weightedtau(x, y)[0]` are the statistics, not the p-values; two
  samples in opposite order give -1.
- C161 (refuted): equal logits, e.g. one strategy that is best in every partition, make `gaussian_kde` raise.
- C162 (refuted): `KDERv(kde, a=0)` cuts the estimate off at 0 without scaling it, so the distribution
  function tends to less than 1.
- C163 (refuted in part): `np.linspace(0, 1, n_quantiles)` starts at the minimum, so the first symbol stands for
  the smallest value only and the data are split into `n_quantiles - 1` even groups.
- C165 (refuted in part): a cubic spline overshoots: yields 1, 0 and 0 at maturities 0, 1 and 2 give a negative
  yield at 1.5.
- C166 (refuted in part): `get_daily_volatility` builds the returns from arrays, so its result is labelled 0, 1, …
  and not by the times of the bars.
- C178 (refuted): `v_arr[i]` in `_compute_runs_bar_sizes` is a label lookup when `v_arr` is a column of the tick
  frame (volume and dollar units). A frame sorted by time keeps its old labels and gets the quantities of other
  ticks; a slice of a frame raises KeyError.
- C179 (refuted): `fast_ewma(b_arr[:i], ...)` stops before the closing tick `i`; the lists of buy and sell
  quantities of runs bars start at tick 1.
- C180 (refuted): the default initial expectations are means over the first `E_T_init` ticks, so the bars before
  tick `E_T_init` depend on later ticks.
- C181 (refuted at tick 0): the loops start at tick 1, so a first tick larger than `max_bar_size` does not close a
  bar.
- C183 (refuted): `basket_to_etf` skips the overnight move after a bar in the rebalance list, also for bar 0 at
  which the basket is bought at the close.
- C184 (refuted): after a rebalance the units held before earn nothing from the close to the next open.
- C185 (refuted): price moves are converted at the current FX rate; the revaluation of held units by FX is left out.
- C186 (refuted): `get_fixed_window_events(align_with_bars=False)` with returns raises IndexError for a window
  that contains no bar.
- C187 (refuted): `count_events_per_bar` begins at `event_times.index[0]`, the event listed first.
- C188 (refuted): `apply_time_decay_to_weights` with `oldest_weight < -1` has a negative slope.
- C189 (refuted): `np.log(bars).diff()` gives the first bar of an event a return from the bar before it.
- C190 (refuted): the rank of `compute_pbo` counts worse strategies out of all, so the median of an odd number of
  strategies has rank below 1/2 and gets a negative logit.
- C191 (refuted): `n_obs // n_partitions` leaves rows over, which are part of every test set of `compute_pbo`.
- C192 (refuted): `timeseries_cv_score` hands its default `embargo_pct=None` (and `cv=None`) to `PurgedKFold`, whose
  split raises TypeError.
- C194 (refuted): purging makes the train sets of `CombinatorialPurgedCV` differ in size.
- C197 (refuted): `frac_diff_expanding` applies its threshold to the weights of the whole series, so values
  computed before can be dropped when observations are appended; the window of `frac_diff_fixed` is bounded by the
  length of the series.
- C198 (refuted): in `filter_symmetric_cusum` `max(0, nan)` is 0 and `min(0, nan)` is 0: a missing observation
  resets the filter.
- C203 (refuted): `_recursive_bisection` cuts the list in the middle and not at a cluster, so three exchangeable
  instruments get unequal weights.
- C204 (refuted): for the same reason the order in which the linkage names two merged clusters moves the weights.
- C205 (refuted): a European put far in the money loses value with time to maturity (as in theory).
- C206 (refuted): at `T=0` `_bsm_d1` is 0/0 at the money and the tree's probability is 0/0: NaN instead of the payoff.
- C209 (refuted): `strategy_probability_of_failure` passes `p*(1-p)` as the scale of the normal distribution; the
  sampling deviation of the precision is `sqrt(p*(1-p)/n)`, so the size of the sample has no influence.
- C210 (refuted): `event_times.iloc[test_indices].max()` skips missing ends, so a test event that has not ended keeps
  no later event out of the train set.
- C211 (refuted): a negative `embargo_pct` is not refused and moves `indices[start + embargo:]` into the test set.
- C212 (refuted): `int(num_obs * embargo_pct)` cuts a double that may be just below a whole number: 29 percent of 100
  observations are 28.
- C213 (refuted): `cumsum() // freq` in doubles: ten ticks of volume 0.1 sum to 0.9999999999999999, and the tenth tick stays
  in the first bar of volume one.
- C217 (refuted): in `sample_sequential_boostrap` probabilities are uniquenesses divided by their sum, and a draw lowers other
  events too: with events on bars {1}, {1,2}, {2}, {2} and the first one drawn, drawing the second raises its own
  probability from 3/13 to 5/21. Its uniqueness falls, and after the first draw the drawn event is least likely.
- C221 (refuted): `budgeted_position_size` divides by `budget_fn` of all bars, also later ones: a second long event later
  halves the sizes before it.
- C222 (refuted): `_avg_active_positions` counts a position as active at its own end (`t <= end_time`) and reports no later
  time, so the last size reported is never that of a flat book: one position of size 1 from 0 to 5 gives 1 at 5.
- C224 (refuted): sums restart at events, so a larger threshold may fire at a time at which the smaller one has just
  restarted: for 0, 2, 3, 4 threshold 1 fires at 1 and 3, threshold 2 at 2.
- C230 (refuted): `compute_weights_by_returns` scales by the sum over all events, so test prices move the scale of every
  train weight; with purging alone the event that starts on the bar after the test interval uses the last test price in
  its first return (a difference of logarithms), so its relative weight moves too.
- C231 (refuted): an event that expires reports the close return of its side whatever the side, and on a bar that crosses
  both barriers both sides report the loss, so the short label is not the mirror of the long one.
- C232 (refuted): with excess kurtosis in the formula (C98) the number under the root becomes negative as the ratio grows:
  returns -1, 1 have probability 1/2, returns 1, 3 have NaN.
- C238 (refuted): `np.linalg.eigh` returns eigenvectors with an arbitrary sign and `pca_weights` gives each a positive
  load, so with risk in two or more components which assets are bought depends on the library; in general the weights are
  determined only up to the sign of each component.
- C245 (refuted): discretising in doubles is not exact discretising rounded: the quotient of a size just under the middle
  of two steps is rounded to the middle and then to the even step (0.75 in steps of 0.1 gives 0.8).
- C257 (refuted): a short trade that expires untouched is labelled by the unsigned rise of the price (see C23), so a lower
  close, better for the trade, can turn its label from 1 to -1.
- C259 (refuted): raising a return from 0 to a small gain lowers the mean gain and worsens the mean loss, so that
  `strategy_probability_of_failure` can rise (returns 1, 1, 1, 1, 0, -3 with the 0 raised to 0.1).
- C261 (refuted): the documentation of `compute_dd_and_tuw` says that the last data point is ignored (metrics.py:98); a
  last value that is a new low since the last high is reported as a deeper drawdown.
- C263 (refuted): `_recursive_bisection` cuts the ordered list in the middle and not where the tree divides (HRP.py:76-81),
  so that next to three copies of one instrument an uncorrelated one gets 1/3 instead of 1/2.
- C265 (refuted): `get_mean_decrease_impurity` turns zeros into NaN before averaging (feature_importance.py:25-27), so a
  feature used in one tree can outrank one that is as important there and used in other trees as well.
- C266 (refuted): the same function divides the deviation over the trees that use a feature by the root of the number of
  all trees; for a feature used in two of eight trees the reported error is half the standard error.
- C271 (refuted): the statistics of `recursive_residuals_cusum_stats` are divided by the standard deviation of the
  recursive residuals of the full sample, so the value at a time depends on later observations.  Used as a feature of
  an event-driven strategy it looks ahead.  Signs, zero crossings and ratios of earlier statistics are not affected.
- C272 (refuted): the weights of `_get_weights` have no bounded relative error for orders near zero or one: `order - k + 1` loses
  an order of 2^-60 when the lag is subtracted, and the first weight is zero.  Absolute errors are at most k/2^51.
- C274 (refuted): `alpha = 1 - var1 / (var1 + var2)` is zero in doubles when one cluster is about 2^54 times as risky as the other,
  so that HRP can leave assets out; the sum of the weights can miss one by roundings.
- C275 (refuted): with two events in two folds `PurgedKFold` trains on nothing when the first is tested, since the event after the
  test span is always lost (C43); scikit-learn raises ValueError on such a fold.  Half of the events, rounded up, two more and the
  embargo are enough.
- C277 (refuted): `min_sample_len` is "min number of samples for the ADF regression", but the shortest regression of `sadf_stat`
  has `min_sample_len - lags` rows.  Below `2 * lags + 1` and the deterministic terms no series has a statistic (C278), and with a
  constant a price that does not change over the shortest regression leaves the whole of `sadf_stat_series` without result.
- C279 (refuted): `price/start_price - 1` in doubles: 110 after 100 has the return 0.10000000000000009, which is above the target
  0.1, so a price that reaches the barrier exactly passes it; the label changes from -1 to 1 in the witness.
- C281 (refuted): the running sums of `filter_symmetric_cusum` round: 0.1, 0.6, 0.01 falls by more than 0.59 without an event, and
  0.73, 0.97, 3.59 has an event at 2.86 though it moves by no more than that.
- C283 (refuted): `fast_ewma` in doubles does not reproduce a constant: 3, 3 with span 2 gives 2.9999999999999996, and 1, 1, 1 with
  span 5 gives 1.0000000000000002, so the mean can leave the range of the data on either side.
- C284 (refuted): `compute_hhi_returns_concentration` documents "a number from 0 to 1"; five equal returns of 0.01 give a
  negative number, -6.9e-17, in doubles.
- C236 (refuted for the probability): `compute_pbo` reads the probability off a Gaussian kernel estimate of the logits. Adding
  a worst strategy raises each logit but also moves them closer together, and the kernel narrows. With four strategies over two
  partitions, the selected ones being third and last of four, the probability of a logit below zero rises when a hopeless
  fifth strategy is added. It falls if no logit was negative before.
- C286 (refuted): in doubles the VWAP of a bar can lie outside low and high, already for one trade: 0.1 * 3 / 3 is above 0.1 and
  0.35 * 3 / 3 below 0.35. Code that asserts Low <= VWAP <= High on bars would fail.
- C287 (refuted): in doubles resampled bars differ from the bars of the ticks in the last digits of VWAP and volume.
- C288 (refuted): a period that begins with a zero balance and ends with something makes the time-weighted return infinite, or NaN
  if another period is a total loss. Periods that begin and end with nothing are skipped, because pandas skips NaN in products.
- C289 (refuted): with two perfectly hedged pairs every HRP weight is NaN although every variance is positive. An asset with zero
  variance has the same effect in `_recursive_bisection`; `hrp_allocations` raises ValueError before it gets there.
- C290 (refuted): an event that starts at a price of zero has an infinite return, and touches a barrier at the first bar with a
  positive high however far away the barrier is.
- C291 (refuted): one raw close of zero spoils the RET_PRICES column: if the adjusted close moves on the next bar, no later value is
  a number.
- C292 (refuted): in doubles a binomial put can be worth more than its strike (strike 15, worth 15 + 2^-49).
- C294 (refuted): in doubles a decayed weight can fall below `oldest_weight` (1/8 - 2^-53 for 1/8).
- C296 (refuted): in doubles the holding period can exceed the length of the series (0.1 held for three days: 3 + 2^-51) and
  can be negative (0.1 entered after 106 days and left a nanosecond later: -2^-46).
* C297: the importance of a feature in `get_mean_decrease_accuracy` is minus infinity if in one fold shuffling the feature makes an imperfect score perfect (division by `1 - perm_score = 0`, feature_importance.py:90), whatever the other folds; a perfect model has NaN importances.
* C298: `apply_time_decay_to_weights` divides by the last value of `cumsum()`, which is NaN if the newest uniqueness is NaN; then all weights are NaN. With `oldest_weight = -1` the slope is infinite and all weights are NaN too.
* C299: one price of zero at the edge of an event gives the event an infinite raw weight in `compute_weights_by_returns`; dividing by the infinite sum makes the weights of all other events 0 and its own NaN.
* C300: a strategy without returns on the train rows has Sharpe ratio NaN (0/0); `np.argmax` (backtest.py:40) selects it and `np.argsort` ranks it above all others. With one strategy that never trades all logits are equal and the density estimate raises.
* C301: at times at which no open event has a forecast `position_size_from_probabilities` reports NaN, not 0.
* C302: `compute_dd_and_tuw` raises a ValueError if the first value is missing: `groupby` leaves the missing high-water mark out, `drop_duplicates` does not (metrics.py:106-108).
* C303: `compute_hhi_returns_concentration` counts missing returns towards its minimum of three.
* C304: `drop_rare_labels` keeps all events without a label and leaves them out of the shares.
* C305: `sigma_encode` accepts a negative spacing: the negative indices count from the end of the alphabet (entropy.py:164-166), so that values 63 spacings apart share a symbol; only larger ranges raise an IndexError.
* C306: `bsm_option_price` raises a ZeroDivisionError for a zero strike, except if cash dividends are given: `np.exp` turns the spot into a numpy number (option.py:170-171), and numpy's division gives an infinite `d1` and the limit of the prices.
* C307: `implied_risk_free_rate` does not drop a pair whose implied bond price is zero (option.py:30-33): `np.log` gives minus infinity, which `median` counts as an infinite rate, while the NaN of a negative bond price is skipped.
* C308: in `basket_to_etf` an instrument with weight 0 and price 0 is held 0/0 = NaN times (basket.py:48, 61), which makes the value NaN from the next bar on; with volume 0 the ratio of line 65 is 0/0 and the volume NaN.
* C309: beyond the maximum position `_inverse_price` takes the root of a negative number (position_sizing.py:118), which in Python is complex: `compute_limit_price` returns a complex limit price instead of raising.
* C310: `_get_embargo_times` accepts a negative embargo: `bars[-step:]` and `bars[:-step]` then count from the other end (cross_validation.py:44-45), and minus `s` bars act like `n - s` bars. In `PurgedKFold.split` a negative embargo starts the second part of the training set inside the test set (line 116).
* C311: the Sharpe ratio falls when a return well above the mean is raised further, since the deviation counts gains as risk (metrics.py, `sharpe_ratio`).
* C314: `timeseries_cv_score` and `get_single_feature_importance` fit the same estimator object again and again without cloning it (cross_validation.py:154, feature_importance.py:112); one with a warm start is scored on rows it has been fitted to.
* C315: `strategy_required_precision` returns a complex number if the loss has the wrong sign (strategy_risk.py:36); for a precision above 1 `strategy_required_freq` returns a negative frequency: both roots of the check in line 51 are imaginary and their quotient is the target.
* C316: returns are `price/start_price - 1` (triple_barrier.py:39-40, 52), whose sign is wrong if the start price is negative: on a roll-adjusted series below zero a long event is stopped out by a rise.
* C318: `int(...)` truncates a product that in doubles may fall just below a whole number (position_sizing.py:141): with
  `w = 24`, a divergence of 5 and `max_size = 7` the size is 4, not 5.  Coefficients from `get_sigmoid_coeff` put the
  calibrated point at such a place.
* C319: on a grid of spacings that are not binary fractions `sigma_encode` puts values into the interval below or above
  (entropy.py:163): with spacing 0.1 the value 0.3 over a minimum of 0 has symbol 2.
* C320: at the limit price of an order to sell the sizing function need not choose a position between the current and the
  target position (position_sizing.py, `compute_limit_price`): from 2 to 1 of 4 the limit price is negative, the size 3.
* C321: in doubles the order of the firms changes the last digit of the default count probabilities
  (systematic_default.py:224-232).
* C322: with one column per trial, copies of the trials raise the deflated Sharpe ratio (metrics.py:141 counts all entries of
  the matrix as observations of each trial).
* C323: the portfolio of `hrp_allocations` can be riskier than equal weights: variances 3/2, 1, 1 and covariances 11/10 and
  9/10.
* C324: with events out of order a longer holding period can give an earlier vertical barrier (time_series.py:58-59 pairs the
  barriers with the first events).
* C325: `hull_ma` with `agg_fn='sum'` does not follow a shift of the values (filters.py:52).
* C326: the default portfolio of `pca_weights` is not the one of least variance for its total weight.
* C327: `(1 + rets).product()` (metrics.py:68) loses a period that ends near zero: the factor is rounded to 0.
* C328: with a window of 2 the Corwin-Schultz spread can exceed the relative range of every bar: `_get_beta` averages over
  the window, `_get_gamma` does not (microstructure.py:65-76).
* C329: the weights by returns do not split the return over the covered bars if prices move both ways: absolute values are
  taken event by event (weighting.py:124).
* C331: `implied_asset_price` stops when two iterates are within `tol`; for a call out of the money the result can be far from
  the price of the asset (option.py:306): asset at 0.5, strike 1.0001, small volatility, estimate 1, default `tol`, result about 1.
* C332: `_cond_equity_value` need not grow with the assets: `k·e^{-rT}·Φ(d2)` leaves out the factor `e^{alpha·T + beta·mkt_ex_ret}` on
  the assets, so for assets growing fast the value starts at 0, falls below zero and only then grows.
* C335: `linkage(dist_mat)` (HRP.py:108) gets a square matrix, which scipy takes for coordinates of the instruments; it clusters
  the euclidean distances of the rows. Of four instruments the two most correlated ones can be parted by the first bisection.
* C337 (a riskier instrument gets less weight): the cluster variance of two instruments that hedge each other falls when
  the less volatile of them becomes more volatile, so the cluster and with it the levered instrument gets more weight.
  In the witness the weight rises from 117/4201 to more than 1/20. This is a property of the published algorithm as well
  as of the code; the claim is what a user of risk parity expects.
* C338 (the Sharpe ratio of a mixture): for losing strategies diversification lowers the ratio, since the standard
  deviation is in the denominator of a negative number. Two strategies with the ratio -2 give a mixture with the ratio -6.
* C339 (default probabilities have no currency): `max(1, debt_value)` in `predict_default` and `max(1, debt)` in `fit` are
  meant to avoid a division by zero, but they turn a debt of half a billion, reported in billions, into one of a billion.
  (The tolerance of 1/100 of the root finder is a number of units of the currency, too.)
* C340 (merging symbols adds no information): the Lempel-Ziv dictionary of `bbacba` has three words, the one of `bbabba`
  four; the parsing is greedy and its last, incomplete word is not counted. `sigma_encode` puts all values beyond the 62nd
  step into one symbol, so a wider spacing can tell values apart that a narrower one does not.
* C343: a VPIN is not always a probability.  `aggregate_volume_bars` puts the trade that crosses a multiple of `freq` into the next bar with its whole volume, and `volume_synchronized_pin` divides by the nominal `volume_per_bar` (microstructure.py:191), so the value of a bar can exceed 1 (up to 1 plus the largest trade over `freq`).
* C346: missing cells in ticks.  `np.sum` of a Series skips NaN in `p * v` and in `v` separately (bars.py:14-16), so a volume without price lowers the VWAP, below the low of the bar and to 0 if no price is known.  A NaN volume gives a NaN bar id, and `groupby` drops the tick (bars.py:44, 82-83), with its price.
* C347: `freq <= 0` is not refused.  pandas gives the ids inf and NaN for `freq = 0` (one bar; the ticks before the first trade, or the first tick of tick bars, are lost) and falling ids for `freq < 0`, which `groupby` sorts into reverse order of time.
* C348: a missing price makes the flag of two ticks NaN (microstructure.py:24-27: NaN is not 0, and `abs(nan)/nan` is NaN), and each unchanged price after them copies the NaN flag.
* C349: after a missing price `_compute_imbalance_bar_sizes` closes no more bars: `cur_theta` and `cur_bar_size` are NaN and neither the threshold nor `max_bar_size` is reached (bars.py:164-171), so that the rest of the day is one bar.
* C350: `compute_pbo` raises LinAlgError if one strategy wins every split, or if the winner of every train set is last on every test set: all logits are equal and `gaussian_kde` (backtest.py:53) has no variance to work with.
* C351: a buy without volume makes `max(cur_v_buy_runs, cur_v_sell_runs)` NaN (bars.py:329) and, through `cur_E_v_buy`, all later thresholds (bars.py:288-289), so that no bar ends unless `max_bar_size` does it; a sell without volume is passed over, since Python's `max` keeps its first argument when the comparison with NaN fails.
* C352: `corwin_schultz_spread` drops the rows of windows with a missing price and then takes `bars.index[0:spread.shape[0]]` as start times (microstructure.py:114), so that after a gap every estimate is given the start time of an earlier bar.
* C353: with a missing price the covariance of price changes is NaN, and `max(0, -dp_cov)` (microstructure.py:47) is 0, since Python's `max` keeps its first argument; the spread is reported as 0 although no price in the gap gives this.
* C354: `hasbrouck_lambda` reports a number although prices or volumes are missing, since `groupby(...).last()` and `sum()` skip them (microstructure.py:161, 166), where `kyle_lambda` raises MissingDataError for the same ticks.
* C355: in `volume_synchronized_pin` a tick without flag is compared with 1 and -1 and is neither (microstructure.py:184-185), so that its volume counts as if it were half bought and half sold.
* C356: `QuantileEncoder.fit` on data with a missing value makes every quantile NaN (entropy.py:142), and `searchsorted` then puts every value first (entropy.py:149), so that every series is encoded as a row of 0, of entropy 0.
* C357: an event whose opening price is missing touches no barrier and has the return NaN; with `cancel_expired_event` it nevertheless gets the label 0 (triple_barrier.py:129), as if its price had been watched until the expiry.
* C358: a missing price makes the log return to it and the one from it NaN (weighting.py:119), and the sum over the event skips both (weighting.py:123), so that the move over the gap is attributed to no event.
* C359: in `get_fixed_window_events` a missing close makes two close-to-close returns NaN (triple_barrier.py:177), and the sum skips both (triple_barrier.py:151), so that the move over the gap is left out of the return of the event.
* C361: `close_prices.diff().fillna(0.0)` (basket.py:51) is meant for the first bar but also fills the changes to and from a missing close, so that the basket misses the move over the gap. A missing opening price after a rebalance, in contrast, makes the value NaN for good.
* C362: in `compute_time_weighted_return` a missing value makes two returns NaN, which `product` skips (metrics.py:68): the growth over the gap is lost.
* C363: with a missing position both comparisons in `compute_holding_period` (metrics.py:42, 46) are false, and the entry time is not updated: a position opened in a gap counts as held since the first bar. `get_position_timings` reports a flip over a gap at no time.
* C364: `gaps = close*0` (basket.py:77) is NaN where the close is missing, and `gaps -= gaps.iloc[-2]` (basket.py:83) spreads a missing close of the last bar but one over the whole series. A missing price at a roll leaves the jump in the series without notice.
* C366: `fast_ewma` is documented as pandas' `ewm` with `adjust=True`, but one missing value makes all later means NaN (time_series.py:24, 30), where pandas goes on.
* C367: `_get_yx` drops the changes to and from a missing price (structural_breaks.py:77), but fills the column of levels by position from the end of the raw series (structural_breaks.py:79). Before a gap the levels are shifted against the changes, and some are NaN.
* C369: in `strategy_probability_of_failure` missing returns are in neither selection, but count in `returns.shape[0]` (strategy_risk.py:68). The precision is too low and the probability of failure strictly too high.
* C370: `pearson_autocorr` pairs rows by position, so a missing value in between drops up to two pairs and does not join its neighbours (stats.py:9). With every second value missing the result is NaN, although the known values alternate.
* C371: an event without end (NaT) is purged by a test in which it starts, but as a test interval it purges nothing, since all comparisons with its end are False (cross_validation.py:22-24).
* C372: `get_mmi` divides by `series.shape[0] - 1` also if values are missing, while comparisons with NaN are False (filters.py:36-38). The index of (1, NaN, 3) is 0, that of (1, 3) is 1.
* C373: `np.argmax` returns the position of the first NaN (backtest.py:40), so `compute_pbo` selects the first strategy with a missing return on the train rows, also one that loses every day.
