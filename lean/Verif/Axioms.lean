import Verif.Alloc.BudgetDoubleProps
import Verif.Alloc.CausalProps
import Verif.Alloc.ComplexProps
import Verif.Alloc.ConfidentProps
import Verif.Alloc.CopyProps
import Verif.Alloc.DivDoubleProps
import Verif.Alloc.DivProps
import Verif.Alloc.DoubleProps
import Verif.Alloc.HrpDoubleProps
import Verif.Alloc.HrpFloatProps
import Verif.Alloc.HrpInvProps
import Verif.Alloc.HrpProps
import Verif.Alloc.LimitProps
import Verif.Alloc.LinkProps
import Verif.Alloc.MirrorProps
import Verif.Alloc.MissProps
import Verif.Alloc.MoreEventsProps
import Verif.Alloc.PcaProps
import Verif.Alloc.PcaSignProps
import Verif.Alloc.PcaSizeProps
import Verif.Alloc.PosProps
import Verif.Alloc.ProbProps
import Verif.Alloc.RiskProps
import Verif.Alloc.RiskierProps
import Verif.Alloc.TreeProps
import Verif.Bars.DoubleProps
import Verif.Bars.EwmaDoubleProps
import Verif.Bars.EwmaMissProps
import Verif.Bars.EwmaProps
import Verif.Bars.FlowProps
import Verif.Bars.ForgetProps
import Verif.Bars.FreqProps
import Verif.Bars.ImbMissProps
import Verif.Bars.LabelProps
import Verif.Bars.LoopProps
import Verif.Bars.MirrorProps
import Verif.Bars.MissProps
import Verif.Bars.Props
import Verif.Bars.RunsMissProps
import Verif.Bars.SizeProps
import Verif.Bars.StreamProps
import Verif.Bars.TickMissProps
import Verif.Bars.UnitProps
import Verif.Bars.VwapDoubleProps
import Verif.Basket.EtfFloatProps
import Verif.Basket.FloatProps
import Verif.Basket.GapProps
import Verif.Basket.InvProps
import Verif.Basket.Props
import Verif.Basket.RollGapProps
import Verif.Breaks.BubbleProps
import Verif.Breaks.CusumProps
import Verif.Breaks.GapProps
import Verif.Breaks.InvarianceProps
import Verif.Breaks.LevelBoundProps
import Verif.Breaks.LevelMissProps
import Verif.Breaks.RecursiveProps
import Verif.Breaks.SadfProps
import Verif.Breaks.SadfTotalProps
import Verif.CV.CombiProps
import Verif.CV.CountProps
import Verif.CV.DefaultProps
import Verif.CV.DoubleProps
import Verif.CV.EmbargoProps
import Verif.CV.FeatureProps
import Verif.CV.IgnoredProps
import Verif.CV.KFoldProps
import Verif.CV.MdaFloatProps
import Verif.CV.MdiProps
import Verif.CV.MirrorProps
import Verif.CV.NegEmbargoProps
import Verif.CV.OpenProps
import Verif.CV.OrderProps
import Verif.CV.PadProps
import Verif.CV.PassProps
import Verif.CV.PboProps
import Verif.CV.Props
import Verif.CV.RefuseProps
import Verif.CV.ScoreProps
import Verif.CV.SfiStateProps
import Verif.CV.TestwiseProps
import Verif.CV.TotalProps
import Verif.Conformance.DoubleProps
import Verif.Conformance.ErrorProps
import Verif.Default.AnnualProps
import Verif.Default.AssetProps
import Verif.Default.CountDoubleProps
import Verif.Default.CountProps
import Verif.Default.CurrencyProps
import Verif.Default.DominanceProps
import Verif.Default.FirmProps
import Verif.Default.MergeProps
import Verif.Default.MixProps
import Verif.Default.SystemProps
import Verif.Entropy.AppendProps
import Verif.Entropy.CoarseProps
import Verif.Entropy.EncodeProps
import Verif.Entropy.ExtremalProps
import Verif.Entropy.LzProps
import Verif.Entropy.MissProps
import Verif.Entropy.PeriodicProps
import Verif.Entropy.Props
import Verif.Entropy.QuantileProps
import Verif.Entropy.RecodeProps
import Verif.Entropy.SigmaDoubleProps
import Verif.Entropy.SigmaProps
import Verif.Filters.CountProps
import Verif.Filters.DoubleProps
import Verif.Filters.HullAggProps
import Verif.Filters.HullMissProps
import Verif.Filters.MissingProps
import Verif.Filters.MmiMissProps
import Verif.Filters.MmiProps
import Verif.Filters.OptimalProps
import Verif.Filters.Props
import Verif.Filters.ShuffleProps
import Verif.FracDiff.AdfProps
import Verif.FracDiff.AppendProps
import Verif.FracDiff.DoubleProps
import Verif.FracDiff.LevelProps
import Verif.FracDiff.Props
import Verif.FracDiff.WindowProps
import Verif.Labels.BelowProps
import Verif.Labels.BetterProps
import Verif.Labels.DoubleProps
import Verif.Labels.FloatProps
import Verif.Labels.GapProps
import Verif.Labels.LeakProps
import Verif.Labels.MetaProps
import Verif.Labels.PipelineProps
import Verif.Labels.Props
import Verif.Labels.UnitProps
import Verif.Labels.WiderProps
import Verif.Labels.WindowGapProps
import Verif.Labels.WindowOptProps
import Verif.Labels.WindowProps
import Verif.Metrics.AppendProps
import Verif.Metrics.ChainProps
import Verif.Metrics.DdDoubleProps
import Verif.Metrics.DdProps
import Verif.Metrics.FloatProps
import Verif.Metrics.GainProps
import Verif.Metrics.HhiDoubleProps
import Verif.Metrics.HoldDoubleProps
import Verif.Metrics.LastProps
import Verif.Metrics.MissProps
import Verif.Metrics.MixProps
import Verif.Metrics.PosMissProps
import Verif.Metrics.PosProps
import Verif.Metrics.RaiseProps
import Verif.Metrics.RetProps
import Verif.Metrics.SharpeProps
import Verif.Metrics.ShiftProps
import Verif.Metrics.TrialProps
import Verif.Metrics.TwrDoubleProps
import Verif.Metrics.TwrMissProps
import Verif.Metrics.UnitProps
import Verif.Micro.CausalProps
import Verif.Micro.FlowProps
import Verif.Micro.ImpactMissProps
import Verif.Micro.InverseProps
import Verif.Micro.LastMissProps
import Verif.Micro.MergeProps
import Verif.Micro.PinBarProps
import Verif.Micro.PinMissProps
import Verif.Micro.Props
import Verif.Micro.RangeMissProps
import Verif.Micro.RollMissProps
import Verif.Micro.RollProps
import Verif.Micro.UnitProps
import Verif.Options.BinomProps
import Verif.Options.BsmProps
import Verif.Options.ChainProps
import Verif.Options.CurveLinProps
import Verif.Options.CurveProps
import Verif.Options.DeltaProps
import Verif.Options.DoubleProps
import Verif.Options.EarlyProps
import Verif.Options.ExpiryProps
import Verif.Options.ForwardProps
import Verif.Options.ImpliedProps
import Verif.Options.LimitProps
import Verif.Options.PolicyProps
import Verif.Options.RateFloatProps
import Verif.Options.RateProps
import Verif.Options.RobustProps
import Verif.Options.ScaleProps
import Verif.Options.SecantProps
import Verif.Options.SymmetryProps
import Verif.Options.VolProps
import Verif.Options.ZeroStrikeProps
import Verif.Risk.ComplexProps
import Verif.Risk.EdgeProps
import Verif.Risk.MissProps
import Verif.Risk.PayoutProps
import Verif.Risk.Props
import Verif.Risk.UnitProps
import Verif.Sim.CoupleProps
import Verif.Sim.MomentProps
import Verif.Sim.Props
import Verif.Stats.KdeMomentProps
import Verif.Stats.KdeProps
import Verif.Stats.MissProps
import Verif.Stats.OrderProps
import Verif.Stats.PadProps
import Verif.Stats.PboFloatProps
import Verif.Stats.PboMissProps
import Verif.Stats.Props
import Verif.Stats.RepeatProps
import Verif.Stats.WinnerProps
import Verif.TimeSeries.BarrierProps
import Verif.TimeSeries.EwmProps
import Verif.TimeSeries.GapProps
import Verif.TimeSeries.Props
import Verif.Weights.BootProps
import Verif.Weights.DecayDoubleProps
import Verif.Weights.DecayFloatProps
import Verif.Weights.DecayProps
import Verif.Weights.DoubleProps
import Verif.Weights.DropProps
import Verif.Weights.ExpectProps
import Verif.Weights.GapProps
import Verif.Weights.LeakProps
import Verif.Weights.MissProps
import Verif.Weights.MoreProps
import Verif.Weights.OrderProps
import Verif.Weights.Props
import Verif.Weights.RepeatProps
import Verif.Weights.ReturnFloatProps
import Verif.Weights.SplitProps
import Verif.Weights.UniqDoubleProps
import Verif.Weights.UnitProps

/-! # Axioms used by every property theorem

Generated listing; the expected output of each command is a subset of `propext`,
`Classical.choice`, `Quot.sound`. -/

#print axioms FinML.Alloc.C295_budget
#print axioms FinML.Alloc.C295_mirror
#print axioms FinML.Alloc.C220_probabilities
#print axioms FinML.Alloc.C221_budget_counterexample
#print axioms FinML.Alloc.C221_budget_partial
#print axioms FinML.Alloc.C222_closed_counterexample
#print axioms FinML.Alloc.C222_last_partial
#print axioms FinML.Alloc.C309_agree
#print axioms FinML.Alloc.C309_real_partial
#print axioms FinML.Alloc.C309_beyond
#print axioms FinML.Alloc.C309_real_counterexample
#print axioms FinML.Alloc.C309_negative_coefficient
#print axioms FinML.Alloc.C309_size_agree
#print axioms FinML.Alloc.C344_confident
#print axioms FinML.Alloc.C263_copies_counterexample
#print axioms FinML.Alloc.C263_copies_partial
#print axioms FinML.Alloc.C318_near_partial
#print axioms FinML.Alloc.C318_exact_partial
#print axioms FinML.Alloc.C318_odd
#print axioms FinML.Alloc.C318_exact_counterexample
#print axioms FinML.Alloc.C87_calibration
#print axioms FinML.Alloc.C87_inverse
#print axioms FinML.Alloc.C88_degenerate
#print axioms FinML.Alloc.C88_divergence
#print axioms FinML.Alloc.C89_limit_buy_partial
#print axioms FinML.Alloc.C89_limit_counterexample
#print axioms FinML.Alloc.C89_sell_not_positive
#print axioms FinML.Alloc.C138_full_position_counterexample
#print axioms FinML.Alloc.C138_full_position_error
#print axioms FinML.Alloc.C138_defined_partial
#print axioms FinML.Alloc.C245_doubles_counterexample
#print axioms FinML.Alloc.C245_shape_partial
#print axioms FinML.Alloc.C245_clear_partial
#print axioms FinML.Alloc.C245_near_partial
#print axioms FinML.Alloc.C245_again_partial
#print axioms FinML.Alloc.C274_positive_counterexample
#print axioms FinML.Alloc.C274_sum_counterexample
#print axioms FinML.Alloc.C274_allocation_partial
#print axioms FinML.Alloc.C274_positive_partial
#print axioms FinML.Alloc.C289_still_asset
#print axioms FinML.Alloc.C289_agree
#print axioms FinML.Alloc.C289_hedged_counterexample
#print axioms FinML.Alloc.C289_finite_partial
#print axioms FinML.Alloc.C289_constant_returns
#print axioms FinML.Alloc.C289_agree_hrp
#print axioms FinML.Alloc.C201_uncorrelated
#print axioms FinML.Alloc.C201_hrp
#print axioms FinML.Alloc.C202_affine
#print axioms FinML.Alloc.C202_order
#print axioms FinML.Alloc.C203_three_counterexample
#print axioms FinML.Alloc.C203_equal_partial
#print axioms FinML.Alloc.C204_sides_counterexample
#print axioms FinML.Alloc.C204_sides_partial
#print axioms FinML.Alloc.C78_metric
#print axioms FinML.Alloc.C78_sampleCorr
#print axioms FinML.Alloc.C80_bisection
#print axioms FinML.Alloc.C80_full_allocation
#print axioms FinML.Alloc.C80_hrp
#print axioms FinML.Alloc.C80_posVar_of_posDef
#print axioms FinML.Alloc.C81_two_assets
#print axioms FinML.Alloc.C81_scale_free
#print axioms FinML.Alloc.C81_inverse_variance
#print axioms FinML.Alloc.C320_size_partial
#print axioms FinML.Alloc.C320_larger
#print axioms FinML.Alloc.C320_size_counterexample
#print axioms FinML.Alloc.C335_distances
#print axioms FinML.Alloc.C335_neighbours_partial
#print axioms FinML.Alloc.C335_neighbours_counterexample
#print axioms FinML.Alloc.C177_budget_mirror
#print axioms FinML.Alloc.C177_budget_clock
#print axioms FinML.Alloc.C177_mixture_clock
#print axioms FinML.Alloc.C177_probability_clock
#print axioms FinML.Alloc.C177_probability_mirror
#print axioms FinML.Alloc.C177_divergence
#print axioms FinML.Alloc.C177_limit_price
#print axioms FinML.Alloc.C301_missing_partial
#print axioms FinML.Alloc.C301_known
#print axioms FinML.Alloc.C301_unknown
#print axioms FinML.Alloc.C301_no_step
#print axioms FinML.Alloc.C301_missing_counterexample
#print axioms FinML.Alloc.C345_one_more
#print axioms FinML.Alloc.C82_pca
#print axioms FinML.Alloc.C82_default
#print axioms FinML.Alloc.C238_sign_counterexample
#print axioms FinML.Alloc.C238_sign_partial
#print axioms FinML.Alloc.C326_minimum_partial
#print axioms FinML.Alloc.C326_distribution
#print axioms FinML.Alloc.C326_minimum_counterexample
#print axioms FinML.Alloc.C90_fill_value_counterexample
#print axioms FinML.Alloc.C90_fill
#print axioms FinML.Alloc.C90_fill_zero_partial
#print axioms FinML.Alloc.C83_budgeted_partial
#print axioms FinML.Alloc.C83_no_side_error
#print axioms FinML.Alloc.C83_one_sided_counterexample
#print axioms FinML.Alloc.C84_mixture
#print axioms FinML.Alloc.C84_pipeline
#print axioms FinML.Alloc.C85_equal_starts_counterexample
#print axioms FinML.Alloc.C85_average_partial
#print axioms FinML.Alloc.C85_average_bounds
#print axioms FinML.Alloc.C85_discretize
#print axioms FinML.Alloc.C85_monotone_odd
#print axioms FinML.Alloc.C86_event_size
#print axioms FinML.Alloc.C86_extremes
#print axioms FinML.Alloc.C86_degenerate
#print axioms FinML.Alloc.C86_reported
#print axioms FinML.Alloc.C323_largest
#print axioms FinML.Alloc.C323_equal_partial
#print axioms FinML.Alloc.C323_uncorrelated
#print axioms FinML.Alloc.C323_equal_counterexample
#print axioms FinML.Alloc.C337_riskier_counterexample
#print axioms FinML.Alloc.C337_riskier_partial
#print axioms FinML.Alloc.C337_order
#print axioms FinML.Alloc.C337_hrp_partial
#print axioms FinML.Alloc.C79_quasi_diagonalize
#print axioms FinML.Bars.C213_doubles_counterexample
#print axioms FinML.Bars.C213_lots_partial
#print axioms FinML.Bars.C213_inside_partial
#print axioms FinML.Bars.C283_constant_counterexample
#print axioms FinML.Bars.C283_power
#print axioms FinML.Bars.C283_close_partial
#print axioms FinML.Bars.C283_bounds_partial
#print axioms FinML.Bars.C283_span_one
#print axioms FinML.Bars.C366_counterexample
#print axioms FinML.Bars.C366_forever
#print axioms FinML.Bars.C366_before_partial
#print axioms FinML.Bars.C366_fill
#print axioms FinML.Bars.C366_last
#print axioms FinML.Bars.C13_ewma_adjusted
#print axioms FinML.Bars.C13_ewma_recursive
#print axioms FinML.Bars.C13_ewma_bounds
#print axioms FinML.Bars.C13_ewma_causal
#print axioms FinML.Bars.C13_ewma_zero_span
#print axioms FinML.Bars.C58_tick_rule_sign
#print axioms FinML.Bars.C58_tick_rule_flags
#print axioms FinML.Bars.C58_tick_rule_causal
#print axioms FinML.Bars.C58_tick_rule_affine
#print axioms FinML.Bars.C58_tick_rule_negation
#print axioms FinML.Bars.C09_flow
#print axioms FinML.Bars.C152_runs_rule
#print axioms FinML.Bars.C152_runs_start
#print axioms FinML.Bars.C244_forget
#print axioms FinML.Bars.C244_linear
#print axioms FinML.Bars.C347_counterexample
#print axioms FinML.Bars.C347_zero_partial
#print axioms FinML.Bars.C347_negative_partial
#print axioms FinML.Bars.C349_counterexample
#print axioms FinML.Bars.C349_one_bar_partial
#print axioms FinML.Bars.C349_missing_volume
#print axioms FinML.Bars.C349_complete
#print axioms FinML.Bars.C178_partial
#print axioms FinML.Bars.C178_accepted_labels_partial
#print axioms FinML.Bars.C178_sorted_counterexample
#print axioms FinML.Bars.C07_imbalance_bars_cover
#print axioms FinML.Bars.C08_min_bar_size
#print axioms FinML.Bars.C09_imbalance_rule
#print axioms FinML.Bars.C09_rule_deterministic
#print axioms FinML.Bars.C10_imbalance_no_lookahead
#print axioms FinML.Bars.C11_runs_bars_cover
#print axioms FinML.Bars.C11_runs_no_lookahead
#print axioms FinML.Bars.C12_runs_bars_total_counterexample
#print axioms FinML.Bars.C12_runs_bars_failure_partial
#print axioms FinML.Bars.C125_zero_span_counterexample
#print axioms FinML.Bars.C125_default_span_partial
#print axioms FinML.Bars.C125_zero_span_raises_partial
#print axioms FinML.Bars.C126_runs_mirror_counterexample
#print axioms FinML.Bars.C126_imbalance_mirror_partial
#print axioms FinML.Bars.C346_vwap_counterexample
#print axioms FinML.Bars.C346_prices_counterexample
#print axioms FinML.Bars.C346_row
#print axioms FinML.Bars.C346_vwap_partial
#print axioms FinML.Bars.C346_prices_partial
#print axioms FinML.Bars.C346_dollar_bars
#print axioms FinML.Bars.C346_complete
#print axioms FinML.Bars.C01_bar_stats_sound
#print axioms FinML.Bars.C01_bar_bounds
#print axioms FinML.Bars.C02_bars_by_id
#print axioms FinML.Bars.C02_conservation
#print axioms FinML.Bars.C02_contiguous
#print axioms FinML.Bars.C03_tick_bars
#print axioms FinML.Bars.C04_volume_bars
#print axioms FinML.Bars.C05_volume_bar_counterexample
#print axioms FinML.Bars.C05_volume_bar_closing_partial
#print axioms FinML.Bars.C06_dollar_bars
#print axioms FinML.Bars.C14_resample
#print axioms FinML.Bars.C15_time_bars_gap_counterexample
#print axioms FinML.Bars.C15_time_bars_partial
#print axioms FinML.Bars.C351_counterexample
#print axioms FinML.Bars.C351_buy_partial
#print axioms FinML.Bars.C351_max_size
#print axioms FinML.Bars.C351_complete
#print axioms FinML.Bars.C351_unflagged
#print axioms FinML.Bars.C351_initial
#print axioms FinML.Bars.C179_imbalance_partial
#print axioms FinML.Bars.C179_runs_partial
#print axioms FinML.Bars.C180_imbalance_partial
#print axioms FinML.Bars.C180_runs_partial
#print axioms FinML.Bars.C181_imbalance_partial
#print axioms FinML.Bars.C181_runs_partial
#print axioms FinML.Bars.C179_closing_tick_counterexample
#print axioms FinML.Bars.C179_first_tick_counterexample
#print axioms FinML.Bars.C180_default_counterexample
#print axioms FinML.Bars.C181_first_tick_counterexample
#print axioms FinML.Bars.C215_time
#print axioms FinML.Bars.C215_append
#print axioms FinML.Bars.C216_volume
#print axioms FinML.Bars.C348_counterexample
#print axioms FinML.Bars.C348_known_partial
#print axioms FinML.Bars.C348_unknown
#print axioms FinML.Bars.C348_complete
#print axioms FinML.Bars.C168_time_bars
#print axioms FinML.Bars.C168_tick_bars
#print axioms FinML.Bars.C168_volume_bars
#print axioms FinML.Bars.C168_dollar_bars
#print axioms FinML.Bars.C168_imbalance_bars
#print axioms FinML.Bars.C168_runs_bars
#print axioms FinML.Bars.C286_sum
#print axioms FinML.Bars.C286_inside_counterexample
#print axioms FinML.Bars.C286_close_partial
#print axioms FinML.Bars.C286_grid_partial
#print axioms FinML.Bars.C287_resample_counterexample
#print axioms FinML.Bars.C287_resample_partial
#print axioms FinML.Bars.C287_volume_partial
#print axioms FinML.Basket.C308_numbers
#print axioms FinML.Basket.C308_same
#print axioms FinML.Basket.C308_ruined
#print axioms FinML.Basket.C308_weightless_partial
#print axioms FinML.Basket.C308_weightless_counterexample
#print axioms FinML.Basket.C308_volume
#print axioms FinML.Basket.C291_ruined
#print axioms FinML.Basket.C291_values_partial
#print axioms FinML.Basket.C291_finite_counterexample
#print axioms FinML.Basket.C291_agree
#print axioms FinML.Basket.C361_counterexample
#print axioms FinML.Basket.C361_before_partial
#print axioms FinML.Basket.C361_complete
#print axioms FinML.Basket.C361_gap
#print axioms FinML.Basket.C361_forever
#print axioms FinML.Basket.C361_open
#print axioms FinML.Basket.C361_close
#print axioms FinML.Basket.C182_values
#print axioms FinML.Basket.C182_units
#print axioms FinML.Basket.C182_instrument_order
#print axioms FinML.Basket.C183_first_bar_counterexample
#print axioms FinML.Basket.C183_rebalance_bars_partial
#print axioms FinML.Basket.C184_rebalance_night_counterexample
#print axioms FinML.Basket.C184_moves_partial
#print axioms FinML.Basket.C185_fx_counterexample
#print axioms FinML.Basket.C185_dollar_value_partial
#print axioms FinML.Basket.C16_value_is_pnl
#print axioms FinML.Basket.C16_buy_and_hold
#print axioms FinML.Basket.C16_single_instrument
#print axioms FinML.Basket.C17_weight_scale
#print axioms FinML.Basket.C18_self_financing
#print axioms FinML.Basket.C128_basket_volume
#print axioms FinML.Basket.C19_roll_gaps_removed
#print axioms FinML.Basket.C20_last_bar_roll_counterexample
#print axioms FinML.Basket.C20_roll_matches_partial
#print axioms FinML.Basket.C20_single_bar_partial
#print axioms FinML.Basket.C21_ret_prices_counterexample
#print axioms FinML.Basket.C21_ret_prices_partial
#print axioms FinML.Basket.C127_returning_contract_counterexample
#print axioms FinML.Basket.C127_changes_adjusted_partial
#print axioms FinML.Basket.C364_counterexample
#print axioms FinML.Basket.C364_known_partial
#print axioms FinML.Basket.C364_last
#print axioms FinML.Basket.C364_roll
#print axioms FinML.Breaks.C341_bubble
#print axioms FinML.Breaks.C341_reversion
#print axioms FinML.Breaks.C341_growth
#print axioms FinML.Breaks.C341_decay
#print axioms FinML.Breaks.C341_growth_from_level
#print axioms FinML.Breaks.C118_formula
#print axioms FinML.Breaks.C118_edge
#print axioms FinML.Breaks.C118_invariance
#print axioms FinML.Breaks.C118_negation
#print axioms FinML.Breaks.C118_pvalues
#print axioms FinML.Breaks.C148_null_counterexample
#print axioms FinML.Breaks.C148_null_partial
#print axioms FinML.Breaks.C367_counterexample
#print axioms FinML.Breaks.C367_after_partial
#print axioms FinML.Breaks.C367_complete
#print axioms FinML.Breaks.C367_responses
#print axioms FinML.Breaks.C171_sadf
#print axioms FinML.Breaks.C171_series
#print axioms FinML.Breaks.C241_bound
#print axioms FinML.Breaks.C241_reached
#print axioms FinML.Breaks.C368_stats
#print axioms FinML.Breaks.C269_squares
#print axioms FinML.Breaks.C269_number
#print axioms FinML.Breaks.C270_units
#print axioms FinML.Breaks.C270_exact
#print axioms FinML.Breaks.C270_variables
#print axioms FinML.Breaks.C271_later_partial
#print axioms FinML.Breaks.C271_later_counterexample
#print axioms FinML.Breaks.C119_rows
#print axioms FinML.Breaks.C119_deterministic
#print axioms FinML.Breaks.C119_short
#print axioms FinML.Breaks.C149_list_counterexample
#print axioms FinML.Breaks.C149_list_partial
#print axioms FinML.Breaks.C149_refused
#print axioms FinML.Breaks.C120_least_squares
#print axioms FinML.Breaks.C120_error
#print axioms FinML.Breaks.C121_statistic
#print axioms FinML.Breaks.C121_supremum
#print axioms FinML.Breaks.C121_monotone
#print axioms FinML.Breaks.C121_series
#print axioms FinML.Breaks.C121_causal
#print axioms FinML.Breaks.C269_returns
#print axioms FinML.Breaks.C278_returns
#print axioms FinML.Breaks.C278_series
#print axioms FinML.Breaks.C278_too_short
#print axioms FinML.Breaks.C278_flat
#print axioms FinML.Breaks.C277_rows_counterexample
#print axioms FinML.Breaks.C277_rows_partial
#print axioms FinML.CV.C44_choices
#print axioms FinML.CV.C44_splits
#print axioms FinML.CV.C45_groups_tile_counterexample
#print axioms FinML.CV.C45_groups_tile_partial
#print axioms FinML.CV.C46_paths
#print axioms FinML.CV.C47_history_counterexample
#print axioms FinML.CV.C47_history_partial
#print axioms FinML.CV.C212_count_counterexample
#print axioms FinML.CV.C212_count_partial
#print axioms FinML.CV.C192_default_counterexample
#print axioms FinML.CV.C192_default_partial
#print axioms FinML.CV.C194_equal_counterexample
#print axioms FinML.CV.C194_equal_partial
#print axioms FinML.CV.C45_rounding
#print axioms FinML.CV.C45_doubles_partial
#print axioms FinML.CV.C249_kfold
#print axioms FinML.CV.C249_combinatorial
#print axioms FinML.CV.C229_embargo_window
#print axioms FinML.CV.C229_kfold_window
#print axioms FinML.CV.C229_fracdiff
#print axioms FinML.CV.C229_fracdiff_kfold
#print axioms FinML.CV.C252_ignored
#print axioms FinML.CV.C252_constant
#print axioms FinML.CV.C41_partition
#print axioms FinML.CV.C41_raises
#print axioms FinML.CV.C42_no_leak
#print axioms FinML.CV.C43_keeps_admissible_counterexample
#print axioms FinML.CV.C43_keeps_admissible_partial
#print axioms FinML.CV.C297_importance_partial
#print axioms FinML.CV.C297_agree
#print axioms FinML.CV.C297_finite_counterexample
#print axioms FinML.CV.C265_better_counterexample
#print axioms FinML.CV.C265_better_partial
#print axioms FinML.CV.C266_error_counterexample
#print axioms FinML.CV.C266_error_partial
#print axioms FinML.CV.C267_trees
#print axioms FinML.CV.C267_features
#print axioms FinML.CV.C267_unit
#print axioms FinML.CV.C371_reversed_time
#print axioms FinML.CV.C371_mutual_partial
#print axioms FinML.CV.C371_mutual_counterexample
#print axioms FinML.CV.C310_smaller_counterexample
#print axioms FinML.CV.C310_negative
#print axioms FinML.CV.C310_smaller_partial
#print axioms FinML.CV.C310_negative_antitone
#print axioms FinML.CV.C310_folds_partial
#print axioms FinML.CV.C310_folds_counterexample
#print axioms FinML.CV.C133_open_tests_counterexample
#print axioms FinML.CV.C133_open_tests_partial
#print axioms FinML.CV.C210_open_counterexample
#print axioms FinML.CV.C210_open_partial
#print axioms FinML.CV.C211_negative_counterexample
#print axioms FinML.CV.C211_negative_partial
#print axioms FinML.CV.C211_negative_rows
#print axioms FinML.CV.C173_purging
#print axioms FinML.CV.C173_kfold
#print axioms FinML.CV.C173_combinatorial
#print axioms FinML.CV.C236_choice
#print axioms FinML.CV.C236_pad
#print axioms FinML.CV.C47_passes_partial
#print axioms FinML.CV.C190_below_median_partial
#print axioms FinML.CV.C190_below_median_counterexample
#print axioms FinML.CV.C191_symmetric_counterexample
#print axioms FinML.CV.C191_symmetric_partial
#print axioms FinML.CV.C193_leverage
#print axioms FinML.CV.C193_order
#print axioms FinML.CV.C39_purging
#print axioms FinML.CV.C133_open_events_counterexample
#print axioms FinML.CV.C133_open_events_partial
#print axioms FinML.CV.C40_embargo
#print axioms FinML.CV.C40_antitone
#print axioms FinML.CV.C40_missing
#print axioms FinML.CV.C40_repeated
#print axioms FinML.CV.C44_no_groups
#print axioms FinML.CV.C48_refusals
#print axioms FinML.CV.C48_no_strategies
#print axioms FinML.CV.C192_not_series
#print axioms FinML.CV.C50_unknown
#print axioms FinML.CV.C51_refusals
#print axioms FinML.CV.C48_indices
#print axioms FinML.CV.C48_row
#print axioms FinML.CV.C48_choices
#print axioms FinML.CV.C49_scoring
#print axioms FinML.CV.C50_sfi_counterexample
#print axioms FinML.CV.C50_purged_fails_partial
#print axioms FinML.CV.C50_sfi_partial
#print axioms FinML.CV.C51_mdi
#print axioms FinML.CV.C52_fold
#print axioms FinML.CV.C52_permuted
#print axioms FinML.CV.C52_mda
#print axioms FinML.CV.C314_agree
#print axioms FinML.CV.C314_table_partial
#print axioms FinML.CV.C314_alone_partial
#print axioms FinML.CV.C314_order_partial
#print axioms FinML.CV.C314_alone_counterexample
#print axioms FinML.CV.C314_folds_partial
#print axioms FinML.CV.C314_folds_counterexample
#print axioms FinML.CV.C219_testwise
#print axioms FinML.CV.C219_order
#print axioms FinML.CV.C275_two_events_counterexample
#print axioms FinML.CV.C275_trains_partial
#print axioms FinML.CV.C276_scores
#print axioms FinML.CV.C276_purged
#print axioms FinML.C213_without_rounding
#print axioms FinML.C283_without_rounding
#print axioms FinML.C283_power_exact
#print axioms FinML.C286_without_rounding
#print axioms FinML.C287_without_rounding
#print axioms FinML.C272_without_rounding
#print axioms FinML.C284_without_rounding
#print axioms FinML.C285_without_rounding
#print axioms FinML.C281_without_rounding
#print axioms FinML.C245_without_rounding
#print axioms FinML.C274_without_rounding
#print axioms FinML.C273_order_exact
#print axioms FinML.C273_kahan_exact
#print axioms FinML.C292_without_rounding
#print axioms FinML.C293_without_rounding
#print axioms FinML.C294_without_rounding
#print axioms FinML.C295_without_rounding
#print axioms FinML.C296_without_rounding
#print axioms FinML.C318_without_rounding
#print axioms FinML.C319_without_rounding
#print axioms FinML.C321_without_rounding
#print axioms FinML.C327_without_rounding
#print axioms FinML.FracDiff.C200_threshold
#print axioms FinML.FracDiff.C200_no_columns
#print axioms FinML.FracDiff.C200_critical
#print axioms FinML.Labels.C200_no_target
#print axioms FinML.Labels.C200_no_side
#print axioms FinML.Weights.C200_bootstrap
#print axioms FinML.Weights.C200_no_labels
#print axioms FinML.Default.C153_predict_partial
#print axioms FinML.Default.C153_fit_partial
#print axioms FinML.Default.C153_fit_counterexample
#print axioms FinML.Default.C153_predict_counterexample
#print axioms FinML.Default.C332_unique
#print axioms FinML.Default.C332_ordered
#print axioms FinML.Default.C332_direction_partial
#print axioms FinML.Default.C332_direction_counterexample
#print axioms FinML.Default.C321_relative
#print axioms FinML.Default.C321_sign
#print axioms FinML.Default.C321_order_partial
#print axioms FinML.Default.C321_order_counterexample
#print axioms FinML.Default.C114_law
#print axioms FinML.Default.C114_moments
#print axioms FinML.Default.C114_empty
#print axioms FinML.Default.C115_order
#print axioms FinML.Default.C115_firms
#print axioms FinML.Default.C114_probability
#print axioms FinML.Default.C339_currency_partial
#print axioms FinML.Default.C339_currency_counterexample
#print axioms FinML.Default.C339_fit
#print axioms FinML.Default.C339_firm_model
#print axioms FinML.Default.C250_losses
#print axioms FinML.Default.C250_at_least
#print axioms FinML.Default.C250_ends
#print axioms FinML.Default.C116_fit
#print axioms FinML.Default.C116_raises
#print axioms FinML.Default.C116_round
#print axioms FinML.Default.C116_firm_model
#print axioms FinML.Default.C117_call
#print axioms FinML.Default.C117_probability
#print axioms FinML.Default.C117_decreasing
#print axioms FinML.Default.C146_bounds_counterexample
#print axioms FinML.Default.C146_bounds_partial
#print axioms FinML.Default.C147_regression
#print axioms FinML.Default.C147_constant_market
#print axioms FinML.Default.C155_rows
#print axioms FinML.Default.C155_multiplicity
#print axioms FinML.Default.C155_order
#print axioms FinML.Default.C156_even_counterexample
#print axioms FinML.Default.C156_even_partial
#print axioms FinML.Default.C313_mixture
#print axioms FinML.Default.C313_index
#print axioms FinML.Default.C313_order
#print axioms FinML.Default.C313_repeat
#print axioms FinML.Default.C154_systematic
#print axioms FinML.Default.C154_raises
#print axioms FinML.Default.C154_order
#print axioms FinML.Default.C154_returns
#print axioms FinML.Entropy.C227_append
#print axioms FinML.Entropy.C340_plugin
#print axioms FinML.Entropy.C340_konto
#print axioms FinML.Entropy.C340_lempelziv_counterexample
#print axioms FinML.Entropy.C340_lempelziv_partial
#print axioms FinML.Entropy.C340_spacing_counterexample
#print axioms FinML.Entropy.C340_spacing_partial
#print axioms FinML.Entropy.C75_binary
#print axioms FinML.Entropy.C76_transform
#print axioms FinML.Entropy.C76_order
#print axioms FinML.Entropy.C76_errors
#print axioms FinML.Entropy.C77_symbols
#print axioms FinML.Entropy.C77_order
#print axioms FinML.Entropy.C77_shift
#print axioms FinML.Entropy.C195_lempelziv
#print axioms FinML.Entropy.C195_konto
#print axioms FinML.Entropy.C195_plugin
#print axioms FinML.Entropy.C196_frequencies
#print axioms FinML.Entropy.C196_plugin
#print axioms FinML.Entropy.C72_dictionary
#print axioms FinML.Entropy.C72_empty
#print axioms FinML.Entropy.C72_substrings
#print axioms FinML.Entropy.C73_longest
#print axioms FinML.Entropy.C74_bounds
#print axioms FinML.Entropy.C74_value
#print axioms FinML.Entropy.C74_short
#print axioms FinML.Entropy.C356_counterexample
#print axioms FinML.Entropy.C356_fit_gap
#print axioms FinML.Entropy.C356_no_entropy
#print axioms FinML.Entropy.C356_known_partial
#print axioms FinML.Entropy.C356_binary
#print axioms FinML.Entropy.C356_sigma
#print axioms FinML.Entropy.C317_plugin
#print axioms FinML.Entropy.C317_konto_window
#print axioms FinML.Entropy.C317_konto
#print axioms FinML.Entropy.C317_lempelziv
#print axioms FinML.Entropy.C70_frequencies
#print axioms FinML.Entropy.C70_distribution
#print axioms FinML.Entropy.C71_bounds
#print axioms FinML.Entropy.C137_list_messages_counterexample
#print axioms FinML.Entropy.C137_list_messages_partial
#print axioms FinML.Entropy.C163_thresholds
#print axioms FinML.Entropy.C163_even_counterexample
#print axioms FinML.Entropy.C163_even_partial
#print axioms FinML.Entropy.C169_plugin
#print axioms FinML.Entropy.C169_lempelziv
#print axioms FinML.Entropy.C169_longest_match
#print axioms FinML.Entropy.C169_konto
#print axioms FinML.Entropy.C169_binary
#print axioms FinML.Entropy.C169_sigma
#print axioms FinML.Entropy.C169_quantile
#print axioms FinML.Entropy.C319_symbols_partial
#print axioms FinML.Entropy.C319_near_partial
#print axioms FinML.Entropy.C319_order
#print axioms FinML.Entropy.C319_exact_partial
#print axioms FinML.Entropy.C319_exact_counterexample
#print axioms FinML.Entropy.C319_grid_counterexample
#print axioms FinML.Entropy.C319_grid_partial
#print axioms FinML.Entropy.C305_zero_partial
#print axioms FinML.Entropy.C305_empty
#print axioms FinML.Entropy.C305_negative
#print axioms FinML.Entropy.C305_refuses_counterexample
#print axioms FinML.Filters.C235_count
#print axioms FinML.Filters.C235_gap
#print axioms FinML.Filters.C281_doubles_counterexample
#print axioms FinML.Filters.C281_ticks_partial
#print axioms FinML.Filters.C281_close_partial
#print axioms FinML.Filters.C281_clear_partial
#print axioms FinML.Filters.C282_negation
#print axioms FinML.Filters.C282_scale
#print axioms FinML.Filters.C325_default
#print axioms FinML.Filters.C325_value
#print axioms FinML.Filters.C325_affine_counterexample
#print axioms FinML.Filters.C325_affine_partial
#print axioms FinML.Filters.C325_extremes
#print axioms FinML.Filters.C325_max_bound
#print axioms FinML.Filters.C325_aggregates
#print axioms FinML.Filters.C360_hull
#print axioms FinML.Filters.C198_missing_counterexample
#print axioms FinML.Filters.C198_complete
#print axioms FinML.Filters.C198_missing_partial
#print axioms FinML.Filters.C55_scale
#print axioms FinML.Filters.C55_clock
#print axioms FinML.Filters.C372_counterexample
#print axioms FinML.Filters.C372_at_most
#print axioms FinML.Filters.C372_missing_median
#print axioms FinML.Filters.C372_complete_partial
#print axioms FinML.Filters.C56_median
#print axioms FinML.Filters.C56_fraction
#print axioms FinML.Filters.C56_defined
#print axioms FinML.Filters.C56_affine
#print axioms FinML.Filters.C56_negation
#print axioms FinML.Filters.C134_trend
#print axioms FinML.Filters.C134_reversion
#print axioms FinML.Filters.C57_value
#print axioms FinML.Filters.C57_affine
#print axioms FinML.Filters.C57_constant
#print axioms FinML.Filters.C57_lag
#print axioms FinML.Filters.C223_fewest
#print axioms FinML.Filters.C223_threshold
#print axioms FinML.Filters.C224_nested_counterexample
#print axioms FinML.Filters.C224_between_partial
#print axioms FinML.Filters.C225_trend
#print axioms FinML.Filters.C225_lag
#print axioms FinML.Filters.C53_justified
#print axioms FinML.Filters.C53_times
#print axioms FinML.Filters.C54_complete
#print axioms FinML.Filters.C53_duplicate_labels
#print axioms FinML.Filters.C55_isometry
#print axioms FinML.Filters.C55_negation
#print axioms FinML.Filters.C55_shift
#print axioms FinML.Filters.C55_causal
#print axioms FinML.Filters.C268_shuffled
#print axioms FinML.FracDiff.C68_dropped
#print axioms FinML.FracDiff.C164_rows
#print axioms FinML.FracDiff.C164_levels
#print axioms FinML.FracDiff.C164_unit
#print axioms FinML.FracDiff.C164_returns
#print axioms FinML.FracDiff.C197_append_counterexample
#print axioms FinML.FracDiff.C197_append_expanding_partial
#print axioms FinML.FracDiff.C197_append_fixed_partial
#print axioms FinML.FracDiff.C272_accurate_counterexample
#print axioms FinML.FracDiff.C272_absolute_partial
#print axioms FinML.FracDiff.C272_relative_partial
#print axioms FinML.FracDiff.C272_whole_partial
#print axioms FinML.FracDiff.C248_weights
#print axioms FinML.FracDiff.C248_level
#print axioms FinML.FracDiff.C248_fades
#print axioms FinML.FracDiff.C248_fixed
#print axioms FinML.FracDiff.C248_bounds
#print axioms FinML.FracDiff.C65_weights
#print axioms FinML.FracDiff.C65_integer_order
#print axioms FinML.FracDiff.C66_integer_orders
#print axioms FinML.FracDiff.C66_no_skip
#print axioms FinML.FracDiff.C66_linear
#print axioms FinML.FracDiff.C67_compose
#print axioms FinML.FracDiff.C67_inverse
#print axioms FinML.FracDiff.C68_weights
#print axioms FinML.FracDiff.C68_values
#print axioms FinML.FracDiff.C69_skips
#print axioms FinML.FracDiff.C69_monotone
#print axioms FinML.FracDiff.C69_causal
#print axioms FinML.FracDiff.C136_missing_counterexample
#print axioms FinML.FracDiff.C136_fixed
#print axioms FinML.FracDiff.C136_missing_partial
#print axioms FinML.FracDiff.C334_error
#print axioms FinML.FracDiff.C334_sharp
#print axioms FinML.Labels.C316_rise_partial
#print axioms FinML.Labels.C316_below
#print axioms FinML.Labels.C316_rise_counterexample
#print axioms FinML.Labels.C257_short_counterexample
#print axioms FinML.Labels.C257_better_partial
#print axioms FinML.Labels.C279_barriers_counterexample
#print axioms FinML.Labels.C279_without_rounding
#print axioms FinML.Labels.C279_clear_partial
#print axioms FinML.Labels.C280_sign
#print axioms FinML.Labels.C280_event
#print axioms FinML.Labels.C290_agree
#print axioms FinML.Labels.C290_long
#print axioms FinML.Labels.C290_short
#print axioms FinML.Labels.C290_finite_counterexample
#print axioms FinML.Labels.C290_finite_partial
#print axioms FinML.Labels.C357_counterexample
#print axioms FinML.Labels.C357_no_start
#print axioms FinML.Labels.C357_label_partial
#print axioms FinML.Labels.C357_late
#print axioms FinML.Labels.C167_ends_only
#print axioms FinML.Labels.C167_kfold
#print axioms FinML.Labels.C167_combinatorial
#print axioms FinML.Labels.C231_short_counterexample
#print axioms FinML.Labels.C231_short_partial
#print axioms FinML.Labels.C237_pipeline
#print axioms FinML.Labels.C22_first_barrier
#print axioms FinML.Labels.C22_rejects
#print axioms FinML.Labels.C22_end_to_end
#print axioms FinML.Labels.C23_expired_short_counterexample
#print axioms FinML.Labels.C23_return_partial
#print axioms FinML.Labels.C24_zero_multiplier
#print axioms FinML.Labels.C24_negative_multiplier
#print axioms FinML.Labels.C24_no_side_multiplier
#print axioms FinML.Labels.C25_filtered_events_counterexample
#print axioms FinML.Labels.C25_filtered_events_partial
#print axioms FinML.Labels.C26_labels
#print axioms FinML.Labels.C27_window_only
#print axioms FinML.Labels.C130_expiry_between_bars_counterexample
#print axioms FinML.Labels.C130_no_prices_after_bar_partial
#print axioms FinML.Labels.C129_documented_short_counterexample
#print axioms FinML.Labels.C129_sides_partial
#print axioms FinML.Labels.C174_returns
#print axioms FinML.Labels.C174_labels
#print axioms FinML.Labels.C228_wider
#print axioms FinML.Labels.C228_profit
#print axioms FinML.Labels.C359_counterexample
#print axioms FinML.Labels.C359_complete
#print axioms FinML.Labels.C359_inside_partial
#print axioms FinML.Labels.C359_start
#print axioms FinML.Labels.C186_options_partial
#print axioms FinML.Labels.C186_unaligned_counterexample
#print axioms FinML.Labels.C28_aligned_windows
#print axioms FinML.Labels.C28_unaligned_windows
#print axioms FinML.Labels.C29_window_return_partial
#print axioms FinML.Labels.C29_window_return_counterexample
#print axioms FinML.Metrics.C226_drawdowns
#print axioms FinML.Metrics.C226_under_water
#print axioms FinML.Metrics.C242_chain
#print axioms FinML.Metrics.C242_no_flow
#print axioms FinML.Metrics.C285_money
#print axioms FinML.Metrics.C285_relative
#print axioms FinML.Metrics.C285_deepest
#print axioms FinML.Metrics.C285_days
#print axioms FinML.Metrics.C95_drawdowns
#print axioms FinML.Metrics.C95_maximum
#print axioms FinML.Metrics.C95_relative
#print axioms FinML.Metrics.C96_under_water_counterexample
#print axioms FinML.Metrics.C96_under_water_partial
#print axioms FinML.Metrics.C288_empty_counterexample
#print axioms FinML.Metrics.C288_empty_partial
#print axioms FinML.Metrics.C288_cases
#print axioms FinML.Metrics.C288_agree
#print axioms FinML.Metrics.C98_zero_radicand
#print axioms FinML.Metrics.C140_formula
#print axioms FinML.Metrics.C232_gain_counterexample
#print axioms FinML.Metrics.C232_gain_partial
#print axioms FinML.Metrics.C284_negative_counterexample
#print axioms FinML.Metrics.C284_sum
#print axioms FinML.Metrics.C284_close_partial
#print axioms FinML.Metrics.C284_single
#print axioms FinML.Metrics.C284_mirror
#print axioms FinML.Metrics.C296_holding_period_partial
#print axioms FinML.Metrics.C296_span_counterexample
#print axioms FinML.Metrics.C261_last_counterexample
#print axioms FinML.Metrics.C261_last_partial
#print axioms FinML.Metrics.C302_missing_partial
#print axioms FinML.Metrics.C302_leading
#print axioms FinML.Metrics.C302_missing_counterexample
#print axioms FinML.Metrics.C303_present_partial
#print axioms FinML.Metrics.C303_few
#print axioms FinML.Metrics.C303_present_counterexample
#print axioms FinML.Metrics.C338_mixture_counterexample
#print axioms FinML.Metrics.C338_mixture_partial
#print axioms FinML.Metrics.C338_uncorrelated
#print axioms FinML.Metrics.C363_timings_counterexample
#print axioms FinML.Metrics.C363_holding_counterexample
#print axioms FinML.Metrics.C363_holding_complete
#print axioms FinML.Metrics.C363_trailing_partial
#print axioms FinML.Metrics.C363_reported
#print axioms FinML.Metrics.C363_timings_complete
#print axioms FinML.Metrics.C363_known_partial
#print axioms FinML.Metrics.C91_timings_counterexample
#print axioms FinML.Metrics.C91_timings_partial
#print axioms FinML.Metrics.C92_holding_period
#print axioms FinML.Metrics.C92_round_trip
#print axioms FinML.Metrics.C92_empty
#print axioms FinML.Metrics.C311_raise_partial
#print axioms FinML.Metrics.C311_raise_counterexample
#print axioms FinML.Metrics.C311_outlier
#print axioms FinML.Metrics.C93_time_weighted
#print axioms FinML.Metrics.C93_covers
#print axioms FinML.Metrics.C93_flows_do_not_matter
#print axioms FinML.Metrics.C94_concentration
#print axioms FinML.Metrics.C94_missing
#print axioms FinML.Metrics.C139_index_counterexample
#print axioms FinML.Metrics.C139_index_partial
#print axioms FinML.Metrics.C97_defined
#print axioms FinML.Metrics.C97_scale
#print axioms FinML.Metrics.C97_information
#print axioms FinML.Metrics.C97_annualized
#print axioms FinML.Metrics.C98_psr_counterexample
#print axioms FinML.Metrics.C98_raw_kurtosis
#print axioms FinML.Metrics.C98_psr_partial
#print axioms FinML.Metrics.C98_formula
#print axioms FinML.Metrics.C99_axis_counterexample
#print axioms FinML.Metrics.C99_axis_partial
#print axioms FinML.Metrics.C140_deflated
#print axioms FinML.Metrics.C140_missing
#print axioms FinML.Metrics.C251_gains
#print axioms FinML.Metrics.C251_losses
#print axioms FinML.Metrics.C322_benchmark
#print axioms FinML.Metrics.C322_trials_partial
#print axioms FinML.Metrics.C322_trials_counterexample
#print axioms FinML.Metrics.C327_return_counterexample
#print axioms FinML.Metrics.C327_return_partial
#print axioms FinML.Metrics.C362_counterexample
#print axioms FinML.Metrics.C362_split
#print axioms FinML.Metrics.C362_last
#print axioms FinML.Metrics.C362_complete
#print axioms FinML.Metrics.C362_first_partial
#print axioms FinML.Metrics.C176_timings
#print axioms FinML.Metrics.C176_holding_period
#print axioms FinML.Metrics.C176_time_weighted
#print axioms FinML.Metrics.C176_concentration
#print axioms FinML.Metrics.C176_drawdowns
#print axioms FinML.Metrics.C176_sharpe
#print axioms FinML.Micro.C253_hull
#print axioms FinML.Micro.C253_high_low
#print axioms FinML.Micro.C253_corwin_schultz
#print axioms FinML.Micro.C253_tick_rule
#print axioms FinML.Micro.C253_vpin
#print axioms FinML.Micro.C253_daily_returns
#print axioms FinML.Micro.C253_daily_volatility
#print axioms FinML.Micro.C62_vpin_counterexample
#print axioms FinML.Micro.C62_vpin_partial
#print axioms FinML.Micro.C63_kyle
#print axioms FinML.Micro.C63_amihud
#print axioms FinML.Micro.C63_hasbrouck
#print axioms FinML.Micro.C64_total_counterexample
#print axioms FinML.Micro.C64_total_partial
#print axioms FinML.Micro.C354_kyle_partial
#print axioms FinML.Micro.C354_kyle_complete
#print axioms FinML.Micro.C354_amihud_partial
#print axioms FinML.Micro.C354_hasbrouck_volume
#print axioms FinML.Micro.C354_amihud_complete
#print axioms FinML.Micro.C354_hasbrouck_complete
#print axioms FinML.Micro.C354_counterexample
#print axioms FinML.Micro.C328_inverse
#print axioms FinML.Micro.C328_signs
#print axioms FinML.Micro.C328_bound_partial
#print axioms FinML.Micro.C328_bound_counterexample
#print axioms FinML.Micro.C354_hasbrouck_last
#print axioms FinML.Micro.C342_merged
#print axioms FinML.Micro.C342_subadditive
#print axioms FinML.Micro.C343_counterexample
#print axioms FinML.Micro.C343_pin_partial
#print axioms FinML.Micro.C343_equal_trades
#print axioms FinML.Micro.C355_value
#print axioms FinML.Micro.C355_fill_partial
#print axioms FinML.Micro.C355_complete
#print axioms FinML.Micro.C355_counterexample
#print axioms FinML.Micro.C59_nonneg_counterexample
#print axioms FinML.Micro.C59_nonneg_partial
#print axioms FinML.Micro.C59_short
#print axioms FinML.Micro.C60_value
#print axioms FinML.Micro.C60_zero
#print axioms FinML.Micro.C60_scale
#print axioms FinML.Micro.C61_spread
#print axioms FinML.Micro.C61_volatility
#print axioms FinML.Micro.C61_scale
#print axioms FinML.Micro.C135_constant_quotes
#print axioms FinML.Micro.C135_equations
#print axioms FinML.Micro.C352_values
#print axioms FinML.Micro.C352_high_low
#print axioms FinML.Micro.C352_starts_partial
#print axioms FinML.Micro.C352_lag
#print axioms FinML.Micro.C352_counterexample
#print axioms FinML.Micro.C353_gap_partial
#print axioms FinML.Micro.C353_complete
#print axioms FinML.Micro.C353_counterexample
#print axioms FinML.Micro.C260_noise
#print axioms FinML.Micro.C260_spread
#print axioms FinML.Micro.C199_vpin_units
#print axioms FinML.Micro.C199_vpin_mirror
#print axioms FinML.Micro.C199_roll
#print axioms FinML.Micro.C199_kyle_units
#print axioms FinML.Micro.C199_kyle_mirror
#print axioms FinML.Micro.C199_amihud_units
#print axioms FinML.Micro.C199_hasbrouck_units
#print axioms FinML.Options.C103_defined
#print axioms FinML.Options.C103_nonneg
#print axioms FinML.Options.C103_upper
#print axioms FinML.Options.C103_probability
#print axioms FinML.Options.C104_american_counterexample
#print axioms FinML.Options.C104_american_partial
#print axioms FinML.Options.C104_intrinsic
#print axioms FinML.Options.C105_expectation
#print axioms FinML.Options.C105_parity
#print axioms FinML.Options.C105_needs_drift
#print axioms FinML.Options.C106_call
#print axioms FinML.Options.C106_put
#print axioms FinML.Options.C107_control_variates
#print axioms FinML.Options.C108_parity
#print axioms FinML.Options.C108_dividends
#print axioms FinML.Options.C108_both
#print axioms FinML.Options.C109_bounds
#print axioms FinML.Options.C109_no_volatility
#print axioms FinML.Options.C110_increasing
#print axioms FinML.Options.C110_exists_unique
#print axioms FinML.Options.C110_implied
#print axioms FinML.Options.C142_slopes
#print axioms FinML.Options.C142_asset_price
#print axioms FinML.Options.C143_expectation
#print axioms FinML.Options.C112_forward_rate
#print axioms FinML.Options.C112_compound
#print axioms FinML.Options.C113_scaling
#print axioms FinML.Options.C113_normal
#print axioms FinML.Options.C111_parity
#print axioms FinML.Options.C111_no_common_strike
#print axioms FinML.Options.C111_sorted
#print axioms FinML.Options.C144_same_density
#print axioms FinML.Options.C144_same_density_volatility
#print axioms FinML.Options.C144_implied_volatility
#print axioms FinML.Options.C145_rows
#print axioms FinML.Options.C145_density
#print axioms FinML.Options.C145_smoothed
#print axioms FinML.Options.C145_weights
#print axioms FinML.Options.C145_returns
#print axioms FinML.Options.C145_missing
#print axioms FinML.Options.C330_superposition
#print axioms FinML.Options.C330_exact
#print axioms FinML.Options.C330_shift
#print axioms FinML.Options.C330_units
#print axioms FinML.Options.C165_knots
#print axioms FinML.Options.C165_between_counterexample
#print axioms FinML.Options.C165_between_partial
#print axioms FinML.Options.C247_bsm
#print axioms FinML.Options.C247_binom
#print axioms FinML.Options.C292_probability
#print axioms FinML.Options.C292_drift
#print axioms FinML.Options.C292_american
#print axioms FinML.Options.C292_intrinsic
#print axioms FinML.Options.C292_strike
#print axioms FinML.Options.C292_spot
#print axioms FinML.Options.C292_accuracy
#print axioms FinML.Options.C292_put_counterexample
#print axioms FinML.Options.C292_put_partial
#print axioms FinML.Options.C233_put_region
#print axioms FinML.Options.C233_call_region
#print axioms FinML.Options.C233_time
#print axioms FinML.Options.C234_parity
#print axioms FinML.Options.C205_put_counterexample
#print axioms FinML.Options.C205_longer_partial
#print axioms FinML.Options.C206_expiry_counterexample
#print axioms FinML.Options.C206_expiry_partial
#print axioms FinML.Options.C206_limit
#print axioms FinML.Options.C256_chain
#print axioms FinML.Options.C256_reverse
#print axioms FinML.Options.C256_sign
#print axioms FinML.Options.C256_refusals
#print axioms FinML.Options.C256_at_the_forward
#print axioms FinML.Options.C262_parity
#print axioms FinML.Options.C262_dearer
#print axioms FinML.Options.C262_currency
#print axioms FinML.Options.C214_limit
#print axioms FinML.Options.C214_control_variates
#print axioms FinML.Options.C214_american_call
#print axioms FinML.Options.C107_returns
#print axioms FinML.Options.C141_best_policy
#print axioms FinML.Options.C307_negative_partial
#print axioms FinML.Options.C307_zero
#print axioms FinML.Options.C307_expiry
#print axioms FinML.Options.C307_exact
#print axioms FinML.Options.C307_ignores_counterexample
#print axioms FinML.Options.C258_bsm
#print axioms FinML.Options.C258_bsm_futures
#print axioms FinML.Options.C258_tree
#print axioms FinML.Options.C258_tree_futures
#print axioms FinML.Options.C240_majority
#print axioms FinML.Options.C240_range
#print axioms FinML.Options.C170_bsm_units
#print axioms FinML.Options.C170_binom_units
#print axioms FinML.Options.C170_binom_am_units
#print axioms FinML.Options.C170_call_spread
#print axioms FinML.Options.C170_put_spread
#print axioms FinML.Options.C170_butterfly
#print axioms FinML.Options.C170_binom_convex
#print axioms FinML.Options.C170_binom_spread
#print axioms FinML.Options.C170_binom_spot
#print axioms FinML.Options.C331_reprice
#print axioms FinML.Options.C331_from_above
#print axioms FinML.Options.C331_error_partial
#print axioms FinML.Options.C331_error_counterexample
#print axioms FinML.Options.C172_binom
#print axioms FinML.Options.C172_futures
#print axioms FinML.Options.C172_bsm
#print axioms FinML.Options.C336_monotone
#print axioms FinML.Options.C336_needs_drift
#print axioms FinML.Options.C336_flat
#print axioms FinML.Options.C336_implied
#print axioms FinML.Options.C306_dividends_partial
#print axioms FinML.Options.C306_raises
#print axioms FinML.Options.C306_limit
#print axioms FinML.Options.C306_zero_strike_counterexample
#print axioms FinML.Risk.C315_agree
#print axioms FinML.Risk.C315_precision_iff
#print axioms FinML.Risk.C315_precision_partial
#print axioms FinML.Risk.C315_precision_counterexample
#print axioms FinML.Risk.C315_impossible
#print axioms FinML.Risk.C315_freq_partial
#print axioms FinML.Risk.C315_freq_impossible
#print axioms FinML.Risk.C315_freq_counterexample
#print axioms FinML.Risk.C101_tolerance
#print axioms FinML.Risk.C102_no_returns
#print axioms FinML.Risk.C102_one_sided
#print axioms FinML.Risk.C369_complete
#print axioms FinML.Risk.C369_higher
#print axioms FinML.Risk.C369_counterexample
#print axioms FinML.Risk.C369_known_partial
#print axioms FinML.Risk.C259_precision
#print axioms FinML.Risk.C259_freq
#print axioms FinML.Risk.C259_higher_counterexample
#print axioms FinML.Risk.C259_higher_partial
#print axioms FinML.Risk.C102_bets
#print axioms FinML.Risk.C100_required_precision
#print axioms FinML.Risk.C102_sharpe_increasing
#print axioms FinML.Risk.C102_precision_monotone
#print axioms FinML.Risk.C101_required_freq
#print axioms FinML.Risk.C101_break_even
#print axioms FinML.Risk.C102_failure_formula
#print axioms FinML.Risk.C102_failure_counterexample
#print axioms FinML.Risk.C102_failure_partial
#print axioms FinML.Risk.C207_currency
#print axioms FinML.Risk.C207_failure
#print axioms FinML.Risk.C207_time
#print axioms FinML.Risk.C208_half
#print axioms FinML.Risk.C209_sample_counterexample
#print axioms FinML.Risk.C209_sample_partial
#print axioms FinML.Sim.C243_couple
#print axioms FinML.Sim.C243_units
#print axioms FinML.Sim.C264_gbm
#print axioms FinML.Sim.C264_gbm_limit
#print axioms FinML.Sim.C264_ou
#print axioms FinML.Sim.C264_seeded
#print axioms FinML.Sim.C122_product
#print axioms FinML.Sim.C122_proportional
#print axioms FinML.Sim.C122_positive
#print axioms FinML.Sim.C123_deviation
#print axioms FinML.Sim.C123_half_life
#print axioms FinML.Sim.C123_integer_seed
#print axioms FinML.Sim.C123_zero
#print axioms FinML.Sim.C124_sizes
#print axioms FinML.Sim.C124_error
#print axioms FinML.Sim.C150_reproducible_counterexample
#print axioms FinML.Sim.C150_reproducible_partial
#print axioms FinML.Sim.C151_order
#print axioms FinML.Sim.C151_simulation
#print axioms FinML.Stats.C333_moments
#print axioms FinML.Stats.C333_affine
#print axioms FinML.Stats.C333_mirror
#print axioms FinML.Stats.C333_symmetric
#print axioms FinML.Stats.C333_pbo
#print axioms FinML.Stats.C161_pbo_counterexample
#print axioms FinML.Stats.C161_pbo_partial
#print axioms FinML.Stats.C162_implied_partial
#print axioms FinML.Stats.C162_implied_counterexample
#print axioms FinML.Stats.C162_refusals
#print axioms FinML.Stats.C370_durbin_watson
#print axioms FinML.Stats.C370_autocorr_partial
#print axioms FinML.Stats.C370_autocorr_counterexample
#print axioms FinML.Stats.C254_monotone
#print axioms FinML.Stats.C254_reorder
#print axioms FinML.Stats.C254_extremes
#print axioms FinML.Stats.C255_identity
#print axioms FinML.Stats.C255_durbin_reverse
#print axioms FinML.Stats.C255_autocorr_reverse
#print axioms FinML.Stats.C236_probability_partial
#print axioms FinML.Stats.C236_probability_counterexample
#print axioms FinML.Stats.C300_selected_partial
#print axioms FinML.Stats.C300_idle_selected
#print axioms FinML.Stats.C300_idle
#print axioms FinML.Stats.C300_selected_counterexample
#print axioms FinML.Stats.C300_agree
#print axioms FinML.Stats.C373_selected
#print axioms FinML.Stats.C373_counterexample
#print axioms FinML.Stats.C373_complete_partial
#print axioms FinML.Stats.C373_known_partial
#print axioms FinML.Stats.C158_value
#print axioms FinML.Stats.C158_affine
#print axioms FinML.Stats.C157_range
#print axioms FinML.Stats.C157_scale
#print axioms FinML.Stats.C159_value
#print axioms FinML.Stats.C159_affine
#print axioms FinML.Stats.C160_pval_counterexample
#print axioms FinML.Stats.C160_weighted_counterexample
#print axioms FinML.Stats.C160_pval_partial
#print axioms FinML.Stats.C312_jarque_bera
#print axioms FinML.Stats.C312_sharpe
#print axioms FinML.Stats.C312_order
#print axioms FinML.Stats.C350_winner_partial
#print axioms FinML.Stats.C350_loser
#print axioms FinML.Stats.C350_counterexample
#print axioms FinML.TimeSeries.C324_longer_partial
#print axioms FinML.TimeSeries.C324_later
#print axioms FinML.TimeSeries.C324_bars
#print axioms FinML.TimeSeries.C324_longer_counterexample
#print axioms FinML.TimeSeries.C166_formula
#print axioms FinML.TimeSeries.C166_small_span
#print axioms FinML.TimeSeries.C166_zero
#print axioms FinML.TimeSeries.C166_unit
#print axioms FinML.TimeSeries.C166_labels_partial
#print axioms FinML.TimeSeries.C166_labels_counterexample
#print axioms FinML.TimeSeries.C365_returns
#print axioms FinML.TimeSeries.C365_repeat
#print axioms FinML.TimeSeries.C365_before
#print axioms FinML.TimeSeries.C30_unsorted_events_counterexample
#print axioms FinML.TimeSeries.C30_vertical_barriers_partial
#print axioms FinML.TimeSeries.C31_intraday_pairs
#print axioms FinML.TimeSeries.C31_daily_gap_counterexample
#print axioms FinML.TimeSeries.C31_daily_pairs_partial
#print axioms FinML.TimeSeries.C31_daily_returns
#print axioms FinML.Weights.C35_probabilities
#print axioms FinML.Weights.C35_draws
#print axioms FinML.Weights.C294_decay_partial
#print axioms FinML.Weights.C294_floor_counterexample
#print axioms FinML.Weights.C298_missing_partial
#print axioms FinML.Weights.C298_newest_missing
#print axioms FinML.Weights.C298_minus_one
#print axioms FinML.Weights.C298_weighted_counterexample
#print axioms FinML.Weights.C36_weights
#print axioms FinML.Weights.C36_sum
#print axioms FinML.Weights.C37_time_decay
#print axioms FinML.Weights.C132_oldest_weight_counterexample
#print axioms FinML.Weights.C132_oldest_weight_partial
#print axioms FinML.Weights.C38_drop_rare
#print axioms FinML.Weights.C273_accepted
#print axioms FinML.Weights.C239_idempotent
#print axioms FinML.Weights.C239_nested
#print axioms FinML.Weights.C239_two_steps
#print axioms FinML.Weights.C246_expected
#print axioms FinML.Weights.C246_local
#print axioms FinML.Weights.C358_counterexample
#print axioms FinML.Weights.C358_complete
#print axioms FinML.Weights.C358_inside_partial
#print axioms FinML.Weights.C358_gap
#print axioms FinML.Weights.C230_scale_counterexample
#print axioms FinML.Weights.C230_kfold_partial
#print axioms FinML.Weights.C230_bar_after_counterexample
#print axioms FinML.Weights.C230_purging_partial
#print axioms FinML.Weights.C304_unlabelled
#print axioms FinML.Weights.C304_share_partial
#print axioms FinML.Weights.C304_share_counterexample
#print axioms FinML.Weights.C218_more_events
#print axioms FinML.Weights.C187_unsorted_events_counterexample
#print axioms FinML.Weights.C187_counts_partial
#print axioms FinML.Weights.C188_below_minus_one_counterexample
#print axioms FinML.Weights.C188_negative_partial
#print axioms FinML.Weights.C189_bar_before_counterexample
#print axioms FinML.Weights.C189_event_prices_partial
#print axioms FinML.Weights.C32_counts
#print axioms FinML.Weights.C32_empty
#print axioms FinML.Weights.C33_uniqueness
#print axioms FinML.Weights.C33_total
#print axioms FinML.Weights.C34_indicators
#print axioms FinML.Weights.C131_equal_starts_counterexample
#print axioms FinML.Weights.C131_own_uniqueness_partial
#print axioms FinML.Weights.C217_again_counterexample
#print axioms FinML.Weights.C217_uniqueness_partial
#print axioms FinML.Weights.C217_first_partial
#print axioms FinML.Weights.C299_weights_partial
#print axioms FinML.Weights.C299_agree
#print axioms FinML.Weights.C299_zero_price
#print axioms FinML.Weights.C299_weights_counterexample
#print axioms FinML.Weights.C329_share
#print axioms FinML.Weights.C329_total_partial
#print axioms FinML.Weights.C329_total_counterexample
#print axioms FinML.Weights.C293_uniqueness
#print axioms FinML.Weights.C175_counts
#print axioms FinML.Weights.C175_uniqueness
#print axioms FinML.Weights.C175_indicators
#print axioms FinML.Weights.C175_weights
