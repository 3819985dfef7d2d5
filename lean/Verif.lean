import Verif.Alloc.BudgetDoubleModel
import Verif.Alloc.BudgetDoubleProps
import Verif.Alloc.CausalProps
import Verif.Alloc.ComplexModel
import Verif.Alloc.ComplexProps
import Verif.Alloc.ConfidentProps
import Verif.Alloc.CopyProps
import Verif.Alloc.DivDoubleModel
import Verif.Alloc.DivDoubleProps
import Verif.Alloc.DivProps
import Verif.Alloc.DoubleModel
import Verif.Alloc.DoubleProps
import Verif.Alloc.HrpDoubleModel
import Verif.Alloc.HrpDoubleProps
import Verif.Alloc.HrpFloatModel
import Verif.Alloc.HrpFloatProps
import Verif.Alloc.HrpInvProps
import Verif.Alloc.HrpModel
import Verif.Alloc.HrpProps
import Verif.Alloc.HrpSpec
import Verif.Alloc.LimitProps
import Verif.Alloc.LinkProps
import Verif.Alloc.MirrorProps
import Verif.Alloc.MissModel
import Verif.Alloc.MissProps
import Verif.Alloc.MoreEventsProps
import Verif.Alloc.NearProps
import Verif.Alloc.PcaProps
import Verif.Alloc.PcaSignProps
import Verif.Alloc.PcaSizeProps
import Verif.Alloc.PosModel
import Verif.Alloc.PosProps
import Verif.Alloc.ProbProps
import Verif.Alloc.RiskProps
import Verif.Alloc.RiskierProps
import Verif.Alloc.TreeProps
import Verif.Bars.Causal
import Verif.Bars.DoubleModel
import Verif.Bars.DoubleProps
import Verif.Bars.EwmaDoubleModel
import Verif.Bars.EwmaDoubleProps
import Verif.Bars.EwmaLemmas
import Verif.Bars.EwmaMissModel
import Verif.Bars.EwmaMissProps
import Verif.Bars.EwmaProps
import Verif.Bars.EwmaSpec
import Verif.Bars.FlowProps
import Verif.Bars.ForgetProps
import Verif.Bars.FreqProps
import Verif.Bars.ImbLemmas
import Verif.Bars.ImbMissProps
import Verif.Bars.LabelModel
import Verif.Bars.LabelProps
import Verif.Bars.Lemmas
import Verif.Bars.LoopLemmas
import Verif.Bars.LoopProps
import Verif.Bars.LoopSpec
import Verif.Bars.MirrorProps
import Verif.Bars.MissFlowModel
import Verif.Bars.MissModel
import Verif.Bars.MissProps
import Verif.Bars.Model
import Verif.Bars.Props
import Verif.Bars.RunsLemmas
import Verif.Bars.RunsMissModel
import Verif.Bars.RunsMissProps
import Verif.Bars.SizeProps
import Verif.Bars.Spec
import Verif.Bars.StreamProps
import Verif.Bars.TickMissProps
import Verif.Bars.UnitProps
import Verif.Bars.VwapDoubleModel
import Verif.Bars.VwapDoubleProps
import Verif.Basket.EtfFloatModel
import Verif.Basket.EtfFloatProps
import Verif.Basket.FloatModel
import Verif.Basket.FloatProps
import Verif.Basket.GapModel
import Verif.Basket.GapProps
import Verif.Basket.InvProps
import Verif.Basket.Lemmas
import Verif.Basket.Model
import Verif.Basket.Props
import Verif.Basket.RollGapModel
import Verif.Basket.RollGapProps
import Verif.Basket.RollLemmas
import Verif.Basket.Spec
import Verif.Breaks.BubbleProps
import Verif.Breaks.CusumProps
import Verif.Breaks.GapModel
import Verif.Breaks.GapProps
import Verif.Breaks.InvarianceProps
import Verif.Breaks.LevelBoundProps
import Verif.Breaks.LevelMissModel
import Verif.Breaks.LevelMissProps
import Verif.Breaks.Model
import Verif.Breaks.RecursiveModel
import Verif.Breaks.RecursiveProps
import Verif.Breaks.SadfProps
import Verif.Breaks.SadfTotalProps
import Verif.CV.CombiModel
import Verif.CV.CombiProps
import Verif.CV.CountModel
import Verif.CV.CountProps
import Verif.CV.DefaultProps
import Verif.CV.DoubleProps
import Verif.CV.EmbargoProps
import Verif.CV.FeatureProps
import Verif.CV.IgnoredProps
import Verif.CV.KFoldProps
import Verif.CV.MdaFloatModel
import Verif.CV.MdaFloatProps
import Verif.CV.MdiProps
import Verif.CV.MirrorProps
import Verif.CV.Model
import Verif.CV.NegEmbargoProps
import Verif.CV.OpenProps
import Verif.CV.OrderProps
import Verif.CV.PadProps
import Verif.CV.PassProps
import Verif.CV.PboProps
import Verif.CV.Props
import Verif.CV.RefuseProps
import Verif.CV.ScoreModel
import Verif.CV.ScoreProps
import Verif.CV.SfiStateModel
import Verif.CV.SfiStateProps
import Verif.CV.Spec
import Verif.CV.TestwiseProps
import Verif.CV.TotalProps
import Verif.Conformance.CV
import Verif.Conformance.DoubleProps
import Verif.Conformance.ErrorProps
import Verif.Conformance.Labels
import Verif.Conformance.Reals
import Verif.Conformance.Series
import Verif.Conformance.Weights
import Verif.Default.AnnualProps
import Verif.Default.AssetProps
import Verif.Default.CountDoubleModel
import Verif.Default.CountDoubleProps
import Verif.Default.CountLemmas
import Verif.Default.CountProps
import Verif.Default.CurrencyProps
import Verif.Default.DominanceProps
import Verif.Default.FirmProps
import Verif.Default.MergeProps
import Verif.Default.MixProps
import Verif.Default.Model
import Verif.Default.SystemModel
import Verif.Default.SystemProps
import Verif.Entropy.AppendProps
import Verif.Entropy.CoarseProps
import Verif.Entropy.EncodeProps
import Verif.Entropy.ExtremalProps
import Verif.Entropy.LzProps
import Verif.Entropy.MissModel
import Verif.Entropy.MissProps
import Verif.Entropy.Model
import Verif.Entropy.PeriodicProps
import Verif.Entropy.Props
import Verif.Entropy.QuantileProps
import Verif.Entropy.RecodeProps
import Verif.Entropy.SigmaDoubleModel
import Verif.Entropy.SigmaDoubleProps
import Verif.Entropy.SigmaProps
import Verif.Filters.CountProps
import Verif.Filters.DoubleModel
import Verif.Filters.DoubleProps
import Verif.Filters.HullAggModel
import Verif.Filters.HullAggProps
import Verif.Filters.HullMissModel
import Verif.Filters.HullMissProps
import Verif.Filters.MissingModel
import Verif.Filters.MissingProps
import Verif.Filters.MmiMissModel
import Verif.Filters.MmiMissProps
import Verif.Filters.MmiProps
import Verif.Filters.Model
import Verif.Filters.OptimalProps
import Verif.Filters.Props
import Verif.Filters.ShuffleProps
import Verif.Filters.Spec
import Verif.FracDiff.AdfModel
import Verif.FracDiff.AdfProps
import Verif.FracDiff.AppendProps
import Verif.FracDiff.DoubleModel
import Verif.FracDiff.DoubleProps
import Verif.FracDiff.Frames
import Verif.FracDiff.Lemmas
import Verif.FracDiff.LevelProps
import Verif.FracDiff.Model
import Verif.FracDiff.Props
import Verif.FracDiff.Spec
import Verif.FracDiff.WindowProps
import Verif.Labels.BelowProps
import Verif.Labels.BetterProps
import Verif.Labels.DoubleModel
import Verif.Labels.DoubleProps
import Verif.Labels.FillLemmas
import Verif.Labels.FloatModel
import Verif.Labels.FloatProps
import Verif.Labels.GapProps
import Verif.Labels.LeakProps
import Verif.Labels.Lemmas
import Verif.Labels.MetaProps
import Verif.Labels.Model
import Verif.Labels.PipelineProps
import Verif.Labels.Props
import Verif.Labels.Spec
import Verif.Labels.UnitProps
import Verif.Labels.WiderProps
import Verif.Labels.WindowGapModel
import Verif.Labels.WindowGapProps
import Verif.Labels.WindowModel
import Verif.Labels.WindowOptProps
import Verif.Labels.WindowProps
import Verif.Metrics.AppendProps
import Verif.Metrics.ChainProps
import Verif.Metrics.DdDoubleModel
import Verif.Metrics.DdDoubleProps
import Verif.Metrics.DdProps
import Verif.Metrics.FloatModel
import Verif.Metrics.FloatProps
import Verif.Metrics.GainProps
import Verif.Metrics.HhiDoubleModel
import Verif.Metrics.HhiDoubleProps
import Verif.Metrics.HoldDoubleModel
import Verif.Metrics.HoldDoubleProps
import Verif.Metrics.LastProps
import Verif.Metrics.MissModel
import Verif.Metrics.MissProps
import Verif.Metrics.MixProps
import Verif.Metrics.Model
import Verif.Metrics.PosMissModel
import Verif.Metrics.PosMissProps
import Verif.Metrics.PosProps
import Verif.Metrics.RaiseProps
import Verif.Metrics.RetProps
import Verif.Metrics.SharpeModel
import Verif.Metrics.SharpeProps
import Verif.Metrics.ShiftProps
import Verif.Metrics.TrialProps
import Verif.Metrics.TwrDoubleModel
import Verif.Metrics.TwrDoubleProps
import Verif.Metrics.TwrMissModel
import Verif.Metrics.TwrMissProps
import Verif.Metrics.UnitProps
import Verif.Micro.CausalProps
import Verif.Micro.FlowProps
import Verif.Micro.ImpactMissProps
import Verif.Micro.InverseProps
import Verif.Micro.LastMissProps
import Verif.Micro.MergeProps
import Verif.Micro.MissModel
import Verif.Micro.Model
import Verif.Micro.PinBarProps
import Verif.Micro.PinMissProps
import Verif.Micro.Props
import Verif.Micro.RangeMissProps
import Verif.Micro.RollMissProps
import Verif.Micro.RollProps
import Verif.Micro.UnitProps
import Verif.Options.BinomLemmas
import Verif.Options.BinomProps
import Verif.Options.BinomSpec
import Verif.Options.BsmLemmas
import Verif.Options.BsmProps
import Verif.Options.ChainModel
import Verif.Options.ChainProps
import Verif.Options.CurveLinProps
import Verif.Options.CurveModel
import Verif.Options.CurveProps
import Verif.Options.DeltaProps
import Verif.Options.DoubleModel
import Verif.Options.DoubleProps
import Verif.Options.EarlyProps
import Verif.Options.ExpiryProps
import Verif.Options.ForwardProps
import Verif.Options.ImpliedProps
import Verif.Options.LimitLemmas
import Verif.Options.LimitProps
import Verif.Options.Model
import Verif.Options.PolicyProps
import Verif.Options.RateFloatModel
import Verif.Options.RateFloatProps
import Verif.Options.RateProps
import Verif.Options.RobustProps
import Verif.Options.ScaleProps
import Verif.Options.SecantModel
import Verif.Options.SecantProps
import Verif.Options.SymmetryProps
import Verif.Options.VolProps
import Verif.Options.ZeroStrikeProps
import Verif.Py.Basic
import Verif.Py.Float
import Verif.Py.GroupBy
import Verif.Py.Lemmas
import Verif.Py.Normal
import Verif.Py.Ols
import Verif.Py.OlsUnit
import Verif.Py.Rolling
import Verif.Py.Search
import Verif.Risk.ComplexModel
import Verif.Risk.ComplexProps
import Verif.Risk.EdgeProps
import Verif.Risk.MissModel
import Verif.Risk.MissProps
import Verif.Risk.Model
import Verif.Risk.PayoutProps
import Verif.Risk.Props
import Verif.Risk.UnitProps
import Verif.Sim.CoupleProps
import Verif.Sim.Model
import Verif.Sim.MomentProps
import Verif.Sim.Props
import Verif.Stats.KdeMomentProps
import Verif.Stats.KdeProps
import Verif.Stats.MissModel
import Verif.Stats.MissProps
import Verif.Stats.Model
import Verif.Stats.OrderProps
import Verif.Stats.PadProps
import Verif.Stats.PboFloatModel
import Verif.Stats.PboFloatProps
import Verif.Stats.PboMissModel
import Verif.Stats.PboMissProps
import Verif.Stats.Props
import Verif.Stats.RepeatProps
import Verif.Stats.WinnerProps
import Verif.TimeSeries.BarrierProps
import Verif.TimeSeries.EwmModel
import Verif.TimeSeries.EwmProps
import Verif.TimeSeries.GapModel
import Verif.TimeSeries.GapProps
import Verif.TimeSeries.Model
import Verif.TimeSeries.Props
import Verif.Weights.BootProps
import Verif.Weights.DecayDoubleProps
import Verif.Weights.DecayFloatProps
import Verif.Weights.DecayProps
import Verif.Weights.DoubleModel
import Verif.Weights.DoubleProps
import Verif.Weights.DropProps
import Verif.Weights.ExpectProps
import Verif.Weights.FloatModel
import Verif.Weights.GapModel
import Verif.Weights.GapProps
import Verif.Weights.LeakProps
import Verif.Weights.Lemmas
import Verif.Weights.MissModel
import Verif.Weights.MissProps
import Verif.Weights.Model
import Verif.Weights.MoreProps
import Verif.Weights.OrderProps
import Verif.Weights.Props
import Verif.Weights.RepeatProps
import Verif.Weights.ReturnFloatProps
import Verif.Weights.Spec
import Verif.Weights.SplitProps
import Verif.Weights.UniqDoubleModel
import Verif.Weights.UniqDoubleProps
import Verif.Weights.UnitProps
import Verif.Axioms
