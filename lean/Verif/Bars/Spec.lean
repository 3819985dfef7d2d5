import Verif.Bars.Model
import Mathlib.Order.Bounds.Basic

/-! # Specification of bars

Written in terms of ticks only; none of the model's functions are used (the record types `Tick` and
`Bar` are). -/

namespace FinML.Bars

variable {K : Type} [Field K] [LinearOrder K] [IsStrictOrderedRing K]

/-- Traded volume of a list of ticks. -/
def volumeOf (ticks : List (Tick K)) : K := (ticks.map fun t => t.volume).sum

/-- Traded dollars of a list of ticks. -/
def dollarsOf (ticks : List (Tick K)) : K := (ticks.map fun t => t.price * t.volume).sum

/-- `b` is the OHLCV/VWAP summary of the non-empty tick list `ticks`, apart from its timestamp. -/
structure IsSummary (ticks : List (Tick K)) (b : Bar K) : Prop where
  opens : ticks.head?.map Tick.price = some b.op
  closes : ticks.getLast?.map Tick.price = some b.close
  high : IsGreatest {p | ∃ t ∈ ticks, t.price = p} b.high
  low : IsLeast {p | ∃ t ∈ ticks, t.price = p} b.low
  volume : b.volume = volumeOf ticks
  vwap_none : volumeOf ticks = 0 → b.vwap = none
  vwap_some : volumeOf ticks ≠ 0 → ∃ w, b.vwap = some w ∧ w * volumeOf ticks = dollarsOf ticks

/-- `b` is the summary of `ticks`, stamped with the time of the first tick. -/
structure IsBarOf (ticks : List (Tick K)) (b : Bar K) : Prop extends IsSummary ticks b where
  time : ticks.head?.map Tick.time = some b.time

/-- `bars` are the bars of consecutive non-empty `pieces` of `ticks`. -/
structure IsCut (ticks : List (Tick K)) (pieces : List (List (Tick K))) (bars : List (Bar K)) :
    Prop where
  flatten : pieces.flatten = ticks
  nonempty : ∀ p ∈ pieces, p ≠ []
  bars : List.Forall₂ IsBarOf pieces bars

end FinML.Bars
