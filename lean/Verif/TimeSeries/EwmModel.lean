import Mathlib.Analysis.Real.Sqrt
import Verif.TimeSeries.Model

/-!
# Model of the exponentially weighted deviation in `get_daily_volatility`

time_series.py:47, `daily_returns.ewm(span=ewm_span).std()`.  The loop is that of pandas (`ewmcov` of
`window/aggregations.pyx` with `adjust=True`, `ignore_na=False`, `bias=False`, one minimal period).  Missing
and infinite returns are `none`: pandas turns infinities into NaN before the loop.
-/

namespace FinML.TimeSeries

/-- Variables of the loop.  `mean` is `none` until the first observation; time_series.py:47. -/
structure EwmState where
  mean : Option ℝ
  cov : ℝ
  sumWt : ℝ
  sumWt2 : ℝ
  oldWt : ℝ

/-- Start: no observation yet; time_series.py:47. -/
noncomputable def ewmInit : EwmState := ⟨none, 0, 1, 1, 1⟩

/-- One round, with decay factor `q = 1 - alpha`; time_series.py:47. -/
noncomputable def ewmStep (q : ℝ) (s : EwmState) (x : Option ℝ) : EwmState :=
  match s.mean, x with
  | none, none => s
  | none, some c => { s with mean := some c }
  | some _, none =>
      { s with sumWt := s.sumWt * q, sumWt2 := s.sumWt2 * (q * q), oldWt := s.oldWt * q }
  | some m, some c =>
      let w := s.oldWt * q
      let m' := if m = c then m else (w * m + c) / (w + 1)
      { mean := some m'
        cov := (w * (s.cov + (m - m') * (m - m')) + (c - m') * (c - m')) / (w + 1)
        sumWt := s.sumWt * q + 1
        sumWt2 := s.sumWt2 * (q * q) + 1
        oldWt := w + 1 }

/-- Output of a round: the corrected variance, its root taken; time_series.py:47. -/
noncomputable def ewmOut (s : EwmState) : Option ℝ :=
  match s.mean with
  | none => none
  | some _ =>
    if 0 < s.sumWt * s.sumWt - s.sumWt2 then
      some (√(s.sumWt * s.sumWt / (s.sumWt * s.sumWt - s.sumWt2) * s.cov))
    else none

/-- The rounds from a state on; time_series.py:47. -/
noncomputable def ewmRun (q : ℝ) : EwmState → List (Option ℝ) → List (Option ℝ)
  | _, [] => []
  | s, x :: xs => ewmOut (ewmStep q s x) :: ewmRun q (ewmStep q s x) xs

/-- `Series(returns).ewm(span=span).std()`, with `alpha = 2 / (span + 1)`; a span below 1 is a
`ValueError`; time_series.py:47. -/
noncomputable def ewmStd (span : ℝ) (returns : List (Option ℝ)) : Py (List (Option ℝ)) :=
  if span < 1 then .error .valueError else .ok (ewmRun (1 - 2 / (span + 1)) ewmInit returns)

/-- A label of an index: a time, or a position of a `RangeIndex`; time_series.py:46. -/
inductive Label
  | time (t : ℤ)
  | pos (i : ℕ)
  deriving DecidableEq

/-- `get_daily_volatility`, time_series.py:34-47, with its labels: `pd.Series(values)` on line 46 is built
from arrays, so its index is 0, 1, …. -/
noncomputable def dailyVolatility (close : List (ℤ × ℝ)) (ewmSpan : ℝ) (isIntraday : Bool) :
    Py (List (Label × Option ℝ)) := do
  let rets ← dailyReturns close isIntraday
  let vols ← ewmStd ewmSpan rets
  return vols.zipIdx.map fun p => (Label.pos p.2, p.1)

end FinML.TimeSeries
