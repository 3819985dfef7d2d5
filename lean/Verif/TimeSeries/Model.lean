import Verif.Py.Basic

/-!
# Model of financial_ml/utils/time_series.py: daily volatility and vertical barriers

`fast_ewma` (:6-33) is modelled with the bars, the last line of `get_daily_volatility` in `EwmModel`.  Timestamps are integers (nanoseconds); the index of
the series is assumed sorted, as `searchsorted` requires.
-/

namespace FinML.TimeSeries

/-- `pd.Timedelta(days=1)`; time_series.py:41, 57. -/
def day : ℤ := 86400000000000

/-- `get_vertical_barriers`, time_series.py:50-60: pairs (event, barrier). -/
def verticalBarriers (index events : List ℤ) (holdingPeriod : ℤ) : List (ℤ × ℤ) :=
  let barrierIndices := events.map fun e => searchLeft index (e + holdingPeriod * day)
  let kept := barrierIndices.filter fun i => i < index.length
  (events.take kept.length).zip (kept.map fun i => index.getD i 0)

/-- `day_pairs` of `get_daily_volatility`, time_series.py:41-45: pairs (bar, earlier bar). -/
def dayPairs (index : List ℤ) (isIntraday : Bool) : List (ℤ × ℤ) :=
  let prev := (index.map fun t => searchLeft index (t - day)).filter fun i => 0 < i
  let prev1 := if isIntraday then prev.map fun i => i - 1 else prev
  (index.drop (index.length - prev1.length)).zip (prev1.map fun i => index.getD i 0)

variable {K : Type} [Field K] [LinearOrder K]

/-- `close.loc[t]` for a label of the (unique) index; time_series.py:46. -/
def closeAt (close : List (ℤ × K)) (t : ℤ) : Py K :=
  match close.find? fun p => p.1 = t with
  | some p => .ok p.2
  | none => .error .keyError

/-- `daily_returns`, time_series.py:46; a zero divisor gives a non-finite value (`none`). -/
def dailyReturns (close : List (ℤ × K)) (isIntraday : Bool) : Py (List (Option K)) :=
  (dayPairs (close.map Prod.fst) isIntraday).mapM fun p => do
    let a ← closeAt close p.1
    let b ← closeAt close p.2
    return (fdiv a b).map fun x => x - 1

end FinML.TimeSeries
