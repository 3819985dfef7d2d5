import Verif.TimeSeries.EwmModel

/-! # Daily volatility of closes with missing values (time_series.py:34-47); NaN is `none`. -/

namespace FinML.TimeSeries

variable {K : Type} [Field K] [LinearOrder K]

/-- `close.loc[t]` for a label of the (unique) index; time_series.py:46. -/
def closeAtM (close : List (ℤ × Option K)) (t : ℤ) : Py (Option K) :=
  match close.find? fun p => p.1 = t with
  | some p => .ok p.2
  | none => .error .keyError

/-- Quotient of two closes less one, NaN if one is; time_series.py:46. -/
def returnM : Option K → Option K → Option K
  | some a, some b => (fdiv a b).map fun x => x - 1
  | _, _ => none

/-- `daily_returns`, time_series.py:41-46. -/
def dailyReturnsM (close : List (ℤ × Option K)) (isIntraday : Bool) : Py (List (Option K)) :=
  (dayPairs (close.map Prod.fst) isIntraday).mapM fun p => do
    let a ← closeAtM close p.1
    let b ← closeAtM close p.2
    return returnM a b

/-- `get_daily_volatility`, time_series.py:34-47, without the labels 0, 1, … of its result. -/
noncomputable def dailyVolatilityM (close : List (ℤ × Option ℝ)) (ewmSpan : ℝ) (isIntraday : Bool) : Py (List (Option ℝ)) := do
  let rets ← dailyReturnsM close isIntraday
  ewmStd ewmSpan rets

end FinML.TimeSeries
