import Verif.Filters.HullAggModel

/-! # Hull moving average of series with missing values (filters.py:41-53); NaN is `none`. -/

namespace FinML.Filters

variable {K : Type} [Field K] [LinearOrder K]

/-- `hull_ma`, filters.py:41-53: a window with a missing value has no aggregate (`min_periods` is the window). -/
def hullAggM (agg : Agg K) (series : List (Option K)) (n : ℕ) : Py (List (Option K)) :=
  if n < 2 then .error .unmodelled else
  let short := rolling (n / 2) (aggOf agg (n / 2)) series
  let long := rolling n (aggOf agg n) series
  .ok (rolling (Nat.sqrt n) (aggOf agg (Nat.sqrt n)) (zipO (fun s l => 2 * s - l) short long))

end FinML.Filters
