import Verif.Filters.Model

/-!
# `hull_ma` with other aggregate functions and window weights, filters.py:41-53

`agg_fn` is one of `'mean'`, `'sum'`, `'median'`, `'max'`, `'min'`; a `win_type` gives weights for every window length and is
used with `'mean'`.  Other functions are not modelled.
-/

namespace FinML.Filters

variable {K : Type} [Field K] [LinearOrder K] [IsStrictOrderedRing K]

/-- The arguments `agg_fn` and `win_type`, filters.py:41.  `weighted w` is the mean with the window weights `w n` for
windows of `n` values. -/
inductive Agg (K : Type)
  | mean
  | sum
  | median
  | max
  | min
  | weighted (w : ℕ → List K)

/-- The largest value of a window; filters.py:50-52. -/
def winMax : List K → K
  | [] => 0
  | x :: xs => xs.foldl max x

/-- The smallest value of a window; filters.py:50-52. -/
def winMin : List K → K
  | [] => 0
  | x :: xs => xs.foldl min x

/-- `.agg(agg_fn)` of a window of `n` values, filters.py:50-52. -/
def aggOf : Agg K → ℕ → List K → K
  | .mean, n, l => meanW n l
  | .sum, _, l => l.sum
  | .median, _, l => npMedian l
  | .max, _, l => winMax l
  | .min, _, l => winMin l
  | .weighted w, n, l => (List.zipWith (· * ·) (w n) l).sum / (w n).sum

/-- `hull_ma`, filters.py:41-53, as `hullMa` with any aggregate function. -/
def hullAgg (agg : Agg K) (series : List K) (n : ℕ) : Py (List (Option K)) :=
  if n < 2 then .error .unmodelled else
  let x := series.map some
  let short := rolling (n / 2) (aggOf agg (n / 2)) x
  let long := rolling n (aggOf agg n) x
  .ok (rolling (Nat.sqrt n) (aggOf agg (Nat.sqrt n)) (zipO (fun s l => 2 * s - l) short long))

end FinML.Filters
