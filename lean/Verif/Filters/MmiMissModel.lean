import Verif.Filters.Model

/-! # Market meanness index of a series with missing values (filters.py:29-38); NaN is `none`. -/

namespace FinML.Filters

variable {K : Type} [Field K] [LinearOrder K]

/-- `a > b`, false if one side is NaN; filters.py:36, 37. -/
def gtO : Option K → Option K → Bool
  | some a, some b => decide (a > b)
  | _, _ => false

/-- `np.diff(series)` for two neighbours, NaN if one of them is; filters.py:35. -/
def diffO (b a : Option K) : Option K := b.bind fun y => a.map fun x => y - x

/-- `((series[1:] > median) & (diff > 0)).sum()`, filters.py:36. -/
def nHiM (median : Option K) (l : List (Option K)) : ℕ :=
  (List.zipWith (fun b a => gtO b median && gtO (diffO b a) (some 0)) l.tail l).count true

/-- `((series[1:] < median) & (diff < 0)).sum()`, filters.py:37. -/
def nLoM (median : Option K) (l : List (Option K)) : ℕ :=
  (List.zipWith (fun b a => gtO median b && gtO (some 0) (diffO b a)) l.tail l).count true

/-- `get_mmi`, filters.py:29-38, as `mmi`.  What the compiled `np.median` makes of NaN (line 34) is not specified: `median` is
any function. -/
def mmiM (median : List (Option K) → Option K) (l : List (Option K)) : Py K :=
  if l.length = 0 then .error .unmodelled else
  if l.length = 1 then .error .zeroDivision else
  .ok (((nHiM (median l) l + nLoM (median l) l : ℕ) : K) / ((l.length - 1 : ℕ) : K))

end FinML.Filters
