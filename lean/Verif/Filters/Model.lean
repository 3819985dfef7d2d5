import Verif.Py.Rolling

/-!
# Model of financial_ml/features/filters.py

A series is an index (timestamps) and a list of values without missing ones.
-/

namespace FinML.Filters

variable {K : Type} [Field K] [LinearOrder K]

/-- `series.diff()` (filters.py:15): the first value is missing. -/
def diffs : List K → List (Option K)
  | [] => []
  | x :: xs => none :: (List.zipWith (fun b a => some (b - a)) xs (x :: xs))

/-- `diff.loc[t]` (filters.py:17).  When the label occurs several times pandas returns a Series, and
`max(0, Series)` raises ValueError. -/
def locDiff (index : List ℤ) (d : List (Option K)) (t : ℤ) : Py K :=
  match ((index.zip d).filter fun p => p.1 = t).map Prod.snd with
  | [some v] => .ok v
  | _ => .error .valueError

/-- State of the loop, filters.py:12-14. -/
structure Cusum (K : Type) where
  pos : K
  neg : K
  events : List ℤ

/-- One step of the loop, filters.py:18-25. -/
def cusumStep (threshold : K) (s : Cusum K) (t : ℤ) (d : K) : Cusum K :=
  let pos := max 0 (s.pos + d)
  let neg := min 0 (s.neg + d)
  if neg < -threshold then ⟨pos, 0, s.events ++ [t]⟩
  else if pos > threshold then ⟨0, neg, s.events ++ [t]⟩
  else ⟨pos, neg, s.events⟩

/-- The loop, filters.py:16-25. -/
def cusumLoop (index : List ℤ) (d : List (Option K)) (threshold : K) :
    List ℤ → Cusum K → Py (Cusum K)
  | [], s => .ok s
  | t :: ts, s => do
    let v ← locDiff index d t
    cusumLoop index d threshold ts (cusumStep threshold s t v)

/-- `filter_symmetric_cusum`, filters.py:6-26. -/
def filterCusum (index : List ℤ) (series : List K) (threshold : K) : Py (List ℤ) := do
  let s ← cusumLoop index (diffs series) threshold index.tail ⟨0, 0, []⟩
  pure s.events

/-- `np.median` of a non-empty array: the middle value, or the mean of the two middle values;
filters.py:34. -/
def npMedian (l : List K) : K :=
  let s := l.insertionSort (· ≤ ·)
  if l.length % 2 = 1 then s.getD (l.length / 2) 0
  else (s.getD (l.length / 2 - 1) 0 + s.getD (l.length / 2) 0) / 2

/-- `((series[1:] > median) & (diff > 0)).sum()`, filters.py:36. -/
def nHi (median : K) (l : List K) : ℕ :=
  (List.zipWith (fun b a => decide (b > median) && decide (b - a > 0)) l.tail l).count true

/-- `((series[1:] < median) & (diff < 0)).sum()`, filters.py:37. -/
def nLo (median : K) (l : List K) : ℕ :=
  (List.zipWith (fun b a => decide (b < median) && decide (b - a < 0)) l.tail l).count true

/-- `get_mmi`, filters.py:29-38.  numba raises ZeroDivisionError for one value; the empty series is
not modelled. -/
def mmi (l : List K) : Py K :=
  if l.length = 0 then .error .unmodelled else
  if l.length = 1 then .error .zeroDivision else
  .ok (((nHi (npMedian l) l + nLo (npMedian l) l : ℕ) : K) / ((l.length - 1 : ℕ) : K))

/-- Mean of a full window of `w` values; filters.py:50-52. -/
def meanW (w : ℕ) (l : List K) : K := l.sum / (w : K)

/-- `hull_ma` with the default mean and no window weights, filters.py:41-53.  `int(np.sqrt(n))` is the
integer square root.  `n < 2` makes a window of length 0 and is not modelled. -/
def hullMa (series : List K) (n : ℕ) : Py (List (Option K)) :=
  if n < 2 then .error .unmodelled else
  let x := series.map some
  let short := rolling (n / 2) (meanW (n / 2)) x
  let long := rolling n (meanW n) x
  .ok (rolling (Nat.sqrt n) (meanW (Nat.sqrt n)) (zipO (fun s l => 2 * s - l) short long))

end FinML.Filters
