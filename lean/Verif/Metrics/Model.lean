import Verif.Py.Basic
import Mathlib.Data.List.Sort
import Mathlib.Data.List.Dedup
import Mathlib.Algebra.Order.Field.Basic

/-!
# Model of financial_ml/evaluation/metrics.py, lines 13-116

A series is a list of `(time, value)`; times are integers (nanoseconds), values are elements of an
ordered field.  NaN is `none`.  Values of the given series are never NaN.
-/

namespace FinML.Metrics

variable {K : Type} [Field K] [LinearOrder K] [IsStrictOrderedRing K]

/-- A series with a time index; metrics.py:13-26. -/
abbrev Ser (K : Type) := List (ℤ × K)

/-- `positions.shift(1)`; metrics.py:21. -/
def shift (s : Ser K) : List (ℤ × Option K) :=
  (s.map Prod.fst).zip (none :: s.map fun p => some p.2)

/-- `flips`: `positions.iloc[1:]*positions.iloc[:-1].values`, metrics.py:24. -/
def flips (s : Ser K) : Ser K :=
  s.tail.zipWith (fun p (y : K) => (p.1, p.2 * y)) (s.dropLast.map Prod.snd)

/-- `get_position_timings`, metrics.py:13-26.  A NaN differs from 0, so the first entry of the shifted
series is kept. -/
def positionTimings (s : Ser K) : List ℤ :=
  let noPosTimes := (s.filter fun p => p.2 = 0).map Prod.fst
  let prevPos := ((shift s).filter fun p => p.2 ≠ some 0).map Prod.fst
  let res := noPosTimes.filter fun t => t ∈ prevPos
  (res ++ ((flips s).filter fun p => p.2 < 0).map Prod.fst).dedup.insertionSort (· ≤ ·)

/-- Nanoseconds in a day: `pd.Timedelta(1, 'D')`; metrics.py:39, 114. -/
def dayNs : ℤ := 86400000000000

/-- A closed position: holding time in days and size, the columns `dT` and `w`, metrics.py:36. -/
abbrev Closed (K : Type) := K × K

/-- The state of the loop: entry time, and the closed positions; metrics.py:36-37. -/
abbrev HoldState (K : Type) := K × List (Closed K)

/-- One pass of the loop for `positions.iloc[i-1] = p`, `positions.iloc[i] = q` and
`t_diff[i] = t`, metrics.py:41-49. -/
def holdStep (p q t : K) (st : HoldState K) : HoldState K :=
  if 0 ≤ (q - p) * p then
    if q ≠ 0 then ((st.1 * p + t * (q - p)) / q, st.2) else st
  else if q * p < 0 then (t, st.2 ++ [(t - st.1, |p|)])
  else (st.1, st.2 ++ [(t - st.1, |q - p|)])

/-- The loop over the positions after `p`, metrics.py:40-49; `t0` is the first time. -/
def holdLoop (t0 : ℤ) (p : K) (st : HoldState K) : Ser K → HoldState K
  | [] => st
  | (t, q) :: rest => holdLoop t0 q (holdStep p q (((t - t0 : ℤ) : K) / (dayNs : K)) st) rest

/-- The average, metrics.py:50-53. -/
def holdAverage (hp : List (Closed K)) : Option K :=
  if 0 < (hp.map Prod.snd).sum then
    some ((hp.map fun c => c.1 * c.2).sum / (hp.map Prod.snd).sum)
  else none

/-- `compute_holding_period`, metrics.py:29-53.  An empty series has no first time. -/
def holdingPeriod : Ser K → Py (Option K)
  | [] => throw .indexError
  | (t0, p) :: rest => return holdAverage (holdLoop t0 p (0, []) rest).2

/-- The returns of `compute_time_weighted_return`, metrics.py:65-67; the value is paired with the
balance before it.  The first return is NaN, a division by zero is not finite and not modelled. -/
def twrReturns : List (K × K) → Py (List (Option K))
  | [] => return []
  | (v, c) :: rest => do
    let rs ← (rest.zip ((v, c) :: rest)).mapM fun x =>
      let b := x.2.1 + x.2.2
      if b = 0 then (throw .unmodelled : Py (Option K)) else return some ((x.1.1 - b) / b)
    return none :: rs

/-- `compute_time_weighted_return`, metrics.py:56-68; `product` skips NaN.  A row is
`(BEGIN_VALUE, CASHFLOW)`. -/
def timeWeightedReturn (rows : List (K × K)) : Py K := do
  let rets ← twrReturns rows
  return ((rets.filterMap id).map fun r => 1 + r).prod - 1

/-- `_get_hhi`, metrics.py:80-84.  For a series, `sum` skips NaN: if the returns sum to 0, no weight is
a number (`0/0`) and the sum of squares is 0. -/
def hhi (rets : List K) : Option K :=
  let weights := rets.map fun r => fdiv r rets.sum
  let h := ((weights.filterMap id).map fun w => w ^ 2).sum
  fdiv (h - 1 / (rets.length : K)) (1 - 1 / (rets.length : K))

/-- `compute_hhi_returns_concentration`, metrics.py:71-92. -/
def hhiConcentration (rets : List K) : Option K × Option K :=
  if rets.length ≤ 2 then (none, none)
  else
    let pos := rets.filter fun r => 0 ≤ r
    let neg := rets.filter fun r => r < 0
    (if pos.length = 0 then none else hhi pos, if neg.length = 0 then none else hhi neg)

/-- `returns.expanding().max()`, metrics.py:105, with the maximum `m` so far. -/
def cummaxFrom (m : K) : List K → List K
  | [] => []
  | x :: xs => max m x :: cummaxFrom (max m x) xs

/-- The expanding maximum of a list; metrics.py:105. -/
def cummax : List K → List K
  | [] => []
  | x :: xs => x :: cummaxFrom x xs

/-- The least entry of a group of `groupby(...).min()`; groups are not empty; metrics.py:106. -/
def groupMin : List K → Option K
  | [] => none
  | x :: xs => some (xs.foldl min x)

/-- `drop_duplicates(keep='first').index`: the times of the first occurrences; metrics.py:108. -/
def firstTimes : List K → List (ℤ × K) → List ℤ
  | _, [] => []
  | seen, (t, h) :: rest =>
    if h ∈ seen then firstTimes seen rest else t :: firstTimes (h :: seen) rest

/-- A row of `df1`, metrics.py:106-108: time, high-water mark, least value. -/
structure HwmRow (K : Type) where
  time : ℤ
  hwm : K
  low : K
  deriving DecidableEq

/-- `df1`, metrics.py:104-109. -/
def hwmRows (s : Ser K) : List (HwmRow K) :=
  let hwm := cummax (s.map Prod.snd)
  let groups := (groupBy hwm (s.map Prod.snd)).filterMap fun g => (groupMin g.2).map fun m => (g.1, m)
  let rows := (firstTimes [] ((s.map Prod.fst).zip hwm)).zipWith
    (fun t (g : K × K) => (⟨t, g.1, g.2⟩ : HwmRow K)) groups
  rows.filter fun r => r.low < r.hwm

/-- The drawdowns, metrics.py:110-113; a division by zero is not finite. -/
def drawdowns (s : Ser K) (dollars : Bool) : List (ℤ × Option K) :=
  (hwmRows s).map fun r =>
    (r.time, if dollars then some (r.hwm - r.low) else (fdiv r.low r.hwm).map fun q => 1 - q)

/-- The times under water in days, metrics.py:114-115. -/
def timeUnderWater (s : Ser K) : Ser K :=
  let ts := (hwmRows s).map HwmRow.time
  ts.dropLast.zipWith (fun a b => (a, ((b - a : ℤ) : K) / (dayNs : K))) ts.tail

/-- `compute_dd_and_tuw`, metrics.py:95-116. -/
def ddAndTuw (s : Ser K) (dollars : Bool) : List (ℤ × Option K) × Ser K :=
  (drawdowns s dollars, timeUnderWater s)

end FinML.Metrics
