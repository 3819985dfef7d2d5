import Verif.Py.Basic
import Verif.Py.Normal
import Verif.Weights.Model
import Mathlib.Data.List.Sort
import Mathlib.Data.List.Dedup
import Mathlib.Analysis.SpecialFunctions.Pow.Real
import Mathlib.Algebra.Order.Floor.Ring

/-!
# Model of financial_ml/assets_allocation/position_sizing.py and financial_ml/utils/data.py

Timestamps are integers, a NaT end time is `none`, and so is a NaN entry of a series.  Numbers are
elements of an ordered field, real numbers where roots or the normal distribution are used.  Bar times
are assumed increasing and distinct.  The fitted Gaussian mixture is a parameter.
-/

namespace FinML.Alloc

open FinML.Weights

section
variable {K : Type} [Field K] [LinearOrder K] [IsStrictOrderedRing K]

/-- A series of numbers that may be NaN; data.py:7, position_sizing.py:27, 55. -/
abbrev NanSeries (K : Type) := List (ℤ × Option K)

/-- `s[t]`, NaN if the label is missing; data.py:7, position_sizing.py:27, 55. -/
def lookup (s : NanSeries K) (t : ℤ) : Option K := ((s.find? fun p => p.1 = t).map Prod.snd).join

/-- The sorted union of two indices, as used to align two series;
data.py:7, position_sizing.py:27, 55. -/
def unionIndex (a b : List ℤ) : List ℤ := (a ++ b).dedup.insertionSort (· ≤ ·)

/-- `a + b` and `a - b` for series: entries are matched by label, a missing one gives NaN;
data.py:7, position_sizing.py:27, 55. -/
def alignWith (f : K → K → K) (a b : NanSeries K) : NanSeries K :=
  (unionIndex (a.map Prod.fst) (b.map Prod.fst)).map fun t =>
    (t, (lookup a t).bind fun x => (lookup b t).map fun y => f x y)

/-- `fill_index`, utils/data.py:4-7. -/
def fillIndex (indices : List ℤ) (s : NanSeries K) (fillVal : K) : NanSeries K :=
  (alignWith (· + ·) (indices.map fun t => (t, some fillVal)) s).map fun p => (p.1, some (p.2.getD 0))

/-- `event_times[sides == v]`, position_sizing.py:25-26 and 51-52; an event is its start, end, side. -/
def ofSide (events : List (ℤ × Option ℤ × K)) (v : K) : Series (Option ℤ) :=
  (events.filter fun e => e.2.2 = v).map fun e => (e.1, e.2.1)

/-- The counts as numbers; position_sizing.py:27. -/
def asSeries (c : Series ℕ) : NanSeries K := c.map fun p => (p.1, some (p.2 : K))

/-- Division of a series by a number; a division by zero is not finite (`0/0` is NaN);
position_sizing.py:55. -/
def divSeries (c : Series ℕ) (b : K) : NanSeries K := c.map fun p => (p.1, fdiv (p.2 : K) b)

/-- `budgeted_position_size`, position_sizing.py:39-56. -/
def budgetedPositionSize (barTimes : List ℤ) (events : List (ℤ × Option ℤ × K))
    (budgetFn : List K → Py K) : Py (NanSeries K) := do
  let long ← countEventsPerBar barTimes (ofSide events 1)
  let short ← countEventsPerBar barTimes (ofSide events (-1))
  let longBudget ← budgetFn (long.map fun p => (p.2 : K))
  let shortBudget ← budgetFn (short.map fun p => (p.2 : K))
  return alignWith (· - ·) (fillIndex barTimes (divSeries long longBudget) 0)
    (fillIndex barTimes (divSeries short shortBudget) 0)

/-- The concurrency of positions, position_sizing.py:25-27. -/
def netConcurrency (barTimes : List ℤ) (events : List (ℤ × Option ℤ × K)) : Py (NanSeries K) := do
  let long ← countEventsPerBar barTimes (ofSide events 1)
  let short ← countEventsPerBar barTimes (ofSide events (-1))
  return alignWith (· - ·) (fillIndex barTimes (asSeries long) 0) (fillIndex barTimes (asSeries short) 0)

/-- A position: start, end, size; positions of `_avg_active_positions`, position_sizing.py:105-106. -/
structure Position (K : Type) where
  start : ℤ
  stop : Option ℤ
  size : K
  deriving DecidableEq

/-- `is_active`, position_sizing.py:64-65. -/
def isActive (t : ℤ) (p : Position K) : Bool :=
  decide (p.start ≤ t) && (p.stop.elim true fun e => decide (t ≤ e))

/-- `position_times`, position_sizing.py:61. -/
def positionTimes (ps : List (Position K)) : List ℤ :=
  unionIndex (ps.map Position.start) (ps.filterMap Position.stop)

/-- `.mean()` of a non-empty series; position_sizing.py:68. -/
def meanOf (l : List K) : K := l.sum / (l.length : K)

/-- The value assigned at time `t`, position_sizing.py:64-70.  `positions.loc[labels]` selects every row
whose start is one of the labels. -/
def avgAt (ps : List (Position K)) (t : ℤ) : K :=
  let starts := ((ps.filter (isActive t)).map Position.start).dedup
  if 0 < starts.length then meanOf ((starts.flatMap fun s => ps.filter fun p => p.start = s).map Position.size)
  else 0

/-- `_avg_active_positions`, position_sizing.py:60-71. -/
def avgActivePositions (ps : List (Position K)) : List (ℤ × K) :=
  (positionTimes ps).map fun t => (t, avgAt ps t)

variable [FloorRing K]

/-- `.round()`: to the nearest integer, halves to the even one; position_sizing.py:75. -/
def roundHalfEven (x : K) : ℤ :=
  if x - ⌊x⌋ < 1 / 2 then ⌊x⌋
  else if 1 / 2 < x - ⌊x⌋ then ⌊x⌋ + 1
  else if ⌊x⌋ % 2 = 0 then ⌊x⌋ else ⌊x⌋ + 1

/-- `_discretize_position_sizes` for one size, position_sizing.py:74-78 (`step_size ≠ 0`). -/
def discretize (step : K) (x : K) : K :=
  let d := (roundHalfEven (x / step) : K) * step
  let d1 := if 1 < d then 1 else d
  if d1 < -1 then -1 else d1

/-- `int(x)`: truncation towards zero; position_sizing.py:141. -/
def pyInt (x : K) : ℤ := if 0 ≤ x then ⌊x⌋ else ⌈x⌉

end

/-- `norm.cdf((p - 1/n)/(p(1-p))**0.5)`, position_sizing.py:100-101; at `p = 0` and `p = 1` the statistic
is infinite (NaN if the numerator is zero), outside `[0, 1]` it is NaN. -/
noncomputable def statCdf (n : ℕ) (p : ℝ) : Option ℝ :=
  if p * (1 - p) < 0 then none
  else if p * (1 - p) = 0 then
    (if 0 < p - 1 / n then some 1 else if p - 1 / n < 0 then some 0 else none)
  else some (normCdf ((p - 1 / n) / (p * (1 - p)) ^ (0.5 : ℝ)))

/-- One event with its predicted class and probability; position_sizing.py:100-103. -/
structure Forecast where
  start : ℤ
  stop : Option ℤ
  side : Option ℝ
  prob : ℝ
  pred : ℝ

/-- The size of one event, position_sizing.py:100-103; the side column is optional. -/
noncomputable def eventSize (n : ℕ) (e : Forecast) : Option ℝ :=
  (statCdf n e.prob).map fun c => e.pred * (2 * c - 1) * e.side.getD 1

/-- The position of one event; NaN sizes are not modelled; position_sizing.py:105-106. -/
noncomputable def toPosition (n : ℕ) (e : Forecast) : Py (Position ℝ) :=
  (eventSize n e).elim (.error .unmodelled) fun s => .ok ⟨e.start, e.stop, s⟩

/-- `position_size_from_probabilities`, position_sizing.py:81-109.  Without classes Python raises on
`1./0`; `step_size = 0` divides by zero. -/
noncomputable def positionSizeFromProbabilities (events : List Forecast) (step : ℝ) (n : ℕ) :
    Py (List (ℤ × ℝ)) :=
  if events.length = 0 then .ok []
  else if n = 0 then .error .zeroDivision
  else if step = 0 then .error .unmodelled
  else do
    let ps ← events.mapM (toPosition n)
    return (avgActivePositions ps).map fun p => (p.1, discretize step p.2)

/-- A component of the fitted mixture: weight, mean, variance; position_sizing.py:31-34. -/
structure Component where
  weight : ℝ
  mean : ℝ
  var : ℝ

/-- `mixed_cdfs` for one count, position_sizing.py:31-34. -/
noncomputable def mixtureCdf (cs : List Component) (x : ℝ) : ℝ :=
  (cs.map fun c => normCdf ((x - c.mean) / √c.var) * c.weight).sum

/-- The size for one net count, position_sizing.py:35. -/
noncomputable def mixtureSize (cs : List Component) (c : ℝ) : ℝ :=
  (mixtureCdf cs c - mixtureCdf cs 0) / (if 0 ≤ c then 1 - mixtureCdf cs 0 else mixtureCdf cs 0)

/-- `gaussian_mixture_position_size`, position_sizing.py:11-36; `fit` stands for the fitted model. -/
noncomputable def gaussianMixturePositionSize (fit : NanSeries ℝ → List Component) (barTimes : List ℤ)
    (events : List (ℤ × Option ℤ × ℝ)) : Py (NanSeries ℝ) := do
  let c ← netConcurrency barTimes events
  return c.map fun p => (p.1, p.2.map (mixtureSize (fit c)))

/-- `_scaled_sigmoid`, position_sizing.py:113-114.  Python raises on `0 ** -0.5`; a negative base gives
a complex number. -/
noncomputable def scaledSigmoid (w x : ℝ) : Py ℝ :=
  if w + x ^ 2 = 0 then .error .zeroDivision
  else if w + x ^ 2 < 0 then .error .unmodelled
  else .ok (x * (w + x ^ 2) ^ (-0.5 : ℝ))

/-- `_inverse_price`, position_sizing.py:117-118. -/
noncomputable def inversePrice (f w m : ℝ) : Py ℝ :=
  if 1 - m ^ 2 = 0 then .error .zeroDivision
  else if w / (1 - m ^ 2) < 0 then .error .unmodelled
  else .ok (f - m * (w / (1 - m ^ 2)) ^ (0.5 : ℝ))

/-- `get_sigmoid_coeff`, position_sizing.py:121-122. -/
noncomputable def getSigmoidCoeff (x m : ℝ) : Py ℝ :=
  if m = 0 then .error .zeroDivision else .ok (x ^ 2 * (m ^ (-2 : ℤ) - 1))

/-- `position_size_from_divergence`, position_sizing.py:125-141. -/
noncomputable def positionSizeFromDivergence (forecast marketPrice maxSize w : ℝ) : Py ℤ := do
  let s ← scaledSigmoid w (forecast - marketPrice)
  return pyInt (s * maxSize)

/-- `range(a, b)` for non-negative numbers; position_sizing.py:158. -/
def pyRange (a b : ℕ) : List ℕ := (List.range (b - a)).map fun k : ℕ => a + k

/-- `compute_limit_price`, position_sizing.py:144-161. -/
noncomputable def computeLimitPrice (curPos targetPos : ℤ) (maxPosition : ℕ) (forecast w : ℝ) : Py ℝ := do
  let sign : ℤ := if targetPos > curPos then 1 else -1
  let terms ← (pyRange (curPos + sign).natAbs (targetPos + 1).natAbs).mapM fun j : ℕ =>
    if maxPosition = 0 then .error .zeroDivision
    else inversePrice forecast w ((j : ℝ) / (maxPosition : ℝ))
  if targetPos - curPos = 0 then .error .zeroDivision
  else .ok (terms.sum / ((targetPos - curPos : ℤ) : ℝ))

end FinML.Alloc
