import Verif.Py.Basic
import Mathlib.Data.List.Dedup
import Mathlib.Analysis.SpecialFunctions.Log.Basic

/-!
# Model of financial_ml/labeling/weighting.py

Timestamps are integers.  The bar index is assumed strictly increasing, so that removing duplicated
labels (weighting.py:53) changes nothing and label slices are the bars between the two labels.
Events are pairs (start, end); a NaT end is `none`.  Numbers are elements of an ordered field, except
for the returns, which need the logarithm and are real.
-/

namespace FinML.Weights

variable {K : Type} [Field K] [LinearOrder K] [IsStrictOrderedRing K]

/-- A pandas series with time labels; weighting.py:26-39. -/
abbrev Series (α : Type) := List (ℤ × α)

/-- `res[start:end]`: the label slice of a series with increasing index; weighting.py:38, 58, 122. -/
def slice {α : Type} (s : Series α) (start stop : ℤ) : Series α :=
  s.filter fun p => start ≤ p.1 ∧ p.1 ≤ stop

/-- `res[start:end] += 1`, weighting.py:38. -/
def bump (res : Series ℕ) (start stop : ℤ) : Series ℕ :=
  res.map fun p => if start ≤ p.1 ∧ p.1 ≤ stop then (p.1, p.2 + 1) else p

/-- `count_events_per_bar`, weighting.py:26-39. -/
def countEventsPerBar (barTimes : List ℤ) (eventTimes : Series (Option ℤ)) : Py (Series ℕ) := do
  let last ← pyLast barTimes
  let filled := eventTimes.map fun e => (e.1, e.2.getD last)
  let first ← pyGet filled 0
  let maxEnd ← npMax (filled.map Prod.snd)
  let i0 := searchLeft barTimes first.1
  let i1 := searchLeft barTimes maxEnd
  let res := ((barTimes.take (i1 + 1)).drop i0).map fun t => (t, 0)
  return filled.foldl (fun r e => bump r e.1 e.2) res

/-- `.mean()` of floats: NaN on nothing, non-finite if an entry is; weighting.py:58, 85. -/
def meanOpt (l : List (Option K)) : Option K :=
  match l.mapM id with
  | some (x :: xs) => some ((x :: xs).sum / ((x :: xs).length : K))
  | _ => none

/-- `events_counts.reindex(bars.index).fillna(0)`, weighting.py:54. -/
def reindex (counts : Series ℕ) (bars : List ℤ) : Series ℕ :=
  bars.map fun t => (t, ((counts.find? fun p => p.1 = t).map Prod.snd).getD 0)

/-- `res.loc[label] = v`: every row with that label is set; weighting.py:58, 123. -/
def setLabel {α : Type} (res : Series α) (label : ℤ) (v : α) : Series α :=
  res.map fun p => if p.1 = label then (p.1, v) else p

/-- The ends of the events; a NaT end in a label slice is not modelled; weighting.py:37, 57, 73. -/
def closedEvents (eventTimes : Series (Option ℤ)) : Py (List (ℤ × ℤ)) :=
  eventTimes.mapM fun e => match e.2 with
    | some t => .ok (e.1, t)
    | none => .error .unmodelled

/-- `(1./events_counts.loc[start:end]).mean()`, weighting.py:58. -/
def sliceUniqueness (counts : Series ℕ) (e : ℤ × ℤ) : Option K :=
  meanOpt ((slice counts e.1 e.2).map fun p => fdiv (1 : K) (p.2 : K))

/-- `label_avg_uniqueness`, weighting.py:42-59. -/
def labelAvgUniqueness (bars : List ℤ) (eventTimes : Series (Option ℤ)) :
    Py (Series (Option K)) := do
  let counts ← countEventsPerBar bars eventTimes
  let counts1 := reindex counts bars
  let events ← closedEvents eventTimes
  return events.foldl (fun res e => setLabel res e.1 (sliceUniqueness counts1 e))
    (events.map fun e => (e.1, none))

/-- `get_event_indicators`, weighting.py:64-75, as the list of its columns. -/
def getEventIndicators (barTimes : List ℤ) (eventTimes : Series (Option ℤ)) :
    Py (List (List ℕ)) := do
  let events ← closedEvents eventTimes
  return events.map fun e => barTimes.map fun t => if e.1 ≤ t ∧ t ≤ e.2 then 1 else 0

/-- `event_indicators.sum(axis=1)`, weighting.py:83: the sum at row `b`. -/
def concurrency (cols : List (List ℕ)) (b : ℕ) : ℕ := (cols.map fun c => c.getD b 0).sum

/-- One column of `uniqueness`, weighting.py:84; `0/0` is NaN. -/
def uniquenessCol (cols : List (List ℕ)) (col : List ℕ) : List (Option K) :=
  (List.range col.length).map fun b : ℕ => fdiv ((col.getD b 0 : ℕ) : K) ((concurrency cols b : ℕ) : K)

/-- `uniqueness > 0`, weighting.py:85 (NaN compares false). -/
def isPos : Option K → Bool
  | some x => decide (0 < x)
  | none => false

/-- `uniqueness[uniqueness > 0].mean()` for one column, weighting.py:85. -/
def meanPositive (l : List (Option K)) : Option K := meanOpt (l.filter isPos)

/-- `_get_avg_uniqueness`, weighting.py:78-86. -/
def getAvgUniqueness (cols : List (List ℕ)) : List (Option K) :=
  cols.map fun c => meanPositive (uniquenessCol cols c)

/-- `event_indicators[ids]`: the selected columns, in that order; weighting.py:103. -/
def selectCols (cols : List (List ℕ)) (ids : List ℕ) : List (List ℕ) :=
  ids.map fun i => cols.getD i []

/-- `_get_avg_uniqueness(event_indicators[samples + [event_id]]).iloc[-1]`, weighting.py:103-104. -/
def trialUniqueness (cols : List (List ℕ)) (samples : List ℕ) (i : ℕ) : Option K :=
  ((getAvgUniqueness (selectCols cols (samples ++ [i]))).getLast?).join

/-- `trial_avg_uniq / trial_avg_uniq.sum()`, weighting.py:101-105.  `sum` skips NaN, but a NaN entry
makes `np.random.choice` raise ValueError, as does a zero sum (all entries NaN). -/
def trialProbs (cols : List (List ℕ)) (samples : List ℕ) : Py (List K) :=
  match ((List.range cols.length).map fun i : ℕ => trialUniqueness (K := K) cols samples i).mapM id with
  | none => .error .valueError
  | some us => if us.sum = 0 then .error .valueError else .ok (us.map fun u => u / us.sum)

/-- The loop of `sample_sequential_boostrap`, weighting.py:100-106.  `choice samples probs` stands for
`np.random.choice(columns, p=probs)`, the draw made after `samples`. -/
def bootstrapLoop (choice : List ℕ → List K → ℕ) (cols : List (List ℕ)) :
    ℕ → List ℕ → Py (List ℕ)
  | 0, samples => .ok samples
  | n + 1, samples => do
    let probs ← trialProbs cols samples
    bootstrapLoop choice cols n (samples ++ [choice samples probs])

/-- `sample_sequential_boostrap`, weighting.py:89-107. -/
def sampleSequentialBootstrap (choice : List ℕ → List K → ℕ) (cols : List (List ℕ))
    (size : Option ℕ) : Py (List ℕ) :=
  bootstrapLoop choice cols (size.getD cols.length) []

/-- `np.log(bars).diff()`, weighting.py:119; the first entry is NaN. -/
noncomputable def logReturns (prev : Option ℝ) : Series ℝ → Series (Option ℝ)
  | [] => []
  | (t, x) :: bars => (t, prev.map fun p => Real.log x - Real.log p) :: logReturns (some x) bars

/-- `(returns.loc[s:e] / events_counts.loc[s:e]).sum()`, weighting.py:122-123: the division aligns on
the index and `sum` skips NaN; a zero count (infinite quotient) is not modelled. -/
noncomputable def attribution (rets : Series (Option ℝ)) (counts : Series ℕ) (e : ℤ × ℤ) : Py ℝ := do
  let l ← (slice rets e.1 e.2).mapM fun p =>
    match p.2, (slice counts e.1 e.2).find? fun q => q.1 = p.1 with
    | some r, some c => if c.2 = 0 then (.error .unmodelled : Py ℝ) else .ok (r / (c.2 : ℝ))
    | _, _ => .ok 0
  return l.sum

/-- `_get_return_attributions`, weighting.py:112-124, for given returns. -/
noncomputable def returnAttributions (events : List (ℤ × ℤ)) (counts : Series ℕ)
    (rets : Series (Option ℝ)) : Py (Series ℝ) := do
  let vals ← events.mapM fun e => do
    let v ← attribution rets counts e
    return (e, v)
  let res := vals.foldl (fun res ev => setLabel res ev.1.1 ev.2) (events.map fun e => (e.1, 0))
  return res.map fun p => (p.1, |p.2|)

open Classical in
/-- `compute_weights_by_returns`, weighting.py:127-139.  `none` stands for the NaN weights that result
from a zero sum.  Prices must be positive (otherwise the logarithm is not finite). -/
noncomputable def computeWeightsByReturns (eventTimes : Series (Option ℤ)) (counts : Series ℕ)
    (bars : Series ℝ) : Py (Series (Option ℝ)) := do
  if ¬ ∀ p ∈ bars, 0 < p.2 then throw .unmodelled
  else
    let events ← closedEvents eventTimes
    let raw ← returnAttributions events counts (logReturns none bars)
    return raw.map fun p => (p.1, (fdiv (raw.length : ℝ) (raw.map Prod.snd).sum).map fun f => p.2 * f)

/-- `sort_index()`; weighting.py:157. -/
def sortIndex {α : Type} (s : Series α) : Series α := s.insertionSort fun a b => a.1 ≤ b.1

/-- The slope, weighting.py:158-161; division by 0 (only for `oldest_weight = -1` or a zero total)
gives no finite slope. -/
def decaySlope (oldestWeight total : K) : Option K :=
  if 0 ≤ oldestWeight then fdiv (1 - oldestWeight) total
  else fdiv 1 ((oldestWeight + 1) * total)

/-- `apply_time_decay_to_weights`, weighting.py:144-165. -/
def applyTimeDecay (avgUniqueness : Series K) (oldestWeight : K) : Py (Series K) := do
  let sorted := sortIndex avgUniqueness
  let cum := cumsum (sorted.map Prod.snd)
  let total ← pyLast cum
  match decaySlope oldestWeight total with
  | none => throw .unmodelled
  | some slope =>
    let const := 1 - slope * total
    return (sorted.map Prod.fst).zip (cum.map fun c =>
      let w := const + slope * c
      if w < 0 then 0 else w)

/-- The share of a label, `value_counts(normalize=True)`, weighting.py:17. -/
def share {α : Type} [DecidableEq α] (labels : List α) (a : α) : K :=
  (labels.count a : K) / (labels.length : K)

/-- The loop of `drop_rare_labels`, weighting.py:16-21, on the labels (no NaN).  `argmin labels`
stands for `df.index[df.argmin()]`, a label with the smallest share (the order of ties is that of
`value_counts`).  `fuel` bounds the number of iterations; when it is used up the loop is still
running. -/
def dropRareLoop {α : Type} [DecidableEq α] (argmin : List α → α) (minPct : K) (minClasses : ℤ) :
    ℕ → List α → Py (List α)
  | 0, _ => .error .unmodelled
  | fuel + 1, labels =>
    if (labels ≠ [] ∧ minPct < share labels (argmin labels)) ∨
        (labels.dedup.length : ℤ) ≤ minClasses then
      .ok labels
    else if labels = [] then .error .valueError
    else dropRareLoop argmin minPct minClasses fuel (labels.filter fun a => a ≠ argmin labels)

/-- `drop_rare_labels`, weighting.py:7-21. -/
def dropRareLabels {α : Type} [DecidableEq α] (argmin : List α → α) (labels : List α) (minPct : K)
    (minClasses : ℤ) : Py (List α) :=
  dropRareLoop argmin minPct minClasses (labels.length + 1) labels

end FinML.Weights
