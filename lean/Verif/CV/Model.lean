import Verif.Py.Basic
import Mathlib.Algebra.Order.Floor.Ring

/-!
# Model of financial_ml/evaluation/cross_validation.py: purging, embargo and PurgedKFold

An event is a start time and an end time; a missing end (NaT) is `none`, and every comparison with
NaT is False.  `Series.iteritems` and `Series.append` (pandas < 2) are taken as iteration and
concatenation.  A generator is modelled by the list of what it yields; an exception in it makes the
whole list an error.
-/

namespace FinML.CV

variable {K : Type} [Field K] [LinearOrder K] [FloorRing K]

/-- One row of `event_times`: start (index) and end (value); cross_validation.py:14. -/
abbrev Event := ℤ × Option ℤ

/-- Python `int(x)`: truncation towards 0; cross_validation.py:40, 104. -/
def pyInt (x : K) : ℤ := if 0 ≤ x then ⌊x⌋ else ⌈x⌉

/-- `l[k:]` for any integer `k`; cross_validation.py:44, 116. -/
def pyDrop {α : Type} (k : ℤ) (l : List α) : List α :=
  if 0 ≤ k then l.drop k.toNat else l.drop ((l.length : ℤ) + k).toNat

/-- `a <= b` with a possibly missing right side; cross_validation.py:22-24. -/
def leO (a : ℤ) : Option ℤ → Bool
  | some b => decide (a ≤ b)
  | none => false

/-- `a <= b` with both sides possibly missing; cross_validation.py:22-24. -/
def oLeO : Option ℤ → Option ℤ → Bool
  | some a, some b => decide (a ≤ b)
  | _, _ => false

/-- `a < b` with a possibly missing left side; cross_validation.py:110. -/
def oLt : Option ℤ → ℤ → Bool
  | some a, b => decide (a < b)
  | none, _ => false

/-- `overlap1 ∪ overlap2 ∪ overlap3`, cross_validation.py:22-25. -/
def overlaps (test ev : Event) : Bool :=
  (decide (test.1 ≤ ev.1) && leO ev.1 test.2) ||
  (leO test.1 ev.2 && oLeO ev.2 test.2) ||
  (decide (ev.1 ≤ test.1) && oLeO test.2 ev.2)

/-- `_get_purged_train_indices`, cross_validation.py:9-26: rows are dropped test by test; the result is
the row numbers left. -/
def purgedTrain (events tests : List Event) : List ℕ :=
  (tests.foldl (fun rows t => rows.filter fun r => !overlaps t r.1) events.zipIdx).map Prod.snd

/-- `_get_embargo_times`, cross_validation.py:29-46, as (bar time, shifted bar time) rows.  With a negative step `-s` the
slices are `bar_times[-s:]`, `bar_times[:s]` and `bar_times[s:]`. -/
def embargoTimes (bars : List ℤ) (pct : K) : Py (List (ℤ × ℤ)) :=
  let step := pyInt ((bars.length : K) * pct)
  if step < 0 then
    let s := (-step).toNat
    do
      let last ← pyLast bars
      return (bars.take s).zip (bars.drop (bars.length - s)) ++ (bars.drop s).map fun b => (b, last)
  else if step = 0 then .ok (bars.zip bars)
  else
    let s := step.toNat
    do
      let last ← pyLast bars
      return (bars.take (bars.length - s)).zip (bars.drop s) ++
        (bars.drop (bars.length - s)).map fun b => (b, last)

/-- Rows of the embargo map with a given label; cross_validation.py:67. -/
def lookupAll (m : List (ℤ × ℤ)) (e : Option ℤ) : List ℤ :=
  (m.filter fun p => decide (some p.1 = e)).map Prod.snd

/-- `pd.Series(embargo_times[test_times].values, index=test_times.index)`, cross_validation.py:67.  A
missing label raises KeyError; a repeated one gives more values than rows (ValueError). -/
def adjustTests (m : List (ℤ × ℤ)) (tests : List Event) : Py (List Event) :=
  if ∃ t ∈ tests, lookupAll m t.2 = [] then .error .keyError
  else
    let vals := tests.flatMap fun t => lookupAll m t.2
    if vals.length ≠ tests.length then .error .valueError
    else .ok ((tests.map Prod.fst).zip (vals.map some))

/-- Test times after the optional embargo, cross_validation.py:65-69. -/
def adjusted (tests : List Event) (pct : K) : Option (List ℤ) → Py (List Event)
  | none => .ok tests
  | some bars => do
    let m ← embargoTimes bars pct
    adjustTests m tests

/-- `apply_purging_and_embargo`, cross_validation.py:49-71. -/
def applyPurging (events tests : List Event) (bars : Option (List ℤ)) (pct : K) : Py (List ℕ) := do
  let adj ← adjusted tests pct bars
  return purgedTrain events adj

/-- Cut a list into pieces of given sizes; cross_validation.py:105. -/
def cut {α : Type} : List ℕ → List α → List (List α)
  | [], _ => []
  | s :: ss, l => l.take s :: cut ss (l.drop s)

/-- Section sizes of `np.array_split` of `n` items into `k` sections; cross_validation.py:105. -/
def splitSizes (n k : ℕ) : List ℕ :=
  List.replicate (n % k) (n / k + 1) ++ List.replicate (k - n % k) (n / k)

/-- `np.array_split(np.arange(n), k)`; cross_validation.py:105. -/
def arraySplit (n : ℕ) (k : ℤ) : Py (List (List ℕ)) :=
  if k ≤ 0 then .error .valueError else .ok (cut (splitSizes n k.toNat) (List.range n))

/-- `(i[0], i[-1] + 1)`, cross_validation.py:105. -/
def foldBounds (piece : List ℕ) : Py (ℕ × ℕ) := do
  let a ← pyGet piece 0
  let b ← pyLast piece
  return (a, b + 1)

/-- `Series.max()` of the known ends; all missing gives NaT, on which the search is not modelled;
cross_validation.py:113. -/
def maxEnd (evs : List Event) : Py ℤ :=
  if evs.filterMap Prod.snd = [] then .error .unmodelled else npMax (evs.filterMap Prod.snd)

/-- One fold of `PurgedKFold.split`, cross_validation.py:107-118. -/
def kfoldOne (events : List Event) (embargo : ℤ) (b : ℕ × ℕ) : Py (List ℕ × List ℕ) := do
  let indices := List.range events.length
  let test := (indices.take b.2).drop b.1
  let first ← pyGet events b.1
  let train1 := (events.zipIdx.filter fun r => oLt r.1.2 first.1).map Prod.snd
  let testEvents ← test.mapM (pyGet events)
  let testEnd ← maxEnd testEvents
  let start2 := searchRight (events.map Prod.fst) testEnd + 1
  return (if start2 < events.length then train1 ++ pyDrop ((start2 : ℤ) + embargo) indices
    else train1, test)

/-- The argument of `split`: not a Series at all (for instance None), or a Series with or without a
DatetimeIndex; cross_validation.py:97-100. -/
inductive SplitArg
  | notSeries
  | series (datetimeIndex : Bool) (events : List Event)

/-- `PurgedKFold.split` on a Series with a DatetimeIndex, cross_validation.py:102-118. -/
def kfoldEvents (nSplits : ℤ) (pct : K) (events : List Event) : Py (List (List ℕ × List ℕ)) := do
  let pieces ← arraySplit events.length nSplits
  let bounds ← pieces.mapM foldBounds
  bounds.mapM (kfoldOne events (pyInt ((events.length : K) * pct)))

/-- `PurgedKFold.split`, cross_validation.py:91-118. -/
def kfoldSplit (nSplits : ℤ) (pct : K) : SplitArg → Py (List (List ℕ × List ℕ))
  | .notSeries => .error .valueError
  | .series false _ => .error .valueError
  | .series true events => kfoldEvents nSplits pct events

end FinML.CV
