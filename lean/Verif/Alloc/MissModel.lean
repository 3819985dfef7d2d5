import Verif.Alloc.PosModel

/-!
# position_size_from_probabilities with missing forecasts

A missing probability, class or side (`none`) makes the size of the event NaN; pandas skips it in `.mean()`.
-/

namespace FinML.Alloc

/-- One event, its forecast and side possibly missing; position_sizing.py:100-103.  `hasSide` tells whether the
frame has a side column. -/
structure MissForecast where
  start : ℤ
  stop : Option ℤ
  side : Option ℝ
  prob : Option ℝ
  pred : Option ℝ

/-- The size of one event, position_sizing.py:100-103: NaN if a factor is. -/
noncomputable def missSize (hasSide : Bool) (n : ℕ) (e : MissForecast) : Option ℝ := do
  let p ← e.prob
  let c ← statCdf n p
  let d ← e.pred
  let s ← if hasSide then e.side else some 1
  return d * (2 * c - 1) * s

/-- The rows of `positions`, position_sizing.py:105-106. -/
noncomputable def missPosition (hasSide : Bool) (n : ℕ) (e : MissForecast) : Position (Option ℝ) :=
  ⟨e.start, e.stop, missSize hasSide n e⟩

/-- `.mean()`: the mean of the entries that are not NaN, NaN if there is none; position_sizing.py:68. -/
noncomputable def skipMean (l : List (Option ℝ)) : Option ℝ :=
  let known := l.filterMap id
  if known.length = 0 then none else some (meanOf known)

/-- The value assigned at time `t`, position_sizing.py:64-70. -/
noncomputable def missAvgAt (ps : List (Position (Option ℝ))) (t : ℤ) : Option ℝ :=
  let starts := ((ps.filter (isActive t)).map Position.start).dedup
  if 0 < starts.length then skipMean ((starts.flatMap fun s => ps.filter fun p => p.start = s).map Position.size)
  else some 0

/-- `_discretize_position_sizes` for one size, position_sizing.py:74-78.  NaN stays; with `step_size = 0` the
quotient is NaN or infinite, and infinity times zero is NaN. -/
noncomputable def missDiscretize (step : ℝ) (x : Option ℝ) : Option ℝ :=
  if step = 0 then none else x.map (discretize step)

/-- `position_size_from_probabilities`, position_sizing.py:81-109. -/
noncomputable def missPositionSizes (hasSide : Bool) (events : List MissForecast) (step : ℝ) (n : ℕ) :
    Py (List (ℤ × Option ℝ)) :=
  if events.length = 0 then .ok []
  else if n = 0 then .error .zeroDivision
  else
    let ps := events.map (missPosition hasSide n)
    .ok ((positionTimes ps).map fun t => (t, missDiscretize step (missAvgAt ps t)))

end FinML.Alloc
