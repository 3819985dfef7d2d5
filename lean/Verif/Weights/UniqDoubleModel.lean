import Verif.Weights.DoubleModel

/-!
# Average uniqueness and time decay in doubles, weighting.py:42-59, 144-165

`Verif/Weights/Model.lean` with a rounding `rd` after every operation; `sm` is the sum inside `.mean()`, in an order of
its own.  `cumsum` adds from left to right.
-/

namespace FinML.Weights

/-- `.mean()`, weighting.py:58. -/
def meanOptR (rd : ℚ → ℚ) (sm : List ℚ → ℚ) (l : List (Option ℚ)) : Option ℚ :=
  match l.mapM id with
  | some (x :: xs) => some (rd (sm (x :: xs) / ((x :: xs).length : ℚ)))
  | _ => none

/-- `(1./events_counts.loc[start:end]).mean()`, weighting.py:58. -/
def sliceUniquenessR (rd : ℚ → ℚ) (sm : List ℚ → ℚ) (counts : Series ℕ) (e : ℤ × ℤ) : Option ℚ :=
  meanOptR rd sm ((slice counts e.1 e.2).map fun p => (fdiv (1 : ℚ) (p.2 : ℚ)).map rd)

/-- `label_avg_uniqueness`, weighting.py:42-59. -/
def labelAvgUniquenessR (rd : ℚ → ℚ) (sm : List ℚ → ℚ) (bars : List ℤ) (eventTimes : Series (Option ℤ)) :
    Py (Series (Option ℚ)) := do
  let counts ← countEventsPerBar bars eventTimes
  let counts1 := reindex counts bars
  let events ← closedEvents eventTimes
  return events.foldl (fun res e => setLabel res e.1 (sliceUniquenessR rd sm counts1 e))
    (events.map fun e => (e.1, none))

/-- `cumsum()`, weighting.py:157. -/
def cumsumFromR (rd : ℚ → ℚ) (s : ℚ) : List ℚ → List ℚ
  | [] => []
  | x :: xs => rd (s + x) :: cumsumFromR rd (rd (s + x)) xs

/-- The slope, weighting.py:158-161. -/
def decaySlopeR (rd : ℚ → ℚ) (oldestWeight total : ℚ) : Option ℚ :=
  if 0 ≤ oldestWeight then (fdiv (rd (1 - oldestWeight)) total).map rd
  else (fdiv 1 (rd (rd (oldestWeight + 1) * total))).map rd

/-- `const + slope * cum_uniqueness`, negative weights set to zero, weighting.py:163-164. -/
def decayWeightR (rd : ℚ → ℚ) (const slope c : ℚ) : ℚ :=
  let w := rd (const + rd (slope * c))
  if w < 0 then 0 else w

/-- `apply_time_decay_to_weights`, weighting.py:144-165. -/
def applyTimeDecayR (rd : ℚ → ℚ) (avgUniqueness : Series ℚ) (oldestWeight : ℚ) : Py (Series ℚ) := do
  let sorted := sortIndex avgUniqueness
  let cum := cumsumFromR rd 0 (sorted.map Prod.snd)
  let total ← pyLast cum
  match decaySlopeR rd oldestWeight total with
  | none => throw .unmodelled
  | some slope => return (sorted.map Prod.fst).zip (cum.map (decayWeightR rd (rd (1 - rd (slope * total))) slope))

end FinML.Weights
