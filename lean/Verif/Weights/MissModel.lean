import Verif.Weights.Model

/-!
# Rare labels when some events have no label (weighting.py:7-21)

An event without label (NaN) is `none`.
-/

namespace FinML.Weights

variable {K : Type} [Field K] [LinearOrder K] [IsStrictOrderedRing K]

/-- The loop of `drop_rare_labels`, weighting.py:16-21: `value_counts` leaves NaN out, `!=` keeps the rows with NaN.
`argmin` and `fuel` as in `dropRareLoop`. -/
def dropRareLoopM {α : Type} [DecidableEq α] (argmin : List α → α) (minPct : K) (minClasses : ℤ) :
    ℕ → List (Option α) → Py (List (Option α))
  | 0, _ => .error .unmodelled
  | fuel + 1, rows =>
    let labels := rows.filterMap id
    if (labels ≠ [] ∧ minPct < share labels (argmin labels)) ∨ (labels.dedup.length : ℤ) ≤ minClasses then .ok rows
    else if labels = [] then .error .valueError
    else dropRareLoopM argmin minPct minClasses fuel (rows.filter fun a => a ≠ some (argmin labels))

/-- `drop_rare_labels`, weighting.py:7-21; every iteration removes a label. -/
def dropRareLabelsM {α : Type} [DecidableEq α] (argmin : List α → α) (rows : List (Option α)) (minPct : K)
    (minClasses : ℤ) : Py (List (Option α)) :=
  dropRareLoopM argmin minPct minClasses ((rows.filterMap id).length + 1) rows

end FinML.Weights
