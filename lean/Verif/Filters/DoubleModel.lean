import Verif.Filters.Model
import Verif.Alloc.DoubleModel

/-!
# The CUSUM filter in doubles, filters.py:6-26

`Verif/Filters/Model.lean` computes exactly; here every subtraction and addition goes through a rounding `rd`.
`max`, `min` and negation are exact on doubles.
-/

namespace FinML.Filters

/-- `series.diff()` (filters.py:15) with rounded arithmetic. -/
def diffsR (rd : ℚ → ℚ) : List ℚ → List (Option ℚ)
  | [] => []
  | x :: xs => none :: (List.zipWith (fun b a => some (rd (b - a))) xs (x :: xs))

/-- One step of the loop, filters.py:18-25, with rounded arithmetic. -/
def cusumStepR (rd : ℚ → ℚ) (threshold : ℚ) (s : Cusum ℚ) (t : ℤ) (d : ℚ) : Cusum ℚ :=
  let pos := max 0 (rd (s.pos + d))
  let neg := min 0 (rd (s.neg + d))
  if neg < -threshold then ⟨pos, 0, s.events ++ [t]⟩
  else if pos > threshold then ⟨0, neg, s.events ++ [t]⟩
  else ⟨pos, neg, s.events⟩

/-- The loop, filters.py:16-25, with rounded arithmetic. -/
def cusumLoopR (rd : ℚ → ℚ) (index : List ℤ) (d : List (Option ℚ)) (threshold : ℚ) :
    List ℤ → Cusum ℚ → Py (Cusum ℚ)
  | [], s => .ok s
  | t :: ts, s => do
    let v ← locDiff index d t
    cusumLoopR rd index d threshold ts (cusumStepR rd threshold s t v)

/-- `filter_symmetric_cusum`, filters.py:6-26, with rounded arithmetic. -/
def filterCusumR (rd : ℚ → ℚ) (index : List ℤ) (series : List ℚ) (threshold : ℚ) : Py (List ℤ) := do
  let s ← cusumLoopR rd index (diffsR rd series) threshold index.tail ⟨0, 0, []⟩
  pure s.events

end FinML.Filters
