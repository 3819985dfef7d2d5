import Verif.Metrics.Model

/-!
# Time weighted return in doubles, metrics.py:56-68

`timeWeightedReturn` of `Verif/Metrics/Model.lean` with a rounding `rd` after every operation; `pr` is `.product()`, in an
order of its own.
-/

namespace FinML.Metrics

/-- The return of a row, metrics.py:65-67: the value `v` and the row before. -/
def twrReturnR (rd : ℚ → ℚ) (v : ℚ) (before : ℚ × ℚ) : Py (Option ℚ) :=
  let b := rd (before.1 + before.2)
  if b = 0 then throw .unmodelled else return some (rd (rd (v - b) / b))

/-- The returns, metrics.py:65-67; the first one is NaN. -/
def twrReturnsR (rd : ℚ → ℚ) : List (ℚ × ℚ) → Py (List (Option ℚ))
  | [] => return []
  | (v, c) :: rest => do
    let rs ← (rest.zip ((v, c) :: rest)).mapM fun x => twrReturnR rd x.1.1 x.2
    return none :: rs

/-- `compute_time_weighted_return`, metrics.py:56-68. -/
def timeWeightedReturnR (rd : ℚ → ℚ) (pr : List ℚ → ℚ) (rows : List (ℚ × ℚ)) : Py ℚ := do
  let rets ← twrReturnsR rd rows
  return rd (pr ((rets.filterMap id).map fun r => rd (1 + r)) - 1)

end FinML.Metrics
