import Verif.Alloc.PosModel

/-!
# Budgeted position sizes in doubles, position_sizing.py:39-56

`Verif/Alloc/PosModel.lean` with a rounding `rd` after every operation.  Counts are integers and are divided as they are.
-/

namespace FinML.Alloc

open FinML.Weights

/-- `fill_index`, utils/data.py:4-7. -/
def fillIndexR (rd : ℚ → ℚ) (indices : List ℤ) (s : NanSeries ℚ) (fillVal : ℚ) : NanSeries ℚ :=
  (alignWith (fun x y => rd (x + y)) (indices.map fun t => (t, some fillVal)) s).map fun p => (p.1, some (p.2.getD 0))

/-- `long_concurrency/long_budget`, position_sizing.py:55. -/
def divSeriesR (rd : ℚ → ℚ) (c : Series ℕ) (b : ℚ) : NanSeries ℚ := c.map fun p => (p.1, (fdiv (p.2 : ℚ) b).map rd)

/-- `budgeted_position_size`, position_sizing.py:39-56. -/
def budgetedPositionSizeR (rd : ℚ → ℚ) (barTimes : List ℤ) (events : List (ℤ × Option ℤ × ℚ))
    (budgetFn : List ℚ → Py ℚ) : Py (NanSeries ℚ) := do
  let long ← countEventsPerBar barTimes (ofSide events 1)
  let short ← countEventsPerBar barTimes (ofSide events (-1))
  let longBudget ← budgetFn (long.map fun p => (p.2 : ℚ))
  let shortBudget ← budgetFn (short.map fun p => (p.2 : ℚ))
  return alignWith (fun x y => rd (x - y)) (fillIndexR rd barTimes (divSeriesR rd long longBudget) 0)
    (fillIndexR rd barTimes (divSeriesR rd short shortBudget) 0)

end FinML.Alloc
