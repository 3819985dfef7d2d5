import Verif.Bars.Model
import Verif.Weights.DoubleModel

/-!
# Bars in doubles, bars.py:9-40 and 445-476

`Verif/Bars/Model.lean` computes exactly; here every operation goes through a rounding `rd`.  The order in which numpy
and pandas add is a parameter `sm`.
-/

namespace FinML.Bars

/-- `_compute_vwap`, bars.py:9-17, with rounded arithmetic. -/
def computeVwapR (rd : ℚ → ℚ) (sm : List ℚ → ℚ) (ticks : List (Tick ℚ)) : Option ℚ :=
  (fdiv (sm (ticks.map fun t => rd (t.price * t.volume))) (sm (ticks.map Tick.volume))).map rd

/-- `_compute_bar_stats` with `timestamp='first'`, bars.py:20-40, with rounded arithmetic. -/
def computeBarStatsR (rd : ℚ → ℚ) (sm : List ℚ → ℚ) (ticks : List (Tick ℚ)) : Py (Bar ℚ) := do
  let first ← pyGet ticks 0
  let hi ← npMax (ticks.map Tick.price)
  let lo ← npMin (ticks.map Tick.price)
  let last ← pyLast ticks
  return { time := first.time, op := first.price, high := hi, low := lo, close := last.price,
           volume := sm (ticks.map Tick.volume), vwap := computeVwapR rd sm ticks }

/-- The product `p * v` of bars.py:450-452, rounded; a missing VWAP counts as 0. -/
def barDollarsR (rd : ℚ → ℚ) (b : Bar ℚ) : ℚ :=
  match b.vwap with
  | some p => rd (p * b.volume)
  | none => 0

/-- `_resample_vwap`, bars.py:445-453, with rounded arithmetic. -/
def resampleVwapR (rd : ℚ → ℚ) (sm : List ℚ → ℚ) (bars : List (Bar ℚ)) : Option ℚ :=
  (fdiv (sm (bars.map (barDollarsR rd))) (sm (bars.map Bar.volume))).map rd

/-- `_resample_bar_stats` with `timestamp='first'`, bars.py:456-476, with rounded arithmetic. -/
def resampleBarStatsR (rd : ℚ → ℚ) (sm : List ℚ → ℚ) (bars : List (Bar ℚ)) : Py (Bar ℚ) := do
  let first ← pyGet bars 0
  let hi ← npMax (bars.map Bar.high)
  let lo ← npMin (bars.map Bar.low)
  let last ← pyLast bars
  return { time := first.time, op := first.op, high := hi, low := lo, close := last.close,
           volume := sm (bars.map Bar.volume), vwap := resampleVwapR rd sm bars }

/-- Sum from left to right with rounding, which is what numpy does for fewer than eight numbers;
bars.py:16, 33. -/
def leftSum (rd : ℚ → ℚ) (l : List ℚ) : ℚ := l.foldl (fun s x => rd (s + x)) 0

end FinML.Bars
