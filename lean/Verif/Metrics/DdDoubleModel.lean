import Verif.Metrics.Model
import Verif.Alloc.DoubleModel

/-!
# Drawdowns and times under water in doubles, metrics.py:95-116

Maxima, minima, grouping and comparisons do not round, so the rows are those of the exact model; only the differences
and quotients go through a rounding `rd`.
-/

namespace FinML.Metrics

/-- The drawdowns, metrics.py:110-113, with rounded arithmetic. -/
def drawdownsR (rd : ℚ → ℚ) (s : Ser ℚ) (dollars : Bool) : List (ℤ × Option ℚ) :=
  (hwmRows s).map fun r =>
    (r.time, if dollars then some (rd (r.hwm - r.low)) else (fdiv r.low r.hwm).map fun q => rd (1 - rd q))

/-- The times under water in days, metrics.py:114-115, with rounded arithmetic: the nanoseconds are converted to
floating point before they are divided. -/
def timeUnderWaterR (rd : ℚ → ℚ) (s : Ser ℚ) : Ser ℚ :=
  let ts := (hwmRows s).map HwmRow.time
  ts.dropLast.zipWith (fun a b => (a, rd (rd ((b - a : ℤ) : ℚ) / rd (dayNs : ℚ)))) ts.tail

end FinML.Metrics
