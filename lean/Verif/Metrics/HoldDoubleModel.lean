import Verif.Metrics.Model

/-!
# Holding period in doubles, metrics.py:29-53

`Verif/Metrics/Model.lean` with a rounding `rd` after every operation; `sm` is `.sum()`, in an order of its own.
-/

namespace FinML.Metrics

/-- `t_diff`, metrics.py:39: nanoseconds as a double over the nanoseconds of a day. -/
def daysR (rd : ℚ → ℚ) (t0 t : ℤ) : ℚ := rd (rd ((t - t0 : ℤ) : ℚ) / (dayNs : ℚ))

/-- One pass of the loop, metrics.py:41-49; `p_diff` is rounded, metrics.py:38. -/
def holdStepR (rd : ℚ → ℚ) (p q t : ℚ) (st : HoldState ℚ) : HoldState ℚ :=
  if 0 ≤ rd (rd (q - p) * p) then
    if q ≠ 0 then (rd (rd (rd (st.1 * p) + rd (t * rd (q - p))) / q), st.2) else st
  else if rd (q * p) < 0 then (t, st.2 ++ [(rd (t - st.1), |p|)])
  else (st.1, st.2 ++ [(rd (t - st.1), |rd (q - p)|)])

/-- The loop, metrics.py:40-49. -/
def holdLoopR (rd : ℚ → ℚ) (t0 : ℤ) (p : ℚ) (st : HoldState ℚ) : Ser ℚ → HoldState ℚ
  | [] => st
  | (t, q) :: rest => holdLoopR rd t0 q (holdStepR rd p q (daysR rd t0 t) st) rest

/-- The average, metrics.py:50-53. -/
def holdAverageR (rd : ℚ → ℚ) (sm : List ℚ → ℚ) (hp : List (Closed ℚ)) : Option ℚ :=
  if 0 < sm (hp.map Prod.snd) then
    some (rd (sm (hp.map fun c => rd (c.1 * c.2)) / sm (hp.map Prod.snd)))
  else none

/-- `compute_holding_period`, metrics.py:29-53. -/
def holdingPeriodR (rd : ℚ → ℚ) (sm : List ℚ → ℚ) : Ser ℚ → Py (Option ℚ)
  | [] => throw .indexError
  | (t0, p) :: rest => return holdAverageR rd sm (holdLoopR rd t0 p (0, []) rest).2

end FinML.Metrics
