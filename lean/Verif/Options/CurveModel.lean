import Verif.Py.Basic
import Mathlib.Data.Real.Basic

/-!
# Model of `interpolate_yield_curve` (tools/interest_rate.py)

`scipy.interpolate.CubicSpline` is a parameter.
-/

namespace FinML.Options

/-- `interpolate_yield_curve`, interest_rate.py:5-12. -/
def interpolateYieldCurve (spline : List ℝ → List ℝ → Py (ℝ → ℝ)) (termStructure : List (ℝ × ℝ)) : Py (ℝ → ℝ) :=
  let x := termStructure.map Prod.fst
  let y := termStructure.map Prod.snd
  spline x y

end FinML.Options
