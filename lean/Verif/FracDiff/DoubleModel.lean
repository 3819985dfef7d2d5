import Verif.FracDiff.Model
import Verif.Alloc.DoubleModel

/-!
# Weights of fractional differencing in doubles, frac_diff.py:8-19

`Verif/FracDiff/Model.lean` computes exactly; here every subtraction, addition, product and quotient goes through a
rounding `rd`.
-/

namespace FinML.FracDiff

/-- `-weights[-1] * (order - k + 1) / k`, frac_diff.py:16, from left to right with rounded arithmetic. -/
def nextWR (rd : ℚ → ℚ) (d : ℚ) (ws : List ℚ) (k : ℕ) : ℚ := rd (rd (-(ws.getLastD 0) * rd (rd (d - k) + 1)) / k)

/-- `_get_weights`, frac_diff.py:8-19, with rounded arithmetic. -/
def getWeightsR (rd : ℚ → ℚ) (d : ℚ) (size : ℕ) : List ℚ :=
  ((List.range' 1 (size - 1)).foldl (fun ws k => ws ++ [nextWR rd d ws k]) [1]).reverse

end FinML.FracDiff
