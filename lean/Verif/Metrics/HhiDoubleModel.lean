import Verif.Metrics.Model
import Verif.Alloc.DoubleModel

/-!
# Return concentration in doubles, metrics.py:71-92

`Verif/Metrics/Model.lean` computes exactly; here every operation goes through a rounding `rd`.  The order in which
pandas adds is a parameter `sm`; `sumR` adds from left to right, which is what it does for fewer than eight numbers.
-/

namespace FinML.Metrics

/-- Sum from left to right with rounding; metrics.py:81-82. -/
def sumR (rd : ℚ → ℚ) (l : List ℚ) : ℚ := l.foldl (fun s x => rd (s + x)) 0

/-- `_get_hhi`, metrics.py:80-84, with rounded arithmetic; `weights**2` is a product in numpy. -/
def hhiR (rd : ℚ → ℚ) (sm : List ℚ → ℚ) (rets : List ℚ) : Option ℚ :=
  let total := sm rets
  let weights := rets.map fun r => (fdiv r total).map rd
  let h := sm ((weights.filterMap id).map fun w => rd (w * w))
  let n1 := rd (1 / (rets.length : ℚ))
  (fdiv (rd (h - n1)) (rd (1 - n1))).map rd

/-- `compute_hhi_returns_concentration`, metrics.py:71-92, with rounded arithmetic. -/
def hhiConcentrationR (rd : ℚ → ℚ) (sm : List ℚ → ℚ) (rets : List ℚ) : Option ℚ × Option ℚ :=
  if rets.length ≤ 2 then (none, none)
  else
    let pos := rets.filter fun r => 0 ≤ r
    let neg := rets.filter fun r => r < 0
    (if pos.length = 0 then none else hhiR rd sm pos, if neg.length = 0 then none else hhiR rd sm neg)

end FinML.Metrics
