import Verif.Alloc.PosModel
import Verif.CV.CombiModel

/-!
# Discretised sizes in doubles, position_sizing.py:74-78

`Verif/Alloc/PosModel.lean` divides and multiplies exactly; here the quotient and the product go through a
rounding `rd`.  `.round()` is exact on doubles (`np.rint`, halves to even).
-/

namespace FinML.Alloc

open FinML.CV (roundDouble)

/-- The double nearest to a number of either sign (a double and its negative have the same significand);
position_sizing.py:75. -/
def signedDouble (q : ℚ) : ℚ := if q < 0 then -roundDouble (-q) else roundDouble q

/-- `_discretize_position_sizes` for one size, position_sizing.py:74-78, with rounded arithmetic. -/
def discretizeR (rd : ℚ → ℚ) (step : ℚ) (x : ℚ) : ℚ :=
  let d := rd ((roundHalfEven (rd (x / step)) : ℚ) * step)
  let d1 := if 1 < d then 1 else d
  if d1 < -1 then -1 else d1

end FinML.Alloc
