import Verif.Bars.Model
import Verif.CV.CombiModel

/-!
# Volume and dollar bars in doubles, bars.py:81-99

Elsewhere the running sum is exact; here every quantity and every partial sum goes through a rounding
`rd` (`np.cumsum` adds from left to right).  `//` on doubles is the whole part of the exact quotient.
-/

namespace FinML.Bars

/-- `np.cumsum` with rounding, from a partial sum `s`; bars.py:82, 97. -/
def cumsumR (rd : ℚ → ℚ) (s : ℚ) : List ℚ → List ℚ
  | [] => []
  | x :: xs => rd (s + rd x) :: cumsumR rd (rd (s + rd x)) xs

/-- `df[TickCol.VOLUME].cumsum() // freq`, bars.py:82-83; for dollar bars (bars.py:97-98) of the products. -/
def cumIdsR (rd : ℚ → ℚ) (freq : ℚ) (q : List ℚ) : List ℤ :=
  (cumsumR rd 0 q).map fun c => floorDiv c (rd freq)

end FinML.Bars
