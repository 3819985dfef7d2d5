import Verif.Entropy.Model

/-!
# Sigma codes in doubles, entropy.py:154-166

`Verif/Entropy/Model.lean` subtracts exactly; here the difference `series - lo` goes through a rounding `rd`.  `//` of
numpy is the floor of the exact quotient of two doubles for the quotients that matter here (it takes the remainder with
`fmod`, which is exact, and rounds `(a - mod)/b` to a whole number).
-/

namespace FinML.Entropy

variable {K : Type} [Field K] [LinearOrder K] [FloorRing K]

/-- `sigma_encode`, entropy.py:154-166, with a rounded difference. -/
def sigmaEncodeR (rd : K → K) (series : List K) (sigma : K) : Py (List Char) :=
  if series = [] then .ok []
  else if sigma = 0 then .error .valueError
  else do
    let lo ← npMin series
    series.mapM fun x => npIndex (fullAlphabet ++ ['?']) (min ⌊rd (x - lo) / sigma⌋ 62)

end FinML.Entropy
