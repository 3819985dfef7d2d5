import Verif.Alloc.PosModel

/-!
# Sizes from the divergence in doubles, position_sizing.py:113-114, 125-141

`Verif/Alloc/PosModel.lean` computes exactly; here every difference, square, sum and product goes through a rounding
`rd`, and the power `** -0.5` of the C library is a parameter `pw`.  Exponents are not bounded, so there is no overflow.
-/

namespace FinML.Alloc

variable {K : Type} [Field K] [LinearOrder K] [FloorRing K]

/-- `_scaled_sigmoid`, position_sizing.py:113-114, with rounded arithmetic.  A negative base gives a complex number. -/
def scaledSigmoidR (rd pw : K → K) (w x : K) : Py K :=
  let b := rd (w + rd (x ^ 2))
  if b = 0 then .error .zeroDivision
  else if b < 0 then .error .unmodelled
  else .ok (rd (x * pw b))

/-- `position_size_from_divergence`, position_sizing.py:125-141, with rounded arithmetic. -/
def divergenceR (rd pw : K → K) (forecast marketPrice maxSize w : K) : Py ℤ := do
  let s ← scaledSigmoidR rd pw w (rd (forecast - marketPrice))
  return pyInt (rd (s * maxSize))

end FinML.Alloc
