import Verif.Alloc.PosModel
import Mathlib.Data.Complex.Basic

/-!
# Sizes and limit prices with complex numbers, position_sizing.py:113-161

In Python a negative number to the power 0.5 is a complex number, where `PosModel` says `unmodelled`.  The rounding of its real
part is left out.
-/

namespace FinML.Alloc

/-- `x ** .5` for a Python float; position_sizing.py:118. -/
noncomputable def sqrtC (x : ℝ) : ℂ := if x < 0 then ⟨0, √(-x)⟩ else ⟨√x, 0⟩

/-- `_inverse_price`, position_sizing.py:117-118. -/
noncomputable def inversePriceC (f w m : ℝ) : Py ℂ :=
  if 1 - m ^ 2 = 0 then .error .zeroDivision else .ok ((f : ℂ) - (m : ℂ) * sqrtC (w / (1 - m ^ 2)))

/-- `compute_limit_price`, position_sizing.py:144-161. -/
noncomputable def computeLimitPriceC (curPos targetPos : ℤ) (maxPosition : ℕ) (forecast w : ℝ) : Py ℂ := do
  let sign : ℤ := if targetPos > curPos then 1 else -1
  let terms ← (pyRange (curPos + sign).natAbs (targetPos + 1).natAbs).mapM fun j : ℕ =>
    if maxPosition = 0 then .error .zeroDivision
    else inversePriceC forecast w ((j : ℝ) / (maxPosition : ℝ))
  if targetPos - curPos = 0 then .error .zeroDivision
  else .ok (terms.sum / ((targetPos - curPos : ℤ) : ℂ))

/-- `position_size_from_divergence`, position_sizing.py:125-141; `int` of a complex number is a TypeError. -/
noncomputable def positionSizeFromDivergenceC (forecast marketPrice maxSize w : ℝ) : Py ℤ :=
  let x := forecast - marketPrice
  if w + x ^ 2 = 0 then .error .zeroDivision
  else if w + x ^ 2 < 0 then .error .typeError
  else .ok (pyInt (x * (w + x ^ 2) ^ (-0.5 : ℝ) * maxSize))

end FinML.Alloc
