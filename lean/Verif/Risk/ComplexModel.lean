import Verif.Risk.Model
import Mathlib.Analysis.Complex.Norm

/-!
# strategy_risk.py with complex numbers

In Python a negative number to the power 0.5 is a complex number, where `Verif/Risk/Model.lean` says `unmodelled`.  (The real
part of such a root, which in floating point is about 1e-16 times its size, is zero here.)
-/

namespace FinML.Risk

/-- `x**.5` of a Python float; strategy_risk.py:19-20, 36. -/
noncomputable def powHalfC (x : ℝ) : ℂ := if x < 0 then ⟨0, √(-x)⟩ else ((√x : ℝ) : ℂ)

open Classical in
/-- `a/b` of Python numbers; strategy_risk.py:20, 36. -/
noncomputable def pyDivC (a b : ℂ) : Py ℂ := if b = 0 then .error .zeroDivision else .ok (a / b)

/-- `strategy_sharpe_ratio`, strategy_risk.py:8-20. -/
noncomputable def strategySharpeC (p freq profit loss : ℝ) : Py ℂ := do
  let numer : ℝ := (profit - loss) * p + loss
  let denom : ℂ := ((profit - loss : ℝ) : ℂ) * powHalfC (p * (1 - p))
  let q ← pyDivC (numer : ℂ) denom
  return q * powHalfC freq

/-- `strategy_required_precision`, strategy_risk.py:23-37. -/
noncomputable def requiredPrecisionC (target freq profit loss : ℝ) : Py ℂ :=
  let a := (freq + target ^ 2) * (profit - loss) ^ 2
  let b := (2 * freq * loss - target ^ 2 * (profit - loss)) * (profit - loss)
  let c := freq * loss ^ 2
  pyDivC (((-b : ℝ) : ℂ) + powHalfC (b ^ 2 - 4 * a * c)) ((2 * a : ℝ) : ℂ)

/-- `np.isclose(a, b)` of a complex and a real number; strategy_risk.py:51. -/
def IsCloseC (a : ℂ) (b : ℝ) : Prop := ‖a - (b : ℂ)‖ ≤ 1 / 10 ^ 8 + 1 / 10 ^ 5 * |b|

open Classical in
/-- `strategy_required_freq`, strategy_risk.py:40-53. -/
noncomputable def requiredFreqC (target p profit loss : ℝ) : Py (Option ℝ) := do
  let freq ← pyDiv ((target * (profit - loss)) ^ 2 * p * (1 - p)) (((profit - loss) * p + loss) ^ 2)
  let sr ← strategySharpeC p freq profit loss
  return if IsCloseC sr target then some freq else none

end FinML.Risk
