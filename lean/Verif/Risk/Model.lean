import Verif.Py.Basic
import Verif.Py.Normal
import Mathlib.Analysis.SpecialFunctions.Pow.Real

/-!
# Model of financial_ml/risk/strategy_risk.py

Numbers are real.  A negative number to the power 0.5 is complex in Python; such values are not
modelled (`unmodelled`).  A division by zero raises ZeroDivisionError.
-/

namespace FinML.Risk

/-- `x**.5`; strategy_risk.py:19-20, 36. -/
noncomputable def powHalf (x : ℝ) : Py ℝ := if x < 0 then .error .unmodelled else .ok (√x)

/-- `a/b`; strategy_risk.py:20, 36, 50. -/
noncomputable def pyDiv (a b : ℝ) : Py ℝ := if b = 0 then .error .zeroDivision else .ok (a / b)

/-- `strategy_sharpe_ratio`, strategy_risk.py:8-20. -/
noncomputable def strategySharpe (p freq profit loss : ℝ) : Py ℝ := do
  let numer := (profit - loss) * p + loss
  let r ← powHalf (p * (1 - p))
  let denom := (profit - loss) * r
  let q ← pyDiv numer denom
  let f ← powHalf freq
  return q * f

/-- `strategy_required_precision`, strategy_risk.py:23-37. -/
noncomputable def requiredPrecision (target freq profit loss : ℝ) : Py ℝ := do
  let a := (freq + target ^ 2) * (profit - loss) ^ 2
  let b := (2 * freq * loss - target ^ 2 * (profit - loss)) * (profit - loss)
  let c := freq * loss ^ 2
  let r ← powHalf (b ^ 2 - 4 * a * c)
  pyDiv (-b + r) (2 * a)

/-- `np.isclose(a, b)` with its defaults `rtol=1e-5`, `atol=1e-8`; strategy_risk.py:51. -/
def IsClose (a b : ℝ) : Prop := |a - b| ≤ 1 / 10 ^ 8 + 1 / 10 ^ 5 * |b|

open Classical in
/-- `strategy_required_freq`, strategy_risk.py:40-53. -/
noncomputable def requiredFreq (target p profit loss : ℝ) : Py (Option ℝ) := do
  let freq ← pyDiv ((target * (profit - loss)) ^ 2 * p * (1 - p)) (((profit - loss) * p + loss) ^ 2)
  let sr ← strategySharpe p freq profit loss
  return if IsClose sr target then some freq else none

/-- `mean()` of a selection; NaN if it is empty; strategy_risk.py:66-67. -/
noncomputable def meanOpt (l : List ℝ) : Option ℝ := if l = [] then none else some (l.sum / (l.length : ℝ))

/-- `norm.cdf(x, loc, scale)`; NaN if the scale is not positive; strategy_risk.py:71. -/
noncomputable def cdfAt (x loc scale : ℝ) : Option ℝ :=
  if 0 < scale then some (normCdf ((x - loc) / scale)) else none

/-- `strategy_probability_of_failure`, strategy_risk.py:56-72.  The means are numpy numbers, for which
NaN propagates and a negative number has the root NaN; no returns at all divides by zero in
`float(returns.shape[0])`.  (A threshold divided by `freq + target_sr**2 = 0` counts as NaN; for a negative frequency it
could be infinite.) -/
noncomputable def probabilityOfFailure (returns : List ℝ) (freq target : ℝ) : Py (Option ℝ) :=
  if returns.length = 0 then .error .zeroDivision
  else
    let pos := returns.filter fun r => 0 < r
    let neg := returns.filter fun r => r ≤ 0
    let p := (pos.length : ℝ) / (returns.length : ℝ)
    .ok ((meanOpt pos).bind fun up => (meanOpt neg).bind fun down =>
      (requiredPrecision target freq up down).toOption.bind fun thresh => cdfAt thresh p (p * (1 - p)))

end FinML.Risk
