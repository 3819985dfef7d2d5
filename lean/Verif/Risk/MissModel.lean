import Verif.Risk.Model

/-! # Probability of failure for returns with missing values (strategy_risk.py:56-72); NaN is `none`. -/

namespace FinML.Risk

/-- `strategy_probability_of_failure`, strategy_risk.py:56-72, as `probabilityOfFailure`.  Comparisons with NaN are false, so
missing returns are in neither selection (lines 65, 67), but `returns.shape[0]` counts them (line 68). -/
noncomputable def probabilityOfFailureM (returns : List (Option ℝ)) (freq target : ℝ) : Py (Option ℝ) :=
  if returns.length = 0 then .error .zeroDivision
  else
    let known := returns.filterMap id
    let pos := known.filter fun r => 0 < r
    let neg := known.filter fun r => r ≤ 0
    let p := (pos.length : ℝ) / (returns.length : ℝ)
    .ok ((meanOpt pos).bind fun up => (meanOpt neg).bind fun down =>
      (requiredPrecision target freq up down).toOption.bind fun thresh => cdfAt thresh p (p * (1 - p)))

end FinML.Risk
