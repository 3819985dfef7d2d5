import Verif.FracDiff.Model
import Verif.Stats.Model
import Mathlib.Analysis.SpecialFunctions.Log.Basic

/-!
# Model of `run_adf_tests` (features/frac_diff.py)

`adfuller` of statsmodels is a parameter.
-/

namespace FinML.FracDiff

/-- The result of `adfuller` as far as it is used: statistic, p-value, lags, number of observations and
critical values; frac_diff.py:118. -/
structure AdfOut where
  stat : ℝ
  pVal : ℝ
  lags : ℕ
  nObs : ℕ
  crit : List (String × ℝ)

/-- A row of the result; frac_diff.py:119. -/
structure AdfRow where
  stat : ℝ
  pVal : ℝ
  lags : ℕ
  nObs : ℕ
  conf95 : ℝ
  corr : Option ℝ

open Classical in
/-- `np.log` of a price; NaN for a missing or negative one.  The logarithm of 0 is infinite, which is not
modelled; frac_diff.py:112. -/
noncomputable def logPrice : Option ℝ → Py (Option ℝ)
  | none => .ok none
  | some p => if p = 0 then .error .unmodelled else if p < 0 then .ok none else .ok (some (Real.log p))

/-- `frame.loc[label, col]`; frac_diff.py:115. -/
def locRow (rows : List (ℤ × Option ℝ)) (t : ℤ) : Py (Option ℝ) :=
  ((rows.find? fun p => p.1 = t).map Prod.snd).elim (.error .keyError) .ok

/-- `np.corrcoef(a, b)[0, 1]`, NaN if a value is missing; frac_diff.py:114-117. -/
noncomputable def corrCols (a b : List (Option ℝ)) : Option ℝ :=
  if (a ++ b).all Option.isSome then Stats.corrcoef ((a.zip b).filterMap Stats.bothPresent) else none

/-- `adfuller` refuses NaN; frac_diff.py:118. -/
def adfInput : Option ℝ → Py ℝ
  | none => .error .exception
  | some v => .ok v

/-- `adf_res[4]['5%']`; frac_diff.py:119. -/
def critical (crit : List (String × ℝ)) : Py ℝ :=
  ((crit.find? fun p => p.1 = "5%").map Prod.snd).elim (.error .keyError) .ok

/-- One round of the loop, frac_diff.py:112-119. -/
noncomputable def adfOne (adfuller : List ℝ → Py AdfOut) (index : List ℤ) (prices : List (Option ℝ)) (d : ℝ) :
    Py AdfRow := do
  let logs ← prices.mapM logPrice
  let fd ← fracDiffFixed ⟨index, [("price", logs)]⟩ d (1 / 100)
  let fdCol ← pyGet fd.cols 0
  let kept ← fd.index.mapM (locRow (index.zip logs))
  let vals ← fdCol.2.mapM adfInput
  let res ← adfuller vals
  let conf ← critical res.crit
  return ⟨res.stat, res.pVal, res.lags, res.nObs, conf, corrCols kept fdCol.2⟩

open Classical in
/-- `adf_out.loc[d] = row`: replaces the row of that label or appends one; frac_diff.py:119. -/
noncomputable def setRow (rows : List (ℝ × AdfRow)) (d : ℝ) (r : AdfRow) : List (ℝ × AdfRow) :=
  if rows.any fun p => p.1 = d then rows.map fun p => if p.1 = d then (d, r) else p else rows ++ [(d, r)]

/-- `run_adf_tests`, frac_diff.py:99-120. -/
noncomputable def runAdfTests (adfuller : List ℝ → Py AdfOut) (index : List ℤ) (prices : List (Option ℝ))
    (orders : List ℝ) : Py (List (ℝ × AdfRow)) :=
  orders.foldlM (fun rows d => do
    let r ← adfOne adfuller index prices d
    return setRow rows d r) []

end FinML.FracDiff
