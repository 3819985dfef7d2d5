import Verif.Options.ChainModel
import Mathlib.Data.EReal.Inv

/-!
# Model of `implied_risk_free_rate` with infinite rates

As `ChainModel`, lines 14-33 of financial_ml/tools/option.py, but a zero strike, a zero time and an implied bond price of
zero, for which `rfRate` says `unmodelled`, give the infinities and NaN of numpy.  NaN is `none`; a zero divisor counts as
`+0`.
-/

namespace FinML.Options

open Classical in
/-- `np.log(rf_rates/callput[STRIKE])` of one pair, for the price `x` of the bond; option.py:31. -/
noncomputable def logDiscount (x k : ℝ) : Option EReal :=
  if k = 0 then (if 0 < x then some ⊤ else none)
  else if 0 < x / k then some (Real.log (x / k) : ℝ)
  else if x / k = 0 then some ⊥ else none

open Classical in
/-- `-l/t` for a number or an infinity `l`; option.py:31. -/
noncomputable def perYear (l : EReal) (t : ℝ) : Option EReal :=
  if t = 0 then (if l < 0 then some ⊤ else if 0 < l then some ⊥ else none)
  else if l = ⊤ then some (if 0 < t then ⊥ else ⊤)
  else if l = ⊥ then some (if 0 < t then ⊤ else ⊥)
  else some ((-l.toReal / t : ℝ) : EReal)

/-- One entry of `rf_rates`, option.py:30-31. -/
noncomputable def rfRateE (s0 t d : ℝ) (row : ℝ × ℝ × ℝ) : Option EReal :=
  (logDiscount (row.2.2 + s0 - row.2.1 - d) row.1).bind fun l => perYear l t

open Classical in
/-- The mean of the two middle values of a median, the smaller one first; option.py:33. -/
noncomputable def middle (a b : EReal) : Option EReal :=
  if a = ⊥ ∧ b = ⊤ then none else some ((a + b) / 2)

open Classical in
/-- `np.median` of numbers and infinities; option.py:33. -/
noncomputable def medianE (l : List EReal) : Option EReal :=
  let s := l.insertionSort (· ≤ ·)
  if l = [] then none
  else if l.length % 2 = 1 then some (s.getD (l.length / 2) 0)
  else middle (s.getD (l.length / 2 - 1) 0) (s.getD (l.length / 2) 0)

/-- `implied_risk_free_rate`, option.py:14-33; `median` skips NaN. -/
noncomputable def impliedRiskFreeRateE (calls puts : List (Option ℝ × Option ℝ)) (s0 t d : ℝ) :
    Option EReal × List (ℝ × Option EReal) :=
  let rates := (callput calls puts).map fun row => (row.1, rfRateE s0 t d row)
  (medianE (rates.map Prod.snd).reduceOption, rates)

end FinML.Options
