import Verif.Py.Basic
import Verif.Py.Normal
import Verif.CV.ScoreModel
import Mathlib.Analysis.SpecialFunctions.Pow.Real
import Mathlib.Data.Sign.Defs
import Mathlib.Data.Sign.Basic

/-!
# Model of financial_ml/utils/stats.py and of the last step of `compute_pbo`

The library functions are modelled by their documented formulas; NaN is `none`.  Quadrature error is not
modelled.
-/

namespace FinML.Stats

/-! ## Autocorrelation, stats.py:8-13 -/

/-- A pair of values that are both present; stats.py:9. -/
def bothPresent (p : Option ℝ × Option ℝ) : Option (ℝ × ℝ) :=
  p.1.bind fun a => p.2.map fun b => (a, b)

/-- The pairs of `Series.corr(Series.shift(lag))`: the value and the one `lag` rows before;
stats.py:9. -/
def lagPairs (series : List (Option ℝ)) (lag : ℕ) : List (ℝ × ℝ) :=
  ((series.drop lag).zip series).filterMap bothPresent

/-- Mean of a list; stats.py:9, 27. -/
noncomputable def mean (l : List ℝ) : ℝ := l.sum / l.length

open Classical in
/-- `np.corrcoef(a, b)[0, 1]`; NaN if one side does not vary; stats.py:9. -/
noncomputable def corrcoef (l : List (ℝ × ℝ)) : Option ℝ :=
  let mx := mean (l.map Prod.fst)
  let my := mean (l.map Prod.snd)
  let sxx := (l.map fun p => (p.1 - mx) ^ 2).sum
  let syy := (l.map fun p => (p.2 - my) ^ 2).sum
  let sxy := (l.map fun p => (p.1 - mx) * (p.2 - my)).sum
  if sxx = 0 ∨ syy = 0 then none else some (sxy / (√sxx * √syy))

/-- `pearson_autocorr`, stats.py:8-9. -/
noncomputable def pearsonAutocorr (series : List (Option ℝ)) (lag : ℕ) : Option ℝ :=
  corrcoef (lagPairs series lag)

/-- `durbin_watson_stat`, stats.py:12-13: `np.sum(np.diff(e)**2) / np.sum(e**2)`. -/
noncomputable def durbinWatson (e : List ℝ) : Option ℝ :=
  fdiv ((List.zipWith (fun a b => b - a) e e.tail).map (· ^ 2)).sum (e.map (· ^ 2)).sum

/-! ## Rank correlation, stats.py:17-22 -/

/-- Pairs of rows `i < j`; stats.py:18. -/
def rowPairs {A : Type} : List A → List (A × A)
  | [] => []
  | a :: l => l.map (fun b => (a, b)) ++ rowPairs l

/-- -1, 0 or 1; stats.py:18. -/
noncomputable def sgn (x : ℝ) : ℝ := ((SignType.sign x : ℤ) : ℝ)

open Classical in
/-- The statistic of `scipy.stats.kendalltau`, tau-b: concordant less discordant pairs, over the root of the
product of the numbers of pairs not tied in each variable.  NaN if one variable is constant;
stats.py:18. -/
noncomputable def tauB (rows : List (ℝ × ℝ)) : Option ℝ :=
  let ps := rowPairs rows
  let num := (ps.map fun p => sgn (p.1.1 - p.2.1) * sgn (p.1.2 - p.2.2)).sum
  let nx := (ps.filter fun p => p.1.1 ≠ p.2.1).length
  let ny := (ps.filter fun p => p.1.2 ≠ p.2.2).length
  if nx = 0 ∨ ny = 0 then none else some (num / √((nx : ℝ) * ny))

/-- `kendalltau(x, y)`: statistic and p-value; arrays of different lengths are a ValueError.  `pval` stands
for the p-value; stats.py:18. -/
noncomputable def kendalltau (pval : List ℝ → List ℝ → Option ℝ) (x y : List ℝ) :
    Py (Option ℝ × Option ℝ) :=
  if x.length = y.length then .ok (tauB (x.zip y), pval x y) else .error .valueError

/-- `kendall_tau_pval`, stats.py:17-18: the entry `[0]` of the result. -/
noncomputable def kendallTauPval (pval : List ℝ → List ℝ → Option ℝ) (x y : List ℝ) : Py (Option ℝ) := do
  let r ← kendalltau pval x y
  return r.1

/-- `weighted_tau_pval`, stats.py:21-22.  `weightedtau` stands for `scipy.stats.weightedtau`, the weighted
statistic and NaN. -/
def weightedTauPval (weightedtau : List ℝ → List ℝ → Py (Option ℝ × Option ℝ)) (x y : List ℝ) :
    Py (Option ℝ) := do
  let r ← weightedtau x y
  return r.1

/-! ## Normality, stats.py:26-27 -/

/-- Central moment; stats.py:27. -/
noncomputable def moment (k : ℕ) (l : List ℝ) : ℝ := mean (l.map fun x => (x - mean l) ^ k)

open Classical in
/-- `jarque_bera_pval`, stats.py:26-27: the tail of the chi-squared distribution with two degrees of freedom,
`exp(-x/2)`, at `n/6·(skew² + (kurtosis-3)²/4)`.  NaN for constant data. -/
noncomputable def jarqueBeraPval (l : List ℝ) : Option ℝ :=
  if moment 2 l = 0 then none
  else
    let skew := moment 3 l / moment 2 l ^ (3 / 2 : ℝ)
    let kurt := moment 4 l / moment 2 l ^ 2
    some (Real.exp (-((l.length : ℝ) / 6 * (skew ^ 2 + 1 / 4 * (kurt - 3) ^ 2)) / 2))

/-! ## Kernel density, stats.py:40-47 -/

/-- A Gaussian kernel density estimate; backtest.py:53, option.py:140. -/
structure Kde where
  /-- the data -/
  points : List ℝ
  /-- the standard deviation of a kernel -/
  width : ℝ

open Classical in
/-- `scipy.stats.gaussian_kde(l)`: Scott's factor `n^(-1/5)` times the sample standard deviation.  Fewer than
two points are a ValueError, and points that do not vary a LinAlgError (`exception`);
backtest.py:53, option.py:140. -/
noncomputable def gaussianKde (l : List ℝ) : Py Kde :=
  if l.length ≤ 1 then .error .valueError
  else
    let var := (l.map fun x => (x - mean l) ^ 2).sum / ((l.length : ℝ) - 1)
    if var = 0 then .error .exception
    else .ok ⟨l, √(var * ((l.length : ℝ) ^ (-(1 / 5) : ℝ)) ^ 2)⟩

/-- `kde.pdf(x)`; stats.py:47. -/
noncomputable def Kde.pdf (k : Kde) (x : ℝ) : ℝ :=
  mean (k.points.map fun c => normPdf ((x - c) / k.width) / k.width)

/-- `KDERv(kde, a=a).cdf(x)`, stats.py:40-47: `rv_continuous` integrates the density from the lower end of
the support, which is -∞ by default. -/
noncomputable def Kde.cdf (k : Kde) (a : Option ℝ) (x : ℝ) : ℝ :=
  match a with
  | none => ∫ t in Set.Iic x, k.pdf t
  | some a => if x ≤ a then 0 else ∫ t in a..x, k.pdf t

/-- A logit that is not finite makes the estimate fail (`gaussian_kde` rejects it or returns NaN); not
modelled; backtest.py:50-53. -/
def finiteLogit : Option ℝ → Py ℝ
  | some x => .ok x
  | none => .error .unmodelled

/-- `compute_pbo` with its first result, backtest.py:12-56. -/
noncomputable def pboProbability (eval : List (List ℝ) → Py (List ℝ)) (argsort : List ℝ → List ℕ)
    (M : List (List ℝ)) (nPartitions : ℤ) : Py (ℝ × List CV.PboRow) := do
  let rows ← CV.computePbo eval argsort M nPartitions
  let logits ← rows.mapM fun r => finiteLogit r.logit
  let kde ← gaussianKde logits
  return (kde.cdf none 0, rows)

/-- `implied_underlying_distribution` after the sampling, option.py:140-141: the cdf of the result. -/
noncomputable def impliedCdf (samples : List ℝ) : Py (ℝ → ℝ) := do
  let kde ← gaussianKde samples
  return kde.cdf (some 0)

end FinML.Stats
