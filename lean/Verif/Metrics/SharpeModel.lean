import Verif.Py.Basic
import Verif.Py.Normal
import Mathlib.NumberTheory.Harmonic.EulerMascheroni

/-!
# Model of financial_ml/evaluation/metrics.py, lines 119-192

Numbers are real; a NaN or infinite result is `none`.  An array of two dimensions is a list of rows of
equal length.
-/

namespace FinML.Metrics

/-- The axis argument of numpy: `None`, 0 (down the rows) or 1 (along each row);
metrics.py:119, 141. -/
inductive Axis
  | all
  | rows
  | cols
  deriving DecidableEq

/-- `np.mean`; metrics.py:127. -/
noncomputable def npAvg (l : List ℝ) : ℝ := l.sum / (l.length : ℝ)

/-- The central moment of order `k`: the mean of `(x - mean)^k`; metrics.py:142-143. -/
noncomputable def moment (k : ℕ) (l : List ℝ) : ℝ := npAvg (l.map fun x => (x - npAvg l) ^ k)

/-- `np.std`; metrics.py:127. -/
noncomputable def npStd (l : List ℝ) : ℝ := √(moment 2 l)

/-- `sharpe_ratio` of one line, metrics.py:127; not a number if the deviation is 0. -/
noncomputable def sharpe (l : List ℝ) : Option ℝ := fdiv (npAvg l) (npStd l)

/-- The lines of a matrix along an axis; metrics.py:127. -/
def lines (m : List (List ℝ)) : Axis → List (List ℝ)
  | .all => [m.flatten]
  | .rows => (List.range (m.headD []).length).map fun j : ℕ => m.map fun r => r.getD j 0
  | .cols => m

/-- `sharpe_ratio`, metrics.py:119-127; one entry for each line. -/
noncomputable def sharpeRatio (m : List (List ℝ)) (ax : Axis) : List (Option ℝ) := (lines m ax).map sharpe

/-- `scipy.stats.skew`: `m3/m2^1.5`; NaN for constant data; metrics.py:142. -/
noncomputable def skew (l : List ℝ) : Option ℝ := fdiv (moment 3 l) (npStd l ^ 3)

/-- `scipy.stats.kurtosis`: the excess kurtosis `m4/m2^2 - 3`; NaN for constant data;
metrics.py:143. -/
noncomputable def kurtosis (l : List ℝ) : Option ℝ := (fdiv (moment 4 l) (moment 2 l ^ 2)).map fun k => k - 3

/-- `norm.cdf(numer/sqrt(rad))`: NaN if `rad` is negative; for `rad = 0` the quotient is infinite with
the sign of `numer`, or NaN; metrics.py:147. -/
noncomputable def cdfQuot (numer rad : ℝ) : Option ℝ :=
  if rad < 0 then none
  else if rad = 0 then (if 0 < numer then some 1 else if numer < 0 then some 0 else none)
  else some (normCdf (numer / √rad))

/-- The number under the root, metrics.py:146. -/
noncomputable def psrRadicand (sr s k : ℝ) : ℝ := 1 - s * sr + (k - 1) / 4 * sr ^ 2

/-- The probabilistic Sharpe ratio of one line with a given number of observations,
metrics.py:140 and 142-148. -/
noncomputable def psrLine (l : List ℝ) (benchmark : ℝ) (numObs : ℕ) : Option ℝ := do
  let sr ← sharpe l
  let s ← skew l
  let k ← kurtosis l
  cdfQuot ((sr - benchmark) * √((numObs : ℝ) - 1)) (psrRadicand sr s k)

/-- `num_obs`, metrics.py:141: axis 0 is falsy. -/
def numObs (m : List (List ℝ)) : Axis → ℕ
  | .all => m.flatten.length
  | .rows => m.flatten.length
  | .cols => (m.headD []).length

/-- `probabilistic_sharpe_ratio` for a matrix, metrics.py:130-148. -/
noncomputable def psr (m : List (List ℝ)) (benchmark : ℝ) (ax : Axis) : List (Option ℝ) :=
  (lines m ax).map fun l => psrLine l benchmark (numObs m ax)

/-- `probabilistic_sharpe_ratio` for a one-dimensional array, where `returns.size` is its length;
metrics.py:130-148. -/
noncomputable def psr1 (l : List ℝ) (benchmark : ℝ) : Option ℝ := psrLine l benchmark l.length

/-- `norm.ppf(q)` for `0 < q < 1`: the point where the cdf is `q`; metrics.py:163-164. -/
noncomputable def normPpf (q : ℝ) : ℝ := Function.invFun normCdf q

/-- `a + b` for `n` trials, metrics.py:163-164. -/
noncomputable def expectedMax (n : ℕ) : ℝ :=
  (1 - Real.eulerMascheroniConstant) * normPpf (1 - 1 / (n : ℝ))
    + Real.eulerMascheroniConstant * normPpf (1 - 1 / (n : ℝ) * Real.exp (-1))

/-- All entries, if none is NaN; metrics.py:161. -/
def allSome {α : Type} : List (Option α) → Option (List α)
  | [] => some []
  | none :: _ => none
  | some a :: l => (allSome l).map fun r => a :: r

/-- The benchmark of `deflated_sharpe_ratio`, metrics.py:160-165.  With one trial `norm.ppf(0)` is
infinite and the product with the zero deviation is NaN. -/
noncomputable def deflatedBenchmark (m : List (List ℝ)) (ax : Axis) : Option ℝ := do
  let srs ← allSome (sharpeRatio m ax)
  if srs.length ≤ 1 then none else some (npStd srs * expectedMax srs.length)

/-- `deflated_sharpe_ratio`, metrics.py:151-166; a NaN benchmark gives NaN everywhere.  With axis `None` the
code raises IndexError (`sharpe_ratios.shape[0]` of a scalar, metrics.py:161), which this model leaves out: it
gives NaN. -/
noncomputable def deflatedSharpe (m : List (List ℝ)) (ax : Axis) : List (Option ℝ) × Option ℝ :=
  ((deflatedBenchmark m ax).elim ((lines m ax).map fun _ => none) fun b => psr m b ax,
    deflatedBenchmark m ax)

/-- `annualized_sharpe_ratio`, metrics.py:169-176. -/
noncomputable def annualized (sr perYear : ℝ) : ℝ := sr * √perYear

/-- `information_ratio` of one line, metrics.py:179-192; the series have equal length. -/
noncomputable def informationRatio (rets bench : List ℝ) : Option ℝ :=
  let excess := rets.zipWith (fun a b => a - b) bench
  fdiv (npAvg excess) (npStd excess)

end FinML.Metrics
