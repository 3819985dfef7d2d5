import Verif.Options.Model
import Mathlib.LinearAlgebra.Matrix.NonsingularInverse
import Mathlib.Data.EReal.Basic

/-!
# Model of financial_ml/features/structural_breaks.py

Numbers are real.  A series is the list of its values, in the order of a strictly increasing index
without missing values (the outer joins of `_get_lag_df` keep such an index as it is).  Lags are natural
numbers.
-/

namespace FinML.Breaks

open FinML.Options

/-! ## CUSUM tests, structural_breaks.py:9-46 -/

/-- `np.minimum(norm.cdf(x), 1. - norm.cdf(x))`, structural_breaks.py:45; NaN for NaN. -/
noncomputable def pvalue (x : FExt) : Option ℝ := x.cdf.map fun p => min p (1 - p)

/-- `recursive_residuals_cusum_stats`, structural_breaks.py:20-27, for the statistics `cusum` found by
statsmodels' `RecursiveLS` from `T` observations of `k` variables: the p-values.  `norm.cdf` is NaN for a
scale that is not positive. -/
noncomputable def recursivePvalues (cusum : List ℝ) (T k : ℕ) : List (Option ℝ) :=
  cusum.map fun s =>
    if T ≤ k + 1 then none else pvalue (.fin (s / √((T : ℝ) - k - 1)))

/-- `np.diff`; structural_breaks.py:41. -/
def npDiff {K : Type} [Sub K] (l : List K) : List K := List.zipWith (fun a b => b - a) l l.tail

/-- `np.cumsum`; structural_breaks.py:43. -/
def npCumsum (l : List ℝ) : List ℝ := (List.range l.length).map fun i => (l.take (i + 1)).sum

/-- `sigma`, structural_breaks.py:41-43. -/
noncomputable def levelSigma (y : List ℝ) : List ℝ :=
  (npCumsum ((npDiff y).map fun d => d ^ 2)).mapIdx fun i s => √(1 / ((i : ℝ) + 2 - 1) * s)

/-- `res`, structural_breaks.py:44: `t[n + j] = n + j + 2`. -/
noncomputable def levelStats (y : List ℝ) (n : ℕ) (yn : ℝ) : List FExt :=
  ((y.drop (n + 1)).zip ((levelSigma y).drop n)).mapIdx fun j x =>
    FExt.div (.fin (x.1 - yn)) (x.2 * √((n : ℝ) + j + 2 - (n + 1)))

/-- `levels_cusum_stats`, structural_breaks.py:30-46; `None` for fewer than two values. -/
noncomputable def levelsCusumStats (y : List ℝ) (n : ℕ) : Py (Option (List FExt × List (Option ℝ))) :=
  if y.length < 2 then .ok none
  else do
    let yn ← pyGet y n
    return some (levelStats y n yn, (levelStats y n yn).map pvalue)

/-! ## Supremum ADF, structural_breaks.py:51-140 -/

section Design

variable {K : Type} [Field K]

/-- `df.shift(lag)`; structural_breaks.py:62. -/
def shift (l : List K) (lag : ℕ) : List (Option K) :=
  (List.range l.length).map fun i => if lag ≤ i then l[i - lag]? else none

/-- `_get_lag_df(diff, lags).dropna()`, structural_breaks.py:51-65 and 78: one column for each lag, and
only the rows without NaN. -/
def lagRows (diff : List K) (lags : List ℕ) : List (List K) :=
  (List.range diff.length).filterMap fun i => lags.mapM fun lag => ((shift diff lag)[i]?).join

/-- `x.iloc[:, 0] = series.values[-x.shape[0]-1:-1, 0]`, structural_breaks.py:79. -/
def setLevels (series : List K) (rows : List (List K)) : List (List K) :=
  List.zipWith (fun v r => v :: r.tail)
    ((series.drop (series.length - (rows.length + 1))).take rows.length) rows

/-- `diff.iloc[-m:]`; all rows for `m = 0`; structural_breaks.py:79-80. -/
def lastRows (diff : List K) (m : ℕ) : List K := if m = 0 then diff else diff.drop (diff.length - m)

/-- The deterministic terms of row `j`, structural_breaks.py:81-87. -/
def deterministic (constant : String) (j : ℕ) : List K :=
  if constant ≠ "nc" then
    1 :: (if constant.toList.take 2 = ['c', 't'] then
      (j : K) :: (if constant = "ctt" then [(j : K) ^ 2] else []) else [])
  else []

/-- `_get_yx`, structural_breaks.py:68-88, for a list of lags.  Without lags there is no column to set; a repeated lag would
give a column of the same name again, which `join` refuses, structural_breaks.py:63-64. -/
def getYx (series : List K) (constant : String) (lags : List ℕ) : Py (List K × List (List K)) :=
  if lags = [] then .error .indexError
  else if ¬ lags.Nodup then .error .valueError
  else
    let diff := npDiff series
    let rows := setLevels series (lagRows diff lags)
    .ok (lastRows diff rows.length, rows.mapIdx fun j r => r ++ deterministic constant j)

/-- `_get_yx` for a number of lags: `range(lags + 1)`, structural_breaks.py:59-60. -/
def getYxInt (series : List K) (constant : String) (lags : ℕ) : Py (List K × List (List K)) :=
  getYx series constant (List.range (lags + 1))

end Design

/-- The design matrix with `k` columns; structural_breaks.py:92-93. -/
def toMatrix (rows : List (List ℝ)) (k : ℕ) : Matrix (Fin rows.length) (Fin k) ℝ :=
  Matrix.of fun i j => (rows[i]).getD j 0

/-- A vector; structural_breaks.py:92-93. -/
def toVector (y : List ℝ) (m : ℕ) : Fin m → ℝ := fun i => y.getD i 0

open Matrix in
/-- `_fit_adf`, structural_breaks.py:91-98: the coefficients, the squared errors, `x.shape[0] - x.shape[1]`
and `xx_inv`.  A singular matrix is a LinAlgError. -/
noncomputable def fitAdf {m k : ℕ} (y : Fin m → ℝ) (x : Matrix (Fin m) (Fin k) ℝ) :
    Py ((Fin k → ℝ) × ℝ × ℤ × Matrix (Fin k) (Fin k) ℝ) :=
  let xy := xᵀ *ᵥ y
  let xx := xᵀ * x
  if xx.det = 0 then .error .exception
  else
    let xxInv := xx⁻¹
    let b := xxInv *ᵥ xy
    let err := y - x *ᵥ b
    .ok (b, err ⬝ᵥ err, (m : ℤ) - k, xxInv)

/-- `b_mean/b_std`, structural_breaks.py:97 and 118-119; `none` for NaN. -/
noncomputable def tStat (b sq : ℝ) (df : ℤ) (inv : ℝ) : Option EReal :=
  if df = 0 then (if sq = 0 then none else some 0)
  else
    let v := sq / df * inv
    if v < 0 then none
    else if v = 0 then (if 0 < b then some ⊤ else if b < 0 then some ⊥ else none)
    else some ((b / √v : ℝ) : EReal)

/-- The statistic of one start point, structural_breaks.py:116-119: `np.dot` needs as many rows as
responses. -/
noncomputable def adfStat (y : List ℝ) (rows : List (List ℝ)) (k : ℕ) (hk : 0 < k) : Py (Option EReal) :=
  if y.length ≠ rows.length then .error .valueError
  else do
    let r ← fitAdf (toVector y rows.length) (toMatrix rows k)
    return tStat (r.1 ⟨0, hk⟩) r.2.1 r.2.2.1 (r.2.2.2 ⟨0, hk⟩ ⟨0, hk⟩)

/-- Python's `max(a, b)` when `b` may be NaN; structural_breaks.py:120. -/
noncomputable def pyMax (a : EReal) : Option EReal → EReal
  | none => a
  | some b => if a < b then b else a

/-- The number of columns of the design; structural_breaks.py:97. -/
def numCols (constant : String) (lags : ℕ) : ℕ := lags + 1 + (deterministic constant 0 : List ℚ).length

theorem numCols_pos (constant : String) (lags : ℕ) : 0 < numCols constant lags := by
  unfold numCols
  omega

/-- `sadf_stat`, structural_breaks.py:101-121. -/
noncomputable def sadfStat (series : List ℝ) (minLen : ℕ) (constant : String) (lags : ℕ) : Py EReal := do
  let yx ← getYxInt series constant lags
  let stats ← (List.range (yx.1.length + lags + 1 - minLen)).mapM fun start =>
    adfStat (yx.1.drop start) (yx.2.drop start) (numCols constant lags) (numCols_pos constant lags)
  return stats.foldl pyMax ⊥

/-- `sadf_stat_series`, structural_breaks.py:124-140: the statistics and the positions of their times. -/
noncomputable def sadfStatSeries (series : List ℝ) (minLen : ℕ) (constant : String) (lags : ℕ) :
    Py (List (ℕ × EReal)) :=
  (List.range (series.length - minLen)).mapM fun i => do
    let v ← sadfStat (series.take (minLen + i + 1)) minLen constant lags
    return (minLen + i, v)

end FinML.Breaks
