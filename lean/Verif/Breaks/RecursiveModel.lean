import Verif.Breaks.Model

/-!
# Model of the recursive residuals behind `recursive_residuals_cusum_stats`

structural_breaks.py:20-22 calls `RecursiveLS(y, X).fit().cusum` of statsmodels.  Its documentation defines the
statistics: the recursive residuals are the errors of forecasting each observation by least squares from the ones before
it, divided by the root of `1 + x (X'X)^-1 x'`; they start after as many observations as there are variables; the
statistics are their cumulative sums divided by their standard deviation over the full sample.
-/

namespace FinML.Breaks

open Matrix FinML.Options

/-- An observation: the row of `X` and the value of `y`; structural_breaks.py:9-20. -/
abbrev Obs (k : ℕ) := (Fin k → ℝ) × ℝ

/-- `X'X` of some observations; structural_breaks.py:20-21 (statsmodels). -/
noncomputable def gram {k : ℕ} (d : List (Obs k)) : Matrix (Fin k) (Fin k) ℝ :=
  (d.map fun r : Obs k => vecMulVec r.1 r.1).sum

/-- `X'y` of some observations; structural_breaks.py:20-21 (statsmodels). -/
noncomputable def moment {k : ℕ} (d : List (Obs k)) : Fin k → ℝ := (d.map fun r : Obs k => r.2 • r.1).sum

/-- The least-squares coefficients; structural_breaks.py:20-21 (statsmodels). -/
noncomputable def ols {k : ℕ} (d : List (Obs k)) : Fin k → ℝ := (gram d)⁻¹ *ᵥ moment d

/-- The recursive residual of the observation `r` after the observations `d`; structural_breaks.py:21-22 (statsmodels). -/
noncomputable def recResid {k : ℕ} (d : List (Obs k)) (r : Obs k) : ℝ :=
  (r.2 - r.1 ⬝ᵥ ols d) / √(1 + r.1 ⬝ᵥ ((gram d)⁻¹ *ᵥ r.1))

/-- The recursive residuals of the later observations; structural_breaks.py:21-22 (statsmodels). -/
noncomputable def recResids {k : ℕ} : List (Obs k) → List (Obs k) → List ℝ
  | _, [] => []
  | d, r :: rest => recResid d r :: recResids (d ++ [r]) rest

/-- `np.std(w, ddof=1)`; NaN for fewer than two; structural_breaks.py:22 (statsmodels). -/
noncomputable def sampleStd (w : List ℝ) : Option ℝ :=
  if w.length < 2 then none
  else some (√((w.map fun x => (x - w.sum / (w.length : ℝ)) ^ 2).sum / ((w.length : ℝ) - 1)))

/-- `res.cusum`, structural_breaks.py:22: cumulative sums over the standard deviation of all residuals. -/
noncomputable def cusumOf (w : List ℝ) : List FExt :=
  (npCumsum w).map fun s => (sampleStd w).elim .nan fun v => FExt.div (.fin s) v

/-- The statistics of `recursive_residuals_cusum_stats`, structural_breaks.py:20-22.  If the first `k` rows are
linearly dependent, statsmodels' approximate diffuse start matters; that is not modelled. -/
noncomputable def recursiveCusum {k : ℕ} (X : List (Fin k → ℝ)) (y : List ℝ) : Py (List FExt) :=
  if X.length ≠ y.length then .error .valueError
  else if (gram ((X.zip y).take k)).det = 0 then .error .unmodelled
  else .ok (cusumOf (recResids ((X.zip y).take k) ((X.zip y).drop k)))

end FinML.Breaks
