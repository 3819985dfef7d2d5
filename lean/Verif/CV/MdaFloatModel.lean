import Verif.CV.ScoreModel
import Verif.Py.Float

/-!
# Mean decrease accuracy with infinities and NaN, feature_importance.py:86-95

`Verif/CV/ScoreModel.lean` counts every division by zero as missing; here the division is that of numpy, which gives NaN
only for a zero numerator.
-/

namespace FinML.CV

variable {C L P : Type}

open Classical in
/-- `(score - perm_score) / (best - perm_score)`, feature_importance.py:86-90. -/
noncomputable def mdaImportanceF (scoring : String) (score perm : ℝ) : FinML.Flt ℝ :=
  if scoring = "neg_log_loss" then FinML.Flt.div (.fin (-perm + score)) (.fin (-perm))
  else FinML.Flt.div (.fin (-perm + score)) (.fin (1 - perm))

/-- The values pandas does not skip; feature_importance.py:92-93. -/
def validF (l : List (FinML.Flt ℝ)) : List (FinML.Flt ℝ) := l.filter fun x => !x.isNan

/-- A sum of floats; feature_importance.py:92-93. -/
noncomputable def sumF (l : List (FinML.Flt ℝ)) : FinML.Flt ℝ := l.foldl FinML.Flt.add (.fin 0)

/-- `.mean()`, skipping NaN; feature_importance.py:92. -/
noncomputable def meanF (l : List (FinML.Flt ℝ)) : FinML.Flt ℝ :=
  if validF l = [] then .nan else FinML.Flt.div (sumF (validF l)) (.fin ((validF l).length : ℝ))

/-- The square root of a float; feature_importance.py:93. -/
noncomputable def sqrtF : FinML.Flt ℝ → FinML.Flt ℝ
  | .fin x => .fin (Real.sqrt x)
  | .posInf => .posInf
  | .negInf => .nan
  | .nan => .nan

/-- `.std()`, skipping NaN; feature_importance.py:93. -/
noncomputable def stdF (l : List (FinML.Flt ℝ)) : FinML.Flt ℝ :=
  if (validF l).length < 2 then .nan
  else sqrtF (FinML.Flt.div
    (sumF ((validF l).map fun x => FinML.Flt.mul (FinML.Flt.sub (meanF l) x) (FinML.Flt.sub (meanF l) x)))
    (.fin (((validF l).length : ℝ) - 1)))

/-- `get_mean_decrease_accuracy`, feature_importance.py:34-95: (mean, std) per column and the mean score. -/
noncomputable def mdaF {K : Type} [Field K] [LinearOrder K] [FloorRing K]
    (lib : Lib C (List ℝ) L P) (clf : C) (nCols : ℕ) (shuffle : ℕ → ℕ → List ℝ → List ℝ)
    (X : List (List ℝ)) (y : List L) (w : List ℝ) (cv : ℤ) (pct : K) (events : SplitArg)
    (scoring : String) : Py (List (FinML.Flt ℝ × FinML.Flt ℝ) × Option ℝ) :=
  if scoring ≠ "neg_log_loss" ∧ scoring ≠ "accuracy" then .error .notImplemented
  else do
    let splits ← kfoldSplit cv pct events
    let rows ← mdaLoop lib scoring nCols shuffle X y w 0 clf splits
    let col := fun j : ℕ => rows.map fun r => mdaImportanceF scoring r.1 (r.2.getD j 0)
    return ((List.range nCols).map fun j : ℕ =>
        (meanF (col j), FinML.Flt.mul (stdF (col j)) (.fin ((rows.length : ℝ) ^ (-(1 / 2 : ℝ))))),
      npMean (rows.map Prod.fst))

end FinML.CV
