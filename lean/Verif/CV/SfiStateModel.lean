import Verif.CV.ScoreModel

/-!
# Single feature importance with the state of the estimator, explain/feature_importance.py

`clf.fit` changes the estimator, which the next fold and the next feature use again.
-/

namespace FinML.CV

variable {C ρ L P : Type}

/-- The loop over folds with the estimator as the last fold leaves it; cross_validation.py:146-163. -/
def cvLoopS (lib : Lib C ρ L P) (scoring : String) (X : List ρ) (y : List L) (w : List ℝ) :
    C → List (List ℕ × List ℕ) → Py (C × List ℝ)
  | clf, [] => .ok (clf, [])
  | clf, s :: ss => do
    let r ← cvOne lib scoring X y w clf s
    let rest ← cvLoopS lib scoring X y w r.1 ss
    return (rest.1, r.2 :: rest.2)

/-- `timeseries_cv_score` with the estimator it leaves, cross_validation.py:121-165. -/
def cvScoreS {K : Type} [Field K] [LinearOrder K] [FloorRing K] (lib : Lib C ρ L P) (clf : C)
    (X : List ρ) (y : List L) (w : List ℝ) (scoring : String) (events : SplitArg)
    (splitter : Splitter K) : Py (C × List ℝ) :=
  if scoring ≠ "neg_log_loss" ∧ scoring ≠ "accuracy" then .error .notImplemented
  else do
    let splits ← splitter.run events
    cvLoopS lib scoring X y w clf splits

/-- `importances.loc[feature, …] = …`: overwrites the row of the feature, or appends one;
feature_importance.py:115-116. -/
def setRow {F : Type} [DecidableEq F] (T : List (SfiRow F)) (row : SfiRow F) : List (SfiRow F) :=
  if row.feature ∈ T.map SfiRow.feature then T.map fun r => if r.feature = row.feature then row else r
  else T ++ [row]

/-- The loop over the features, feature_importance.py:111-116. -/
noncomputable def sfiLoopS {F : Type} [DecidableEq F] {K : Type} [Field K] [LinearOrder K] [FloorRing K]
    (lib : Lib C ℝ L P) (X : F → Option (List ℝ)) (y : List L) (w : List ℝ) (scoring : String)
    (splitter : Splitter K) : C → List (SfiRow F) → List F → Py (List (SfiRow F))
  | _, T, [] => .ok T
  | clf, T, f :: fs => do
    let col ← (X f).elim (.error .keyError) .ok
    let r ← cvScoreS lib clf col y w scoring .notSeries splitter
    sfiLoopS lib X y w scoring splitter r.1 (setRow T ⟨f, npMean r.2, stdErr0 r.2⟩) fs

/-- `get_single_feature_importance`, feature_importance.py:98-117, for any estimator and any list of features. -/
noncomputable def sfiS {F : Type} [DecidableEq F] {K : Type} [Field K] [LinearOrder K] [FloorRing K]
    (lib : Lib C ℝ L P) (clf : C) (X : F → Option (List ℝ)) (y : List L) (w : List ℝ) (scoring : String)
    (splitter : Splitter K) (features : List F) : Py (List (SfiRow F)) :=
  sfiLoopS lib X y w scoring splitter clf [] features

end FinML.CV
