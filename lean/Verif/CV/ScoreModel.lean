import Verif.CV.CombiModel
import Mathlib.Analysis.SpecialFunctions.Log.Basic
import Mathlib.Analysis.SpecialFunctions.Pow.Real

/-!
# Model of compute_pbo (evaluation/backtest.py), timeseries_cv_score
(evaluation/cross_validation.py) and explain/feature_importance.py

Estimators, metrics, the kernel density estimate, `argsort` and the random shuffles are parameters.
A splitter is modelled by the list of splits it yields.
-/

namespace FinML.CV

/-! ## compute_pbo -/

/-- `train_indices`, backtest.py:32-34. -/
def pboTrain (size : ℕ) (partitions : List ℕ) : List ℕ :=
  partitions.flatMap fun p => List.range' (p * size) ((p + 1) * size - p * size)

/-- `test_indices`, backtest.py:35. -/
def pboTest (n : ℕ) (train : List ℕ) : List ℕ := (List.range n).filter fun i => decide (i ∉ train)

/-- The last position at which `i` occurs in `order` (0 if it does not), backtest.py:45-48. -/
def rankIn (order : List ℕ) (i : ℕ) : ℕ :=
  order.zipIdx.foldl (fun acc p => if p.1 = i then p.2 else acc) 0

open Classical in
/-- `np.log(test_rank/(1 - test_rank) + 1e-3)`, backtest.py:50; `none` when not finite. -/
noncomputable def rankLogit (r : ℝ) : Option ℝ :=
  if 1 - r = 0 ∨ r / (1 - r) + 1 / 1000 ≤ 0 then none else some (Real.log (r / (1 - r) + 1 / 1000))

open Classical in
/-- `np.argmax`: the first position of the maximum; backtest.py:40. -/
noncomputable def argmaxFrom : ℕ → ℝ → ℕ → List ℝ → ℕ
  | best, _, _, [] => best
  | best, v, i, x :: xs => if v < x then argmaxFrom i x (i + 1) xs else argmaxFrom best v (i + 1) xs

/-- `np.argmax` on an array; raises ValueError on an empty one; backtest.py:40. -/
noncomputable def npArgmax : List ℝ → Py ℕ
  | [] => .error .valueError
  | x :: xs => .ok (argmaxFrom 0 x 1 xs)

/-- What one choice of partitions contributes; backtest.py:41-51. -/
structure PboRow where
  logit : Option ℝ
  trainBest : ℝ
  testAssoc : ℝ

/-- One iteration of the loop, backtest.py:31-51. -/
noncomputable def pboOne (eval : List (List ℝ) → Py (List ℝ)) (argsort : List ℝ → List ℕ)
    (M : List (List ℝ)) (size : ℕ) (partitions : List ℕ) : Py PboRow := do
  let train := pboTrain size partitions
  let test := pboTest M.length train
  let trainSet ← train.mapM (pyGet M)
  let testSet ← test.mapM (pyGet M)
  let trainPerf ← eval trainSet
  let best ← npArgmax trainPerf
  let trainBest ← pyGet trainPerf best
  let testPerf ← eval testSet
  let assoc ← pyGet testPerf best
  return ⟨rankLogit ((rankIn (argsort testPerf) best : ℝ) / (testPerf.length : ℝ)), trainBest, assoc⟩

/-- `compute_pbo`, backtest.py:12-56, without the final `kde` value: the rows of the three lists it
returns.  An odd number of partitions fails the assertion, 0 divides by zero, a negative one makes
`combinations` raise. -/
noncomputable def computePbo (eval : List (List ℝ) → Py (List ℝ)) (argsort : List ℝ → List ℕ)
    (M : List (List ℝ)) (nPartitions : ℤ) : Py (List PboRow) :=
  if nPartitions % 2 ≠ 0 then .error .assertionError
  else if nPartitions = 0 then .error .zeroDivision
  else if nPartitions < 0 then .error .valueError
  else
    (combinations (nPartitions.toNat / 2) (List.range nPartitions.toNat)).mapM
      (pboOne eval argsort M (M.length / nPartitions.toNat))

/-! ## timeseries_cv_score -/

/-- The estimator interface and the two metrics.  `fit` returns the fitted estimator, which is the
estimator itself (scikit-learn); its classes are read after fitting; cross_validation.py:154-161. -/
structure Lib (C ρ L P : Type) where
  fit : C → List ρ → List L → List ℝ → Py C
  proba : C → List ρ → Py P
  predict : C → List ρ → Py (List L)
  classes : C → Py (List L)
  logLoss : List L → P → List ℝ → List L → Py ℝ
  accuracy : List L → List L → List ℝ → Py ℝ

variable {C ρ L P : Type}

/-- Scoring of a fitted estimator, cross_validation.py:156-161 and feature_importance.py:69-74. -/
def scoreOf (lib : Lib C ρ L P) (scoring : String) (m : C) (Xt : List ρ) (yt : List L)
    (wt : List ℝ) : Py ℝ :=
  if scoring = "neg_log_loss" then do
    let p ← lib.proba m Xt
    let cl ← lib.classes m
    let v ← lib.logLoss yt p wt cl
    return -v
  else do
    let p ← lib.predict m Xt
    lib.accuracy yt p wt

/-- One fold, cross_validation.py:146-163: the estimator after the fit, and the score. -/
def cvOne (lib : Lib C ρ L P) (scoring : String) (X : List ρ) (y : List L) (w : List ℝ) (clf : C)
    (split : List ℕ × List ℕ) : Py (C × ℝ) := do
  let Xtr ← split.1.mapM (pyGet X)
  let ytr ← split.1.mapM (pyGet y)
  let wtr ← split.1.mapM (pyGet w)
  let Xte ← split.2.mapM (pyGet X)
  let yte ← split.2.mapM (pyGet y)
  let wte ← split.2.mapM (pyGet w)
  let m ← lib.fit clf Xtr ytr wtr
  let s ← scoreOf lib scoring m Xte yte wte
  return (m, s)

/-- The loop over folds; the estimator is fitted again and again; cross_validation.py:146-163. -/
def cvLoop (lib : Lib C ρ L P) (scoring : String) (X : List ρ) (y : List L) (w : List ℝ) :
    C → List (List ℕ × List ℕ) → Py (List ℝ)
  | _, [] => .ok []
  | clf, s :: ss => do
    let r ← cvOne lib scoring X y w clf s
    let rest ← cvLoop lib scoring X y w r.1 ss
    return r.2 :: rest

/-- The splitter argument: None with the arguments for a `PurgedKFold`, or an object;
cross_validation.py:142-146. -/
inductive Splitter (K : Type)
  | default (cv : Option ℤ) (pct : Option K)
  | custom (split : SplitArg → Py (List (List ℕ × List ℕ)))

/-- `cv_splitter.split(event_times)`, cross_validation.py:142-146.  A missing number of splits or
embargo raises TypeError, after the checks of the argument. -/
def Splitter.run {K : Type} [Field K] [LinearOrder K] [FloorRing K] (arg : SplitArg) :
    Splitter K → Py (List (List ℕ × List ℕ))
  | .custom split => split arg
  | .default (some cv) (some pct) => kfoldSplit cv pct arg
  | .default _ _ =>
    match arg with
    | .series true _ => .error .typeError
    | _ => .error .valueError

/-- `timeseries_cv_score`, cross_validation.py:121-165. -/
def cvScore {K : Type} [Field K] [LinearOrder K] [FloorRing K] (lib : Lib C ρ L P) (clf : C)
    (X : List ρ) (y : List L) (w : List ℝ) (scoring : String) (events : SplitArg)
    (splitter : Splitter K) : Py (List ℝ) :=
  if scoring ≠ "neg_log_loss" ∧ scoring ≠ "accuracy" then .error .notImplemented
  else do
    let splits ← splitter.run events
    cvLoop lib scoring X y w clf splits

/-! ## Feature importance -/

/-- Mean of an array; NaN (`none`) if it is empty; feature_importance.py:27, 92, 95, 115. -/
noncomputable def npMean (l : List ℝ) : Option ℝ :=
  if l = [] then none else some (l.sum / (l.length : ℝ))

/-- `scores.std()` (population) times `n ** -0.5`; NaN if empty; feature_importance.py:116. -/
noncomputable def stdErr0 (l : List ℝ) : Option ℝ :=
  if l = [] then none
  else some (Real.sqrt ((l.map fun x => (x - l.sum / (l.length : ℝ)) ^ 2).sum / (l.length : ℝ)) *
    (l.length : ℝ) ^ (-(1 / 2 : ℝ)))

/-- One row of the SFI table; feature_importance.py:110, 115-116. -/
structure SfiRow (F : Type) where
  feature : F
  mean : Option ℝ
  std : Option ℝ

/-- One feature, feature_importance.py:112-116: `X[[feature]]` raises KeyError for an unknown one.
The scores are computed without event times. -/
noncomputable def sfiOne {F : Type} {K : Type} [Field K] [LinearOrder K] [FloorRing K]
    (lib : Lib C ℝ L P) (clf : C)
    (X : F → Option (List ℝ)) (y : List L) (w : List ℝ) (scoring : String) (splitter : Splitter K)
    (f : F) : Py (SfiRow F) := do
  let col ← (X f).elim (.error .keyError) .ok
  let scores ← cvScore lib clf col y w scoring .notSeries splitter
  return ⟨f, npMean scores, stdErr0 scores⟩

/-- `get_single_feature_importance`, feature_importance.py:98-117, for distinct features.  The
estimator is refitted from feature to feature; its state is not carried over (see `Refits`). -/
noncomputable def sfi {F : Type} {K : Type} [Field K] [LinearOrder K] [FloorRing K]
    (lib : Lib C ℝ L P) (clf : C)
    (X : F → Option (List ℝ)) (y : List L) (w : List ℝ) (scoring : String) (splitter : Splitter K)
    (features : List F) : Py (List (SfiRow F)) :=
  features.mapM (sfiOne lib clf X y w scoring splitter)

open Classical in
/-- `replace(0, np.nan)` and dropping of NaN by the column statistics, feature_importance.py:25-29. -/
noncomputable def present (col : List ℝ) : List ℝ := col.filter fun v => v ≠ 0

/-- `std()` (sample) over the values present; NaN for fewer than two; feature_importance.py:28, 93. -/
noncomputable def stdSample (l : List ℝ) : Option ℝ :=
  if l.length < 2 then none
  else some (Real.sqrt ((l.map fun x => (x - l.sum / (l.length : ℝ)) ^ 2).sum / ((l.length : ℝ) - 1)))

/-- Column `j` of the table of tree importances; feature_importance.py:22-25. -/
noncomputable def treeColumn (trees : List (List ℝ)) (j : ℕ) : List ℝ := trees.map fun t => t.getD j 0

open Classical in
/-- Division of a possibly missing value by the total; feature_importance.py:30. -/
noncomputable def scaled (total : ℝ) (v : Option ℝ) : Option ℝ := v.bind fun x => fdiv x total

/-- `get_mean_decrease_impurity`, feature_importance.py:9-31: the mean and std column.  A number of
names other than the number of columns raises ValueError. -/
noncomputable def mdi (trees : List (List ℝ)) (nNames : ℕ) : Py (List (Option ℝ × Option ℝ)) :=
  if (trees = [] ∧ nNames ≠ 0) ∨ ∃ t ∈ trees, t.length ≠ nNames then .error .valueError
  else
    let means := (List.range nNames).map fun j : ℕ => npMean (present (treeColumn trees j))
    let stds := (List.range nNames).map fun j : ℕ =>
      (stdSample (present (treeColumn trees j))).map (· * (trees.length : ℝ) ^ (-(1 / 2 : ℝ)))
    let total := (means.filterMap id).sum
    .ok ((means.map (scaled total)).zip (stds.map (scaled total)))

/-- `X_test_perm`: column `j` replaced by its shuffled values, feature_importance.py:77-78. -/
def permuteColumn (shuffle : List ℝ → List ℝ) (X : List (List ℝ)) (j : ℕ) : List (List ℝ) :=
  List.zipWith (fun row v => row.set j v) X (shuffle (X.map fun row => row.getD j 0))

/-- One fold, feature_importance.py:60-84: estimator, score, and score per permuted column. -/
def mdaOne (lib : Lib C (List ℝ) L P) (scoring : String) (nCols : ℕ)
    (shuffle : ℕ → List ℝ → List ℝ) (X : List (List ℝ)) (y : List L) (w : List ℝ) (clf : C)
    (split : List ℕ × List ℕ) : Py (C × ℝ × List ℝ) := do
  let Xtr ← split.1.mapM (pyGet X)
  let ytr ← split.1.mapM (pyGet y)
  let wtr ← split.1.mapM (pyGet w)
  let Xte ← split.2.mapM (pyGet X)
  let yte ← split.2.mapM (pyGet y)
  let wte ← split.2.mapM (pyGet w)
  let m ← lib.fit clf Xtr ytr wtr
  let s ← scoreOf lib scoring m Xte yte wte
  let perms ← (List.range nCols).mapM fun j : ℕ =>
    scoreOf lib scoring m (permuteColumn (shuffle j) Xte j) yte wte
  return (m, s, perms)

/-- The loop over folds, feature_importance.py:59-84; `shuffle fold column`. -/
def mdaLoop (lib : Lib C (List ℝ) L P) (scoring : String) (nCols : ℕ)
    (shuffle : ℕ → ℕ → List ℝ → List ℝ) (X : List (List ℝ)) (y : List L) (w : List ℝ) :
    ℕ → C → List (List ℕ × List ℕ) → Py (List (ℝ × List ℝ))
  | _, _, [] => .ok []
  | fold, clf, s :: ss => do
    let r ← mdaOne lib scoring nCols (shuffle fold) X y w clf s
    let rest ← mdaLoop lib scoring nCols shuffle X y w (fold + 1) r.1 ss
    return r.2 :: rest

open Classical in
/-- `(score - perm_score) / (best - perm_score)`, feature_importance.py:86-90; missing when the
divisor is 0.  A zero divisor under another numerator, infinite in the code, is in `Verif/CV/MdaFloatModel.lean`. -/
noncomputable def mdaImportance (scoring : String) (score perm : ℝ) : Option ℝ :=
  if scoring = "neg_log_loss" then fdiv (-perm + score) (-perm) else fdiv (-perm + score) (1 - perm)

/-- `get_mean_decrease_accuracy`, feature_importance.py:34-95: (mean, std) per column and the mean
score. -/
noncomputable def mda {K : Type} [Field K] [LinearOrder K] [FloorRing K]
    (lib : Lib C (List ℝ) L P) (clf : C) (nCols : ℕ) (shuffle : ℕ → ℕ → List ℝ → List ℝ)
    (X : List (List ℝ)) (y : List L) (w : List ℝ) (cv : ℤ) (pct : K) (events : SplitArg)
    (scoring : String) : Py (List (Option ℝ × Option ℝ) × Option ℝ) :=
  if scoring ≠ "neg_log_loss" ∧ scoring ≠ "accuracy" then .error .notImplemented
  else do
    let splits ← kfoldSplit cv pct events
    let rows ← mdaLoop lib scoring nCols shuffle X y w 0 clf splits
    let col := fun j : ℕ => rows.filterMap fun r => mdaImportance scoring r.1 (r.2.getD j 0)
    return ((List.range nCols).map fun j : ℕ =>
        (npMean (col j), (stdSample (col j)).map (· * (rows.length : ℝ) ^ (-(1 / 2 : ℝ)))),
      npMean (rows.map Prod.fst))

end FinML.CV
