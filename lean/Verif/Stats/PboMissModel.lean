import Verif.Stats.PboFloatModel
import Verif.Stats.MissModel

/-! # compute_pbo for returns with missing values (backtest.py:12-56); a missing return is `none`. -/

namespace FinML.Stats

/-- `np.mean` of an array with NaN, metrics.py:127. -/
noncomputable def meanMiss (l : List (Option ℝ)) : Option ℝ := (npSum l).map fun s => s / (l.length : ℝ)

/-- `np.std` of an array with NaN: the root of the mean squared difference to the mean; metrics.py:127. -/
noncomputable def stdMiss (l : List (Option ℝ)) : Option ℝ :=
  (meanMiss l).bind fun m => (meanMiss (l.map fun o => o.map fun x => (x - m) ^ 2)).map fun v => √v

/-- `sharpe_ratio` of one column with NaN, metrics.py:127, as `sharpeF`. -/
noncomputable def sharpeMiss (l : List (Option ℝ)) : FinML.Flt ℝ :=
  match meanMiss l, stdMiss l with
  | some m, some s => FinML.Flt.div (.fin m) (.fin s)
  | _, _ => .nan

/-- The default `eval_fn` for `n` strategies; backtest.py:12, 39 and 43. -/
noncomputable def evalSharpeMiss (n : ℕ) (rows : List (List (Option ℝ))) : Py (List (FinML.Flt ℝ)) :=
  .ok ((List.range n).map fun j : ℕ => sharpeMiss (rows.map fun r => r.getD j (some 0)))

/-- One iteration of the loop, backtest.py:31-51, as `pboOneF`. -/
noncomputable def pboOneMiss (eval : List (List (Option ℝ)) → Py (List (FinML.Flt ℝ)))
    (argsort : List (FinML.Flt ℝ) → List ℕ) (M : List (List (Option ℝ))) (size : ℕ) (partitions : List ℕ) :
    Py PboRowF := do
  let train := CV.pboTrain size partitions
  let test := CV.pboTest M.length train
  let trainSet ← train.mapM (pyGet M)
  let testSet ← test.mapM (pyGet M)
  let trainPerf ← eval trainSet
  let best ← npArgmaxF trainPerf
  let trainBest ← pyGet trainPerf best
  let testPerf ← eval testSet
  let assoc ← pyGet testPerf best
  return ⟨CV.rankLogit ((CV.rankIn (argsort testPerf) best : ℝ) / (testPerf.length : ℝ)), trainBest, assoc⟩

end FinML.Stats
