import Verif.Py.Float
import Verif.Stats.Model
import Verif.Metrics.SharpeModel

/-!
# compute_pbo with performances that may be infinite or NaN

A strategy whose returns do not vary has an infinite Sharpe ratio, one that does not trade has NaN.  The numbers
are exact otherwise.
-/

namespace FinML.Stats

open FinML.Metrics

/-- `sharpe_ratio` of one column, metrics.py:127, as a float; also NaN without rows. -/
noncomputable def sharpeF (l : List ℝ) : FinML.Flt ℝ := FinML.Flt.div (.fin (npAvg l)) (.fin (npStd l))

/-- The default `eval_fn`: `sharpe_ratio(rows, axis=0)` for `n` strategies; backtest.py:12, 39 and 43. -/
noncomputable def evalSharpeF (n : ℕ) (rows : List (List ℝ)) : Py (List (FinML.Flt ℝ)) :=
  .ok ((List.range n).map fun j : ℕ => sharpeF (rows.map fun r => r.getD j 0))

/-- `<=` of floats: false if one is NaN; backtest.py:40. -/
def leF : FinML.Flt ℝ → FinML.Flt ℝ → Prop
  | .nan, _ => False
  | _, .nan => False
  | .negInf, _ => True
  | _, .posInf => True
  | .fin x, .fin y => x ≤ y
  | _, _ => False

open Classical in
/-- The loop of `np.argmax`: an entry that is not `<=` the best one so far replaces it, and NaN ends the
search; backtest.py:40. -/
noncomputable def argmaxFromF : ℕ → FinML.Flt ℝ → ℕ → List (FinML.Flt ℝ) → ℕ
  | best, _, _, [] => best
  | best, v, i, x :: xs =>
    if leF x v then argmaxFromF best v (i + 1) xs
    else if x.isNan then i
    else argmaxFromF i x (i + 1) xs

/-- `np.argmax` on an array; raises ValueError on an empty one; backtest.py:40. -/
noncomputable def npArgmaxF : List (FinML.Flt ℝ) → Py ℕ
  | [] => .error .valueError
  | x :: xs => .ok (if x.isNan then 0 else argmaxFromF 0 x 1 xs)

/-- What one choice of partitions contributes; backtest.py:41-51. -/
structure PboRowF where
  logit : Option ℝ
  trainBest : FinML.Flt ℝ
  testAssoc : FinML.Flt ℝ

/-- One iteration of the loop, backtest.py:31-51. -/
noncomputable def pboOneF (eval : List (List ℝ) → Py (List (FinML.Flt ℝ))) (argsort : List (FinML.Flt ℝ) → List ℕ)
    (M : List (List ℝ)) (size : ℕ) (partitions : List ℕ) : Py PboRowF := do
  let train := CV.pboTrain size partitions
  let test := CV.pboTest M.length train
  let trainSet ← train.mapM (pyGet M)
  let testSet ← test.mapM (pyGet M)
  let trainPerf ← eval trainSet
  let best ← npArgmaxF trainPerf
  let trainBest ← pyGet trainPerf best
  let testPerf ← eval testSet
  let assoc ← pyGet testPerf best
  return ⟨CV.rankLogit ((CV.rankIn (argsort testPerf) best : ℝ) / (testPerf.length : ℝ)), trainBest, assoc⟩

/-- `compute_pbo`, backtest.py:12-56, without the first result; refusals as in `CV.computePbo`. -/
noncomputable def computePboF (eval : List (List ℝ) → Py (List (FinML.Flt ℝ)))
    (argsort : List (FinML.Flt ℝ) → List ℕ) (M : List (List ℝ)) (nPartitions : ℤ) : Py (List PboRowF) :=
  if nPartitions % 2 ≠ 0 then .error .assertionError
  else if nPartitions = 0 then .error .zeroDivision
  else if nPartitions < 0 then .error .valueError
  else
    (CV.combinations (nPartitions.toNat / 2) (List.range nPartitions.toNat)).mapM
      (pboOneF eval argsort M (M.length / nPartitions.toNat))

/-- `compute_pbo` with its first result, backtest.py:12-56. -/
noncomputable def pboProbabilityF (eval : List (List ℝ) → Py (List (FinML.Flt ℝ)))
    (argsort : List (FinML.Flt ℝ) → List ℕ) (M : List (List ℝ)) (nPartitions : ℤ) : Py (ℝ × List PboRowF) := do
  let rows ← computePboF eval argsort M nPartitions
  let logits ← rows.mapM fun r => finiteLogit r.logit
  let kde ← gaussianKde logits
  return (kde.cdf none 0, rows)

end FinML.Stats
