import Verif.Py.Basic
import Mathlib.Algebra.Order.Field.Basic

/-! # Model of `financial_ml/features/frac_diff.py`

A column of a frame is a list of values in index order, `none` for NaN (infinite values are not
modelled).  Labels are integers and the index has no duplicates. -/

namespace FinML.FracDiff

variable {K : Type} [Field K] [LinearOrder K]

/-- `-weights[-1] * (order - k + 1) / k`, frac_diff.py:16 and :62. -/
def nextW (d : K) (ws : List K) (k : ℕ) : K := -(ws.getLastD 0) * (d - k + 1) / k

/-- `_get_weights`, frac_diff.py:8-19 (the column vector as a list, oldest first). -/
def getWeights (d : K) (size : ℕ) : List K :=
  ((List.range' 1 (size - 1)).foldl (fun ws k => ws ++ [nextW d ws k]) [1]).reverse

/-- The loop of `_get_weights_fixed`, frac_diff.py:61-66; the first argument counts the rounds left
until `k = max_width`. -/
def fixedLoop (d thr : K) : ℕ → ℕ → List K → List K
  | 0, _, ws => ws
  | fuel + 1, k, ws =>
    if |nextW d ws k| < thr then ws else fixedLoop d thr fuel (k + 1) (ws ++ [nextW d ws k])

/-- `_get_weights_fixed`, frac_diff.py:53-68. -/
def getWeightsFixed (d thr : K) (maxWidth : ℕ) : List K :=
  (fixedLoop d thr (maxWidth - 1) 1 [1]).reverse

/-- `weight_losses`, frac_diff.py:34-35. -/
def weightLosses (w : List K) : List K :=
  let c := cumsum (w.map fun x => |x|)
  c.map fun x => x / c.getLastD 1

/-- `num_skips`, frac_diff.py:36. -/
def numSkips (w : List K) (thr : K) : ℕ := (weightLosses w).dropLast.countP fun x => thr < x

/-- A data frame: index and named columns; frac_diff.py:22-26. -/
structure Frame (K : Type) where
  index : List ℤ
  cols : List (String × List (Option K))
deriving DecidableEq

/-- `fillna(method='ffill')` with `last` the last value seen; frac_diff.py:40, 85. -/
def ffillFrom (last : Option K) : List (ℤ × Option K) → List (ℤ × Option K)
  | [] => []
  | (t, none) :: r => (t, last) :: ffillFrom last r
  | (t, some v) :: r => (t, some v) :: ffillFrom (some v) r

/-- A labelled value, if present; frac_diff.py:40, 85. -/
def presentRow (p : ℤ × Option K) : Option (ℤ × K) := p.2.map fun v => (p.1, v)

/-- `series[[col]].fillna(method='ffill').dropna()`, frac_diff.py:40 and :85. -/
def fillDrop (col : List (ℤ × Option K)) : List (ℤ × K) := (ffillFrom none col).filterMap presentRow

/-- `np.dot` of a row and a column vector; frac_diff.py:46, 92. -/
def dotPy (a b : List K) : Py K :=
  if a.length = b.length then .ok (List.zipWith (· * ·) a b).sum else .error .valueError

/-- `weights[-n:]` for positive `n`; frac_diff.py:46. -/
def lastN (n : ℕ) (w : List K) : List K := w.drop (w.length - n)

/-- One value of `frac_diff_expanding`, frac_diff.py:43-46.  The test of line 44 looks at the filled
column, so it never fails. -/
def expandRow (w : List K) (cs : List (ℤ × K)) (iloc : ℕ) : Py (ℤ × K) := do
  let p ← pyGet cs iloc
  let v ← dotPy (lastN (iloc + 1) w) ((cs.filter fun q => q.1 ≤ p.1).map Prod.snd)
  pure (p.1, v)

/-- One column of `frac_diff_expanding`, frac_diff.py:40-47. -/
def expandCol (w : List K) (skips : ℕ) (col : List (ℤ × Option K)) : Py (List (ℤ × K)) :=
  (List.range' skips ((fillDrop col).length - skips)).mapM (expandRow w (fillDrop col))

/-- The value labelled `t`; frac_diff.py:49. -/
def lookupT (r : List (ℤ × K)) (t : ℤ) : Option K := (r.find? fun p => p.1 = t).map Prod.snd

/-- `pd.concat(res, axis=1)`, frac_diff.py:49 and :95: the labels that occur in some column, in the
order of the original index. -/
def concatCols (index : List ℤ) (res : List (String × List (ℤ × K))) : Py (Frame K) :=
  if res = [] then .error .valueError
  else
    let idx := index.filter fun t => res.any fun r => r.2.any fun p => p.1 = t
    .ok ⟨idx, res.map fun r => (r.1, idx.map (lookupT r.2))⟩

/-- `frac_diff_expanding`, frac_diff.py:22-50. -/
def fracDiffExpanding (fr : Frame K) (d thr : K) : Py (Frame K) :=
  if 0 ≤ thr ∧ thr ≤ 1 then do
    let w := getWeights d fr.index.length
    let res ← fr.cols.mapM fun c => do
      let r ← expandCol w (numSkips w thr) (fr.index.zip c.2)
      pure (c.1, r)
    concatCols fr.index res
  else .error .assertionError

/-- `np.isfinite(series.loc[label, col])`; frac_diff.py:44, 90. -/
def isPresent (col : List (ℤ × Option K)) (t : ℤ) : Bool := col.any fun p => p.1 = t ∧ p.2.isSome

/-- One value of `frac_diff_fixed`, frac_diff.py:88-92. -/
def fixedRow (w : List K) (col : List (ℤ × Option K)) (cs : List (ℤ × K)) (iloc : ℕ) :
    Py (Option (ℤ × K)) := do
  let s ← pyGet cs (iloc - (w.length - 1))
  let e ← pyGet cs iloc
  if isPresent col e.1 then do
    let v ← dotPy w ((cs.filter fun q => s.1 ≤ q.1 ∧ q.1 ≤ e.1).map Prod.snd)
    pure (some (e.1, v))
  else pure none

/-- One column of `frac_diff_fixed`, frac_diff.py:85-93. -/
def fixedCol (w : List K) (col : List (ℤ × Option K)) : Py (List (ℤ × K)) := do
  let r ← (List.range' (w.length - 1) ((fillDrop col).length - (w.length - 1))).mapM
    (fixedRow w col (fillDrop col))
  pure (r.filterMap fun x => x)

/-- `frac_diff_fixed`, frac_diff.py:71-96. -/
def fracDiffFixed (fr : Frame K) (d thr : K) : Py (Frame K) := do
  let w := getWeightsFixed d thr fr.index.length
  let res ← fr.cols.mapM fun c => do
    let r ← fixedCol w (fr.index.zip c.2)
    pure (c.1, r)
  concatCols fr.index res

end FinML.FracDiff
