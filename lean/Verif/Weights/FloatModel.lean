import Verif.Weights.Model
import Verif.Py.Float

/-!
# Weights with infinities and NaN, weighting.py:112-165

`Verif/Weights/Model.lean` stops at a division by zero and at prices that are not positive, and has no missing
uniquenesses; here numbers are floats.
-/

namespace FinML.Weights

variable {K : Type} [Field K] [LinearOrder K]

/-- A missing value is NaN; weighting.py:85, 156. -/
def ofMissing : Option K → FinML.Flt K
  | some x => .fin x
  | none => .nan

/-- `Series.cumsum()` from a sum `s`, weighting.py:157: pandas leaves a NaN in place and goes on as if it were 0. -/
def cumsumFromF (s : FinML.Flt K) : List (FinML.Flt K) → List (FinML.Flt K)
  | [] => []
  | x :: xs => if x.isNan then .nan :: cumsumFromF s xs else FinML.Flt.add s x :: cumsumFromF (FinML.Flt.add s x) xs

/-- The slope, weighting.py:158-161. -/
def decaySlopeF (oldestWeight : K) (total : FinML.Flt K) : FinML.Flt K :=
  if 0 ≤ oldestWeight then FinML.Flt.div (.fin (1 - oldestWeight)) total
  else FinML.Flt.div (.fin 1) (FinML.Flt.mul (.fin (oldestWeight + 1)) total)

/-- `weights[weights < 0] = 0`, weighting.py:164. -/
def clipF : FinML.Flt K → FinML.Flt K
  | .fin x => if x < 0 then .fin 0 else .fin x
  | .negInf => .fin 0
  | .posInf => .posInf
  | .nan => .nan

/-- `apply_time_decay_to_weights`, weighting.py:144-165, in floats. -/
def applyTimeDecayF (avgUniqueness : Series (FinML.Flt K)) (oldestWeight : K) : Py (Series (FinML.Flt K)) := do
  let sorted := sortIndex avgUniqueness
  let cum := cumsumFromF (.fin 0) (sorted.map Prod.snd)
  let total ← pyLast cum
  let slope := decaySlopeF oldestWeight total
  let const := FinML.Flt.sub (.fin 1) (FinML.Flt.mul slope total)
  return (sorted.map Prod.fst).zip (cum.map fun c => clipF (FinML.Flt.add const (FinML.Flt.mul slope c)))

open Classical in
/-- `np.log`; weighting.py:119. -/
noncomputable def logF (x : ℝ) : FinML.Flt ℝ :=
  if 0 < x then .fin (Real.log x) else if x = 0 then .negInf else .nan

/-- `np.log(bars).diff()`, weighting.py:119; the first entry is NaN. -/
noncomputable def logReturnsF (prev : Option ℝ) : Series ℝ → Series (FinML.Flt ℝ)
  | [] => []
  | (t, x) :: bars =>
    (t, (prev.map fun p => FinML.Flt.sub (logF x) (logF p)).getD .nan) :: logReturnsF (some x) bars

/-- `Series.sum()`: skips NaN; weighting.py:123, 138. -/
noncomputable def skipSumF (l : List (FinML.Flt ℝ)) : FinML.Flt ℝ :=
  (l.filter fun x => !x.isNan).foldl FinML.Flt.add (.fin 0)

/-- One entry of `returns.loc[s:e] / events_counts.loc[s:e]`, weighting.py:122: NaN without a count. -/
noncomputable def attributedF (counts : Series ℕ) (e : ℤ × ℤ) (p : ℤ × FinML.Flt ℝ) : FinML.Flt ℝ :=
  match (slice counts e.1 e.2).find? fun q => q.1 = p.1 with
  | some c => FinML.Flt.div p.2 (.fin (c.2 : ℝ))
  | none => .nan

/-- `return_attributed.sum()`, weighting.py:122-123. -/
noncomputable def attributionF (rets : Series (FinML.Flt ℝ)) (counts : Series ℕ) (e : ℤ × ℤ) : FinML.Flt ℝ :=
  skipSumF ((slice rets e.1 e.2).map (attributedF counts e))

/-- `abs`; weighting.py:124. -/
noncomputable def absF : FinML.Flt ℝ → FinML.Flt ℝ
  | .fin x => .fin |x|
  | .posInf => .posInf
  | .negInf => .posInf
  | .nan => .nan

/-- `_get_return_attributions`, weighting.py:112-124, for given returns. -/
noncomputable def returnAttributionsF (events : List (ℤ × ℤ)) (counts : Series ℕ) (rets : Series (FinML.Flt ℝ)) :
    Series (FinML.Flt ℝ) :=
  let res := events.foldl (fun res e => setLabel res e.1 (attributionF rets counts e)) (events.map fun e => (e.1, .nan))
  res.map fun p => (p.1, absF p.2)

/-- `compute_weights_by_returns`, weighting.py:127-139, in floats. -/
noncomputable def computeWeightsByReturnsF (eventTimes : Series (Option ℤ)) (counts : Series ℕ) (bars : Series ℝ) :
    Py (Series (FinML.Flt ℝ)) := do
  let events ← closedEvents eventTimes
  let raw := returnAttributionsF events counts (logReturnsF none bars)
  return raw.map fun p =>
    (p.1, FinML.Flt.mul p.2 (FinML.Flt.div (.fin (raw.length : ℝ)) (skipSumF (raw.map Prod.snd))))

end FinML.Weights
