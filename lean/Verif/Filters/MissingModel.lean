import Verif.Filters.Model

/-!
# Model of `filter_symmetric_cusum` on series with missing values

filters.py:6-26; a missing value (NaN) is `none`.
-/

namespace FinML.Filters

variable {K : Type} [Field K] [LinearOrder K]

/-- `b - a`, missing if one of them is; filters.py:15. -/
def subO (b a : Option K) : Option K := b.bind fun y => a.map fun x => y - x

/-- `series.diff()` (filters.py:15). -/
def diffsO : List (Option K) → List (Option K)
  | [] => []
  | x :: xs => none :: List.zipWith subO xs (x :: xs)

/-- `diff.loc[t]` (filters.py:17); several values for the label make `max` raise ValueError. -/
def locDiffO (index : List ℤ) (d : List (Option K)) (t : ℤ) : Py (Option K) :=
  match ((index.zip d).filter fun p => p.1 = t).map Prod.snd with
  | [v] => .ok v
  | _ => .error .valueError

/-- `max(0, x)` in Python: NaN does not compare greater, so 0 is kept (filters.py:18). -/
def pyMax0 (x : Option K) : K := x.elim 0 fun v => max 0 v

/-- `min(0, x)` in Python (filters.py:19). -/
def pyMin0 (x : Option K) : K := x.elim 0 fun v => min 0 v

/-- One step of the loop, filters.py:17-25. -/
def cusumStepO (threshold : K) (s : Cusum K) (t : ℤ) (d : Option K) : Cusum K :=
  let pos := pyMax0 (d.map fun v => s.pos + v)
  let neg := pyMin0 (d.map fun v => s.neg + v)
  if neg < -threshold then ⟨pos, 0, s.events ++ [t]⟩
  else if pos > threshold then ⟨0, neg, s.events ++ [t]⟩
  else ⟨pos, neg, s.events⟩

/-- The loop, filters.py:16-25. -/
def cusumLoopO (index : List ℤ) (d : List (Option K)) (threshold : K) :
    List ℤ → Cusum K → Py (Cusum K)
  | [], s => .ok s
  | t :: ts, s => do
    let v ← locDiffO index d t
    cusumLoopO index d threshold ts (cusumStepO threshold s t v)

/-- `filter_symmetric_cusum`, filters.py:6-26. -/
def filterCusumO (index : List ℤ) (series : List (Option K)) (threshold : K) : Py (List ℤ) := do
  let s ← cusumLoopO index (diffsO series) threshold index.tail ⟨0, 0, []⟩
  pure s.events

end FinML.Filters
