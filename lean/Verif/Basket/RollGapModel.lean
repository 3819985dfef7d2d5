import Verif.Basket.Model

/-! # Rolled series with missing prices (basket.py:69-106); NaN is `none`. -/

namespace FinML.Basket

variable {K : Type} [Field K] [LinearOrder K] [IsStrictOrderedRing K] {C : Type} [DecidableEq C]

/-- Difference of two floats; basket.py:80, 83, 106. -/
def subM (a b : Option K) : Option K := a.bind fun x => b.map fun y => x - y

/-- The gap written at position `i`, basket.py:77-80: `close*0` is NaN at a missing close. -/
def rawGapM (bars : Frame (Option K)) (contracts : List C) (i : ℕ) : Py (Option K) :=
  if rollAt contracts i then do
    let o ← pyGet (bars .open) i
    let c ← pyGet (bars .close) (i - 1)
    return subM o c
  else do
    let c ← pyGet (bars .close) i
    return c.map fun _ => 0

/-- `Series.cumsum()` from a sum `s`, basket.py:81: a NaN stays in place and is skipped. -/
def cumsumSkip (s : K) : List (Option K) → List (Option K)
  | [] => []
  | none :: xs => none :: cumsumSkip s xs
  | some x :: xs => some (s + x) :: cumsumSkip (s + x) xs

/-- `gaps.iloc[-2]`; basket.py:83. -/
def secondLastM (l : List (Option K)) : Py (Option K) :=
  if l.length < 2 then .error .indexError else pyGet l (l.length - 2)

/-- `_compute_roll_gaps`, basket.py:69-84. -/
def computeRollGapsM (bars : Frame (Option K)) (contracts : List C) (matchEnd : Bool) : Py (List (Option K)) := do
  let raw ← (List.range (bars .close).length).mapM (rawGapM bars contracts)
  if matchEnd then
    let g ← secondLastM (cumsumSkip 0 raw)
    return (cumsumSkip 0 raw).map (subM · g)
  else return cumsumSkip 0 raw

/-- `res[col] -= gaps`, basket.py:105-106. -/
def subColM (gaps : List (Option K)) (res : Frame (Option K)) (col : Col) : Frame (Option K) :=
  fun c => if c = col then List.zipWith subM (res col) gaps else res c

/-- `adjust_rolled_series` without RET_PRICES, basket.py:87-106. -/
def adjustRolledSeriesM (bars : Frame (Option K)) (contracts : List C) (adjustColumns : List Col) (matchEnd : Bool) :
    Py (Frame (Option K)) := do
  let gaps ← computeRollGapsM bars contracts matchEnd
  return adjustColumns.foldl (subColM gaps) bars

end FinML.Basket
