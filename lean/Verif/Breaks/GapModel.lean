import Verif.Breaks.Model

/-! # The design of the ADF regression for prices with missing values (structural_breaks.py:68-88); NaN is `none`. -/

namespace FinML.Breaks

variable {K : Type} [Field K]

/-- Difference of two floats; structural_breaks.py:77. -/
def subM (a b : Option K) : Option K := a.bind fun x => b.map fun y => x - y

/-- `series.diff()` without its first row, structural_breaks.py:77. -/
def diffM (series : List (Option K)) : List (Option K) := List.zipWith (fun a b => subM b a) series series.tail

/-- `series.diff().dropna()`, structural_breaks.py:77. -/
def knownDiffs (series : List (Option K)) : List K := (diffM series).filterMap id

/-- `x.iloc[:, 0] = series.values[-x.shape[0]-1:-1, 0]`, structural_breaks.py:79: by position, from the end. -/
def setLevelsM (series : List (Option K)) (rows : List (List K)) : List (List (Option K)) :=
  List.zipWith (fun v r => v :: r.tail.map some)
    ((series.drop (series.length - (rows.length + 1))).take rows.length) rows

/-- `_get_yx` for a number of lags, structural_breaks.py:68-88. -/
def getYxIntM (series : List (Option K)) (constant : String) (lags : ℕ) : Py (List K × List (List (Option K))) :=
  let diff := knownDiffs series
  let rows := setLevelsM series (lagRows diff (List.range (lags + 1)))
  .ok (lastRows diff rows.length, rows.mapIdx fun j r => r ++ (deterministic constant j).map some)

end FinML.Breaks
