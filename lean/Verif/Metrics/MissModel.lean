import Verif.Metrics.Model

/-!
# Drawdowns and concentration of returns with missing values (metrics.py:71-116)

A missing value (NaN) is `none`.
-/

namespace FinML.Metrics

variable {K : Type} [Field K] [LinearOrder K] [IsStrictOrderedRing K]

/-- The larger of the maximum so far and the next value, NaN skipped; metrics.py:105. -/
def maxSkip : Option K → Option K → Option K
  | none, x => x
  | some a, none => some a
  | some a, some b => some (max a b)

/-- `returns.expanding().max()`, metrics.py:105: NaN until the first value. -/
def expandMax : Option K → List (Option K) → List (Option K)
  | _, [] => []
  | m, x :: xs => maxSkip m x :: expandMax (maxSkip m x) xs

/-- `drop_duplicates(keep='first').index`, metrics.py:108; NaN counts as one value. -/
def firstTimesM {α : Type} [DecidableEq α] : List α → List (ℤ × α) → List ℤ
  | _, [] => []
  | seen, (t, h) :: rest =>
    if h ∈ seen then firstTimesM seen rest else t :: firstTimesM (h :: seen) rest

/-- `df1`, metrics.py:104-109.  `groupby('hwm')` leaves out the rows without high-water mark, `drop_duplicates` does not;
an index of another length is a ValueError. -/
def hwmRowsM (s : Ser (Option K)) : Py (List (HwmRow K)) :=
  let hwm := expandMax none (s.map Prod.snd)
  let rows := (hwm.zip (s.map Prod.snd)).filterMap fun p => p.1.map fun h => (h, p.2)
  let groups := (groupBy (rows.map Prod.fst) (rows.map Prod.snd)).map fun g => (g.1, groupMin (g.2.filterMap id))
  let times := firstTimesM [] ((s.map Prod.fst).zip hwm)
  if times.length ≠ groups.length then .error .valueError
  else .ok ((times.zip groups).filterMap fun p =>
    p.2.2.bind fun low => if low < p.2.1 then some ⟨p.1, p.2.1, low⟩ else none)

/-- `compute_dd_and_tuw`, metrics.py:95-116. -/
def ddAndTuwM (s : Ser (Option K)) (dollars : Bool) : Py (List (ℤ × Option K) × Ser K) := do
  let rows ← hwmRowsM s
  let ts := rows.map HwmRow.time
  return (rows.map fun r =>
      (r.time, if dollars then some (r.hwm - r.low) else (fdiv r.low r.hwm).map fun q => 1 - q),
    ts.dropLast.zipWith (fun a b => (a, ((b - a : ℤ) : K) / (dayNs : K))) ts.tail)

/-- `compute_hhi_returns_concentration`, metrics.py:71-92: missing returns count in the length, and are in neither of the
two selections. -/
def hhiConcentrationM (rets : List (Option K)) : Option K × Option K :=
  if rets.length ≤ 2 then (none, none)
  else
    let pos := (rets.filterMap id).filter fun r => 0 ≤ r
    let neg := (rets.filterMap id).filter fun r => r < 0
    (if pos.length = 0 then none else hhi pos, if neg.length = 0 then none else hhi neg)

end FinML.Metrics
