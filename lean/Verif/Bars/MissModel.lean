import Verif.Bars.Model
import Mathlib.Order.WithBot

/-!
# Bars of ticks with missing values, and frequencies of zero (bars.py:9-99)

A missing value (NaN) is `none`.  Bar ids are whole numbers or, for `freq = 0`, infinities (`⊤`, `⊥`) and NaN.
-/

namespace FinML.Bars

variable {K : Type} [Field K] [LinearOrder K] [IsStrictOrderedRing K]

/-- One row of the tick frame, with NaN as `none`; constants.py:4-8. -/
structure MTick (K : Type) where
  time : ℤ
  price : Option K
  volume : Option K
  deriving DecidableEq, Repr

/-- One row of the bar frame, with NaN as `none`; constants.py:11-18. -/
structure MBar (K : Type) where
  time : ℤ
  op : Option K
  high : Option K
  low : Option K
  close : Option K
  volume : K
  vwap : Option K
  deriving DecidableEq, Repr

/-- `np.max` of a Series, which skips NaN; bars.py:30. -/
def skipMax (l : List (Option K)) : Option K :=
  match l.reduceOption with
  | [] => none
  | x :: xs => some (xs.foldl max x)

/-- `np.min` of a Series, which skips NaN; bars.py:31. -/
def skipMin (l : List (Option K)) : Option K :=
  match l.reduceOption with
  | [] => none
  | x :: xs => some (xs.foldl min x)

/-- `np.sum` of a Series, which skips NaN; bars.py:16, 33. -/
def skipSum (l : List (Option K)) : K := l.reduceOption.sum

/-- `p * v` of one tick; bars.py:16. -/
def MTick.dollars (t : MTick K) : Option K := t.price.bind fun p => t.volume.map fun v => p * v

/-- `_compute_vwap`, bars.py:9-17. -/
def vwapM (ticks : List (MTick K)) : Option K :=
  fdiv (skipSum (ticks.map MTick.dollars)) (skipSum (ticks.map MTick.volume))

/-- `_compute_bar_stats` with `timestamp='first'`, bars.py:20-40. -/
def barStatsM (ticks : List (MTick K)) : Py (MBar K) := do
  let first ← pyGet ticks 0
  let last ← pyLast ticks
  return { time := first.time, op := first.price, high := skipMax (ticks.map MTick.price),
           low := skipMin (ticks.map MTick.price), close := last.price,
           volume := skipSum (ticks.map MTick.volume), vwap := vwapM ticks }

/-- The rows with a bar id: `groupby` leaves out rows with key NaN; bars.py:44. -/
def keyed {ι : Type} (ids : List (Option ι)) (ticks : List (MTick K)) : List (ι × MTick K) :=
  (ids.zip ticks).filterMap fun p => p.1.map fun k => (k, p.2)

/-- `_group_ticks_to_bars`, bars.py:43-47. -/
def groupTicksM {ι : Type} [LinearOrder ι] (ids : List (Option ι)) (ticks : List (MTick K)) :
    Py (List (MBar K)) :=
  (groupBy ((keyed ids ticks).map Prod.fst) ((keyed ids ticks).map Prod.snd)).mapM fun g => barStatsM g.2

/-- `Series.cumsum()` from the sum `s` on: NaN stays NaN and is left out of the later sums; bars.py:82, 97. -/
def cumsumSkip (s : K) : List (Option K) → List (Option K)
  | [] => []
  | none :: xs => none :: cumsumSkip s xs
  | some x :: xs => some (s + x) :: cumsumSkip (s + x) xs

/-- A bar id that may be infinite; bars.py:70, 83, 98. -/
abbrev BarId := WithBot (WithTop ℤ)

/-- A whole number as a bar id; bars.py:70, 83, 98. -/
def barId (k : ℤ) : BarId := ((k : WithTop ℤ) : WithBot (WithTop ℤ))

variable [FloorRing K]

/-- `c // freq` in pandas, which gives an infinity or NaN for `freq = 0`; bars.py:70, 83, 98. -/
def floorDivM (c freq : K) : Option BarId :=
  if freq = 0 then (if 0 < c then some ⊤ else if c < 0 then some ⊥ else none)
  else some (barId ⌊c / freq⌋)

/-- `q.cumsum() // freq`; bars.py:82-83, 97-98. -/
def cumIdsM (freq : K) (q : List (Option K)) : List (Option BarId) :=
  (cumsumSkip 0 q).map fun c => c.bind fun c => floorDivM c freq

/-- `aggregate_tick_bars`, bars.py:63-71. -/
def aggregateTickBarsM (freq : K) (ticks : List (MTick K)) : Py (List (MBar K)) :=
  groupTicksM ((List.range ticks.length).map fun i : ℕ => floorDivM (i : K) freq) ticks

/-- `aggregate_volume_bars`, bars.py:74-87; the second component is the BAR_ID column returned with
`return_bar_id=True`. -/
def aggregateVolumeBarsM (freq : K) (ticks : List (MTick K)) : Py (List (MBar K) × List (Option BarId)) := do
  let ids := cumIdsM freq (ticks.map MTick.volume)
  let res ← groupTicksM ids ticks
  return (res, ids)

/-- `aggregate_dollar_bars`, bars.py:90-99. -/
def aggregateDollarBarsM (freq : K) (ticks : List (MTick K)) : Py (List (MBar K)) :=
  groupTicksM (cumIdsM freq (ticks.map MTick.dollars)) ticks

end FinML.Bars
