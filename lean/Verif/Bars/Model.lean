import Verif.Py.Basic
import Mathlib.Algebra.Order.Floor.Ring

/-!
# Model of `financial_ml/data_structures/bars.py`

and of the two helpers it uses, `tick_rule` (`features/microstructure.py`) and `fast_ewma`
(`utils/time_series.py`).  Numbers live in a linearly ordered field `K`; rounding is not modelled.
-/

namespace FinML.Bars

variable {K : Type} [Field K] [LinearOrder K] [IsStrictOrderedRing K]

/-- One row of the tick frame (`TickCol`, constants.py:4-8). -/
structure Tick (K : Type) where
  time : ℤ
  price : K
  volume : K
  deriving DecidableEq, Repr

/-- One row of the bar frame (`BarCol`, constants.py:11-18).  `time` is the index entry.  `vwap` is
`none` when the float division is not finite. -/
structure Bar (K : Type) where
  time : ℤ
  op : K
  high : K
  low : K
  close : K
  volume : K
  vwap : Option K
  deriving DecidableEq, Repr

/-- `_compute_vwap`, bars.py:9-17. -/
def computeVwap (ticks : List (Tick K)) : Option K :=
  fdiv (ticks.map fun t => t.price * t.volume).sum (ticks.map Tick.volume).sum

/-- `_compute_bar_stats` with `timestamp='first'`, bars.py:20-40.  `iloc[0]` of an empty group
raises IndexError. -/
def computeBarStats (ticks : List (Tick K)) : Py (Bar K) := do
  let first ← pyGet ticks 0
  let hi ← npMax (ticks.map Tick.price)
  let lo ← npMin (ticks.map Tick.price)
  let last ← pyLast ticks
  return { time := first.time, op := first.price, high := hi, low := lo, close := last.price,
           volume := (ticks.map Tick.volume).sum, vwap := computeVwap ticks }

/-- `_group_ticks_to_bars`, bars.py:43-47: `groupby(BAR_ID).apply(_compute_bar_stats)`. -/
def groupTicksToBars {ι : Type} [LinearOrder ι] (ids : List ι) (ticks : List (Tick K)) :
    Py (List (Bar K)) :=
  (groupBy ids ticks).mapM fun g => computeBarStats g.2

/-- `aggregate_time_bars`, bars.py:50-60, for a fixed interval `freq` (in ticks of the clock).
`pd.Grouper(freq)` bins are the half-open intervals `[b*freq, (b+1)*freq)` from the bin of the
earliest to the bin of the latest timestamp; the function is applied to every bin, also to empty
ones.  Simplified: bins are anchored at 0 (pandas anchors at midnight of the first day, the same
thing for intervals dividing a day); the bar is labelled by the left bin edge.  The bars carry the
bin edge as index (`timestamp=None`). -/
def aggregateTimeBars (freq : ℤ) (ticks : List (Tick K)) : Py (List (Bar K)) :=
  if freq ≤ 0 then .error .valueError else
  match ticks with
  | [] => .ok []
  | t0 :: rest =>
    let lo := (rest.map Tick.time).foldl min t0.time / freq
    let hi := (rest.map Tick.time).foldl max t0.time / freq
    ((List.range (hi - lo + 1).toNat).map fun i : ℕ => lo + (i : ℤ)).mapM fun b => do
      let bar ← computeBarStats (ticks.filter fun t => t.time / freq = b)
      return { bar with time := b * freq }

section Floor

variable [FloorRing K]

/-- `a // b` on floats with a non-zero divisor; bars.py:70, 83, 98. -/
def floorDiv (a b : K) : ℤ := ⌊a / b⌋

/-- `aggregate_tick_bars`, bars.py:63-71.  Division by `freq = 0` gives inf/nan ids and is not
modelled. -/
def aggregateTickBars (freq : K) (ticks : List (Tick K)) : Py (List (Bar K)) :=
  if freq = 0 then .error .unmodelled else
  groupTicksToBars ((List.range ticks.length).map fun i : ℕ => floorDiv (i : K) freq) ticks

/-- Bar ids from a cumulative quantity: `q.cumsum() // freq`; bars.py:82-83, 97-98. -/
def cumIds (freq : K) (q : List K) : List ℤ := (cumsum q).map fun c => floorDiv c freq

/-- `aggregate_volume_bars`, bars.py:74-87; the second component is the BAR_ID column returned with
`return_bar_id=True`. -/
def aggregateVolumeBars (freq : K) (ticks : List (Tick K)) : Py (List (Bar K) × List ℤ) :=
  if freq = 0 then .error .unmodelled else do
  let ids := cumIds freq (ticks.map Tick.volume)
  let res ← groupTicksToBars ids ticks
  return (res, ids)

/-- `aggregate_dollar_bars`, bars.py:90-99. -/
def aggregateDollarBars (freq : K) (ticks : List (Tick K)) : Py (List (Bar K)) :=
  if freq = 0 then .error .unmodelled else
  groupTicksToBars (cumIds freq (ticks.map fun t => t.volume * t.price)) ticks

end Floor

/-! ## tick_rule -/

/-- Loop of `tick_rule` (microstructure.py:23-27): `prev` is `tick_directions[i-1]`, `p` the
previous price. -/
def tickRuleFrom (prev p : K) : List K → List K
  | [] => []
  | q :: qs =>
    let d := q - p
    let cur := if d = 0 then prev else |d| / d
    cur :: tickRuleFrom cur q qs

/-- `tick_rule`, microstructure.py:8-29, on the price column. -/
def tickRule (b0 : K) : List K → List K
  | [] => []
  | p :: ps => b0 :: tickRuleFrom b0 p ps

/-! ## fast_ewma -/

/-- Loop of `fast_ewma` with `adjust=True` (time_series.py:22-25): `i` loop counter, `w` weight sum,
`old` weighted sum.  numba raises ZeroDivisionError on a float division by zero. -/
def ewmaAdjLoop (alpha : K) : ℕ → K → K → List K → Py (List K)
  | _, _, _, [] => .ok []
  | i, w, old, x :: xs => do
    let w' := w + (1 - alpha) ^ i
    let old' := old * (1 - alpha) + x
    if w' = 0 then throw .zeroDivision
    let rest ← ewmaAdjLoop alpha (i + 1) w' old' xs
    return old' / w' :: rest

/-- Loop of `fast_ewma` with `adjust=False` (time_series.py:29-30). -/
def ewmaRecLoop (alpha prev : K) : List K → List K
  | [] => []
  | x :: xs =>
    let e := x * alpha + prev * (1 - alpha)
    e :: ewmaRecLoop alpha e xs

/-- `fast_ewma`, time_series.py:6-31, for a non-negative span.  On an empty array the compiled code
reads and writes out of bounds and returns an empty array; the model returns the empty list. -/
def fastEwma (series : List K) (span : ℕ) (adjust : Bool) : Py (List K) :=
  let alpha : K := 2 / ((span : K) + 1)
  match series with
  | [] => .ok []
  | x :: xs =>
    if adjust then do
      let rest ← ewmaAdjLoop alpha 1 1 x xs
      return x :: rest
    else .ok (x :: ewmaRecLoop alpha x xs)

/-! ## Bar ids from bar ends -/

/-- Loop of `_compute_tick_bar_id`, bars.py:106-109. -/
def tickBarIdLoop (ends : List ℕ) : ℕ → ℕ → ℕ → Py (List ℕ)
  | 0, _, _ => .ok []
  | k + 1, i, cur => do
    let e ← pyGet ends cur
    let cur' := if i > e then cur + 1 else cur
    let rest ← tickBarIdLoop ends k (i + 1) cur'
    return cur' :: rest

/-- `_compute_tick_bar_id`, bars.py:102-110. -/
def computeTickBarId (numTicks : ℕ) (ends : List ℕ) : Py (List ℕ) :=
  tickBarIdLoop ends numTicks 0 0

/-! ## Imbalance bars -/

/-- Parameters shared by the imbalance and runs loops.  `maxSize = none` is `np.inf`;
`TSpan = none` or `some 0` means "all bars"; bars.py:113-117, 254-258. -/
structure LoopParams (K : Type) where
  minSize : K
  maxSize : Option K
  ETInit : K
  TSpan : Option ℕ
  bSpan : ℕ

/-- `cur_bar_size >= max_bar_size`; bars.py:171, 334. -/
def geMax (size : K) : Option K → Bool
  | none => false
  | some m => decide (m ≤ size)

/-- `len(T_arr) if not T_ewma_span else T_ewma_span`, bars.py:183. -/
def effTSpan (TSpan : Option ℕ) (len : ℕ) : ℕ :=
  match TSpan with
  | none => len
  | some 0 => len
  | some (k + 1) => k + 1

/-- Local variables of `_compute_imbalance_bar_sizes`, bars.py:144-159. -/
structure ImbState (K : Type) where
  ends : List ℕ
  Ts : List K
  start : ℕ
  size : K
  theta : K
  threshold : K
  padding : Bool
  absThetas : List K
  thresholds : List K
  deriving DecidableEq, Repr

/-- State before the loop, bars.py:148-159. -/
def imbInit (p : LoopParams K) (absEbInit : K) (b0 : K) : ImbState K :=
  { ends := [], Ts := [], start := 0, size := |b0|, theta := b0,
    threshold := p.ETInit * absEbInit, padding := false,
    absThetas := [|b0|], thresholds := [p.ETInit * absEbInit] }

/-- One iteration of the loop, bars.py:163-188. -/
def imbStep (p : LoopParams K) (b : List K) (s : ImbState K) (i : ℕ) : Py (ImbState K) := do
  let x ← pyGet b i
  let size := s.size + |x|
  let theta := s.theta + x
  let absTheta := |theta|
  let s1 := { s with size := size, theta := theta, absThetas := s.absThetas ++ [absTheta],
                     thresholds := s.thresholds ++ [s.threshold] }
  if s.threshold ≤ absTheta ∨ geMax size p.maxSize ∨ s.padding then
    if size < p.minSize then
      return { s1 with padding := true }
    else
      let Ts := s.Ts ++ [(((i - s.start + 1 : ℕ)) : K)]
      let ET ← (fastEwma Ts (effTSpan p.TSpan Ts.length) true) >>= pyLast
      let Eb ← (fastEwma (b.take i) (min p.bSpan (i + 1)) true) >>= pyLast
      return { s1 with ends := s.ends ++ [i], Ts := Ts, padding := false, start := i + 1,
                       size := 0, theta := 0, threshold := ET * |Eb| }
  else
    return s1

/-- The loop `for i in range(1, num_ticks)`, bars.py:163-189. -/
def imbLoop (p : LoopParams K) (absEbInit : K) (b : List K) : Py (ImbState K) := do
  let b0 ← pyGet b 0
  (List.range' 1 (b.length - 1)).foldlM (imbStep p b) (imbInit p absEbInit b0)

/-- `_compute_imbalance_bar_sizes`, bars.py:113-195. -/
def computeImbalanceBarSizes (p : LoopParams K) (absEbInit : K) (b : List K) :
    Py (List ℕ × List K × List K × List K) := do
  let s ← imbLoop p absEbInit b
  if s.start < b.length then
    return (s.ends ++ [b.length - 1], s.Ts ++ [((b.length - s.start : ℕ) : K)],
            s.absThetas, s.thresholds)
  else
    return (s.ends, s.Ts, s.absThetas, s.thresholds)

/-- `BarUnit`, constants.py:25-30. -/
inductive BarUnit
  | time | tick | volume | dollars
  deriving DecidableEq, Repr

/-- The signed flow `b_arr`, bars.py:226-234. -/
def signedFlow (unit : BarUnit) (b0 : K) (ticks : List (Tick K)) : Py (List K) :=
  let dirs := tickRule b0 (ticks.map Tick.price)
  match unit with
  | .volume => .ok (List.zipWith (· * ·) dirs (ticks.map Tick.volume))
  | .dollars => .ok (List.zipWith (· * ·) dirs (ticks.map fun t => t.price * t.volume))
  | .tick => .ok dirs
  | .time => .error .notImplemented

/-- `np.mean` of a non-empty array; bars.py:237. -/
def mean (l : List K) : K := l.sum / (l.length : K)

/-- `aggregate_imblance_bars`, bars.py:198-251.  Result: bars, and the BAR_ID, theta and threshold
columns of the debug frame.  `E_T_init` is an int (it is used as slice bound); the mean of an empty
slice (`E_T_init = 0` and no `abs_E_b_init`) is NaN and not modelled.  `bSpan = none` means
`3*E_T_init`. -/
def aggregateImbalanceBars (unit : BarUnit) (minSize : K) (maxSize : Option K) (b0 : K)
    (ETInit : ℕ) (absEbInit : Option K) (TSpan : Option ℕ) (bSpan : Option ℕ)
    (ticks : List (Tick K)) : Py (List (Bar K) × List ℕ × List K × List K) := do
  let b ← signedFlow unit b0 ticks
  if absEbInit = none ∧ (b.take ETInit = []) then throw .unmodelled
  let eb := absEbInit.getD |mean (b.take ETInit)|
  let p : LoopParams K := { minSize := minSize, maxSize := maxSize, ETInit := (ETInit : K),
                            TSpan := TSpan, bSpan := bSpan.getD (3 * ETInit) }
  let (ends, _, thetas, thresholds) ← computeImbalanceBarSizes p eb b
  let ids ← computeTickBarId ticks.length ends
  let res ← groupTicksToBars ids ticks
  return (res, ids, thetas, thresholds)

/-! ## Runs bars -/

/-- Python's `max(a, b)` where `none` is NaN: returns `b` only if `b > a`; bars.py:289. -/
def pyMaxNan (a b : Option K) : Option K :=
  match a, b with
  | some x, some y => if y > x then some y else some x
  | some x, none => some x
  | none, _ => none

/-- Comparison `theta >= threshold`, false when the threshold is NaN; bars.py:334. -/
def geNan (theta : K) : Option K → Bool
  | none => false
  | some t => decide (t ≤ theta)

/-- Local variables of `_compute_runs_bar_sizes`, bars.py:291-315. -/
structure RunsState (K : Type) where
  ends : List ℕ
  Ts : List K
  buyRatios : List K
  vBuys : List K
  vSells : List K
  start : ℕ
  size : K
  buyRuns : K
  vBuyRuns : K
  vSellRuns : K
  threshold : Option K
  padding : Bool
  thetas : List K
  thresholds : List (Option K)
  deriving DecidableEq, Repr

/-- `_update_threshold`, bars.py:288-289. -/
def runsThreshold (ET P : K) (EvBuy EvSell : Option K) : Option K :=
  (pyMaxNan (EvBuy.map (P * ·)) (EvSell.map ((1 - P) * ·))).map (ET * ·)

/-- Initial expectations of the runs loop; bars.py:298-301. -/
structure RunsInit (K : Type) where
  PBuy : K
  EvBuy : Option K
  EvSell : Option K

/-- State before the loop, bars.py:298-315. -/
def runsInit (p : LoopParams K) (r : RunsInit K) (b0 v0 : K) : RunsState K :=
  let vb := if 0 ≤ b0 then v0 else 0
  let vs := if b0 < 0 then v0 else 0
  let thr := runsThreshold p.ETInit r.PBuy r.EvBuy r.EvSell
  { ends := [], Ts := [], buyRatios := [], vBuys := [], vSells := [], start := 0, size := v0,
    buyRuns := if 0 ≤ b0 then b0 else 0, vBuyRuns := vb, vSellRuns := vs, threshold := thr,
    padding := false, thetas := [max vb vs], thresholds := [thr] }

/-- One iteration of the loop, bars.py:320-358. -/
def runsStep (p : LoopParams K) (b v : List K) (s : RunsState K) (i : ℕ) : Py (RunsState K) := do
  let x ← pyGet b i
  let q ← pyGet v i
  let size := s.size + q
  let vBuys := if 0 ≤ x then s.vBuys ++ [q] else s.vBuys
  let vSells := if x < 0 then s.vSells ++ [q] else s.vSells
  let buyRuns := s.buyRuns + (if 0 ≤ x then 1 else 0)
  let vBuyRuns := s.vBuyRuns + (if 0 ≤ x then q else 0)
  let vSellRuns := s.vSellRuns + (if x < 0 then q else 0)
  let theta := max vBuyRuns vSellRuns
  let s1 := { s with size := size, vBuys := vBuys, vSells := vSells, buyRuns := buyRuns,
                     vBuyRuns := vBuyRuns, vSellRuns := vSellRuns,
                     thetas := s.thetas ++ [theta], thresholds := s.thresholds ++ [s.threshold] }
  if geNan theta s.threshold ∨ geMax size p.maxSize ∨ s.padding then
    if size < p.minSize then
      return { s1 with padding := true }
    else
      let n : K := ((i - s.start + 1 : ℕ) : K)
      let Ts := s.Ts ++ [n]
      let ratios := s.buyRatios ++ [buyRuns / n]
      let span := effTSpan p.TSpan Ts.length
      let ET ← (fastEwma Ts span true) >>= pyLast
      let P ← (fastEwma ratios span true) >>= pyLast
      let Eb ← (fastEwma vBuys (min vBuys.length p.bSpan) true) >>= pyLast
      let Es ← (fastEwma vSells (min vSells.length p.bSpan) true) >>= pyLast
      return { s1 with ends := s.ends ++ [i], Ts := Ts, buyRatios := ratios, padding := false,
                       buyRuns := 0, vBuyRuns := 0, vSellRuns := 0, size := 0, start := i + 1,
                       threshold := runsThreshold ET P (some Eb) (some Es) }
  else
    return s1

/-- The loop, bars.py:320-360. -/
def runsLoop (p : LoopParams K) (r : RunsInit K) (b v : List K) : Py (RunsState K) := do
  let b0 ← pyGet b 0
  let v0 ← pyGet v 0
  (List.range' 1 (b.length - 1)).foldlM (runsStep p b v) (runsInit p r b0 v0)

/-- `_compute_runs_bar_sizes`, bars.py:254-366. -/
def computeRunsBarSizes (p : LoopParams K) (r : RunsInit K) (b v : List K) :
    Py (List ℕ × List K × List K × List (Option K)) := do
  let s ← runsLoop p r b v
  if s.start < b.length then
    return (s.ends ++ [b.length - 1], s.Ts ++ [((b.length - s.start : ℕ) : K)],
            s.thetas, s.thresholds)
  else
    return (s.ends, s.Ts, s.thetas, s.thresholds)

/-- The traded quantity `v_arr`, bars.py:404-411. -/
def tradedQty (unit : BarUnit) (ticks : List (Tick K)) : Py (List K) :=
  match unit with
  | .volume => .ok (ticks.map Tick.volume)
  | .dollars => .ok (ticks.map fun t => t.price * t.volume)
  | .tick => .ok (ticks.map fun _ => 1)
  | .time => .error .notImplemented

/-- `np.mean`, NaN (`none`) on an empty selection; bars.py:416-418. -/
def meanNan (l : List K) : Option K := if l = [] then none else some (mean l)

/-- `aggregate_runs_bars`, bars.py:369-442.  Positive `E_T_init`; with `E_T_init = 0` and no
`P_b_buy_init` the code divides 0 by 0 (not modelled). -/
def aggregateRunsBars (unit : BarUnit) (minSize : K) (maxSize : Option K) (b0 : K)
    (ETInit : ℕ) (PInit EvBuyInit EvSellInit : Option K) (TSpan : Option ℕ) (bSpan : Option ℕ)
    (ticks : List (Tick K)) : Py (List (Bar K) × List ℕ × List K × List (Option K)) := do
  let b := tickRule b0 (ticks.map Tick.price)
  let v ← tradedQty unit ticks
  if PInit = none ∧ b.take ETInit = [] then throw .unmodelled
  let head := (b.take ETInit).zip (v.take ETInit)
  let P := PInit.getD ((((b.take ETInit).filter (0 < ·)).length : K) / ((b.take ETInit).length : K))
  let Eb := match EvBuyInit with
    | some x => some x
    | none => meanNan ((head.filter fun z => 0 < z.1).map Prod.snd)
  let Es := match EvSellInit with
    | some x => some x
    | none => meanNan ((head.filter fun z => z.1 < 0).map Prod.snd)
  let p : LoopParams K := { minSize := minSize, maxSize := maxSize, ETInit := (ETInit : K),
                            TSpan := TSpan, bSpan := bSpan.getD (3 * ETInit) }
  let (ends, _, thetas, thresholds) ← computeRunsBarSizes p ⟨P, Eb, Es⟩ b v
  let ids ← computeTickBarId ticks.length ends
  let res ← groupTicksToBars ids ticks
  return (res, ids, thetas, thresholds)

/-! ## Resampling -/

/-- The product `p * v` of bars.py:450-452.  A missing VWAP is skipped by `np.sum` on a pandas
Series (skipna), so it contributes 0 to the sum. -/
def barDollars (b : Bar K) : K :=
  match b.vwap with
  | some p => p * b.volume
  | none => 0

/-- `_resample_vwap`, bars.py:445-453. -/
def resampleVwap (bars : List (Bar K)) : Option K :=
  fdiv (bars.map barDollars).sum (bars.map Bar.volume).sum

/-- `_resample_bar_stats` with `timestamp='first'`, bars.py:456-476. -/
def resampleBarStats (bars : List (Bar K)) : Py (Bar K) := do
  let first ← pyGet bars 0
  let hi ← npMax (bars.map Bar.high)
  let lo ← npMin (bars.map Bar.low)
  let last ← pyLast bars
  return { time := first.time, op := first.op, high := hi, low := lo, close := last.close,
           volume := (bars.map Bar.volume).sum, vwap := resampleVwap bars }

/-- `_group_resampled_bars`, bars.py:479-483. -/
def groupResampledBars {ι : Type} [LinearOrder ι] (ids : List ι) (bars : List (Bar K)) :
    Py (List (Bar K)) :=
  (groupBy ids bars).mapM fun g => resampleBarStats g.2

/-- `resample_time_to_volume_bars`, bars.py:486-493. -/
def resampleTimeToVolumeBars [FloorRing K] (freq : K) (bars : List (Bar K)) :
    Py (List (Bar K) × List ℤ) :=
  if freq = 0 then .error .unmodelled else do
  let ids := cumIds freq (bars.map Bar.volume)
  let res ← groupResampledBars ids bars
  return (res, ids)

end FinML.Bars
