import Verif.Bars.MissFlowModel

/-!
# Runs bars of ticks with missing values (bars.py:254-442)

NaN is `none`.  The debug columns of `aggregate_runs_bars` are left out.  Row labels are those of `reset_index`.
-/

namespace FinML.Bars

variable {K : Type} [Field K] [LinearOrder K] [IsStrictOrderedRing K]

/-- `b_arr[i] >= 0`, false for NaN; bars.py:303, 322. -/
def isBuyM : Option K → Bool
  | some x => decide (0 ≤ x)
  | none => false

/-- `b_arr[i] < 0`, false for NaN; bars.py:305, 324. -/
def isSellM : Option K → Bool
  | some x => decide (x < 0)
  | none => false

/-- `_update_threshold`, bars.py:288-289; the first factor of both products may be NaN. -/
def runsThresholdM (ET : K) (P EvBuy EvSell : Option K) : Option K :=
  (pyMaxNan (mulM P EvBuy) (mulM (P.map fun x => 1 - x) EvSell)).map (ET * ·)

/-- Local variables of `_compute_runs_bar_sizes`, bars.py:291-315. -/
structure RunsStateM (K : Type) where
  ends : List ℕ
  Ts : List K
  buyRatios : List K
  vBuys : List (Option K)
  vSells : List (Option K)
  start : ℕ
  size : Option K
  buyRuns : K
  vBuyRuns : Option K
  vSellRuns : Option K
  threshold : Option K
  padding : Bool
  deriving DecidableEq, Repr

/-- Initial expectations of the runs loop; bars.py:298-301. -/
structure RunsInitM (K : Type) where
  PBuy : Option K
  EvBuy : Option K
  EvSell : Option K

/-- State before the loop, bars.py:298-315. -/
def runsInitM (p : LoopParams K) (r : RunsInitM K) (x0 q0 : Option K) : RunsStateM K :=
  { ends := [], Ts := [], buyRatios := [], vBuys := [], vSells := [], start := 0, size := q0,
    buyRuns := if isBuyM x0 then x0.getD 0 else 0, vBuyRuns := if isBuyM x0 then q0 else some 0,
    vSellRuns := if isSellM x0 then q0 else some 0,
    threshold := runsThresholdM p.ETInit r.PBuy r.EvBuy r.EvSell, padding := false }

/-- The variables after the new tick, bars.py:321-329. -/
def runsAddM (s : RunsStateM K) (x q : Option K) : RunsStateM K :=
  { s with size := addM s.size q,
           vBuys := if isBuyM x then s.vBuys ++ [q] else s.vBuys,
           vSells := if isSellM x then s.vSells ++ [q] else s.vSells,
           buyRuns := s.buyRuns + (if isBuyM x then 1 else 0),
           vBuyRuns := addM s.vBuyRuns (if isBuyM x then q else some 0),
           vSellRuns := addM s.vSellRuns (if isSellM x then q else some 0) }

/-- The condition of bars.py:334; `cur_theta = max(buys, sells)` is NaN only if the buys are, bars.py:329. -/
def runsClosesM (p : LoopParams K) (s : RunsStateM K) : Bool :=
  geM (pyMaxNan s.vBuyRuns s.vSellRuns) s.threshold || (geM s.size p.maxSize || s.padding)

/-- The state after a closed bar, bars.py:339-358. -/
def runsCloseM (p : LoopParams K) (s : RunsStateM K) (i : ℕ) : Py (RunsStateM K) := do
  let n : K := ((i - s.start + 1 : ℕ) : K)
  let Ts := s.Ts ++ [n]
  let ratios := s.buyRatios ++ [s.buyRuns / n]
  let span := effTSpan p.TSpan Ts.length
  let ET ← (fastEwma Ts span true) >>= pyLast
  let P ← (fastEwma ratios span true) >>= pyLast
  let Eb ← ewmaLastM s.vBuys (min s.vBuys.length p.bSpan)
  let Es ← ewmaLastM s.vSells (min s.vSells.length p.bSpan)
  return { s with ends := s.ends ++ [i], Ts := Ts, buyRatios := ratios, padding := false,
                  buyRuns := 0, vBuyRuns := some 0, vSellRuns := some 0, size := some 0, start := i + 1,
                  threshold := runsThresholdM ET (some P) Eb Es }

/-- One iteration of the loop, bars.py:320-358. -/
def runsStepM (p : LoopParams K) (b v : List (Option K)) (s : RunsStateM K) (i : ℕ) : Py (RunsStateM K) := do
  let x ← pyGet b i
  let q ← pyGet v i
  let s1 := runsAddM s x q
  if runsClosesM p s1 then
    if ltM s1.size p.minSize then return { s1 with padding := true } else runsCloseM p s1 i
  else return s1

/-- The loop, bars.py:320-360. -/
def runsLoopM (p : LoopParams K) (r : RunsInitM K) (b v : List (Option K)) : Py (RunsStateM K) := do
  let x0 ← pyGet b 0
  let q0 ← pyGet v 0
  (List.range' 1 (b.length - 1)).foldlM (runsStepM p b v) (runsInitM p r x0 q0)

/-- The bar ends of `_compute_runs_bar_sizes`, bars.py:254-366. -/
def runsEndsM (p : LoopParams K) (r : RunsInitM K) (b v : List (Option K)) : Py (List ℕ) := do
  let s ← runsLoopM p r b v
  return (if s.start < b.length then s.ends ++ [b.length - 1] else s.ends)

/-- The traded quantity `v_arr`, bars.py:404-411. -/
def tradedQtyM (unit : BarUnit) (ticks : List (MTick K)) : Py (List (Option K)) :=
  match unit with
  | .volume => .ok (ticks.map MTick.volume)
  | .dollars => .ok (ticks.map MTick.dollars)
  | .tick => .ok (ticks.map fun _ => some 1)
  | .time => .error .notImplemented

/-- `P_b_buy_init`, bars.py:413-414; NaN flags are no buys, and nothing divided by nothing is NaN. -/
def pBuyM (PInit : Option K) (b : List (Option K)) : Option K :=
  match PInit with
  | some x => some x
  | none => if b = [] then none else some (((b.filter fun x => isBuyM x && decide (x ≠ some 0)).length : K) / (b.length : K))

/-- `E_v_buy_init` and `E_v_sell_init`, bars.py:415-418: the mean of a Series skips NaN. -/
def meanQtyM (init : Option K) (q : List (Option K)) : Option K :=
  match init with
  | some x => some x
  | none => meanNan q.reduceOption

/-- `aggregate_runs_bars`, bars.py:369-442: bars and bar ids. -/
def aggregateRunsBarsM (unit : BarUnit) (minSize : K) (maxSize : Option K) (b0 : K) (ETInit : ℕ)
    (PInit EvBuyInit EvSellInit : Option K) (TSpan : Option ℕ) (bSpan : Option ℕ) (ticks : List (MTick K)) :
    Py (List (MBar K) × List ℕ) := do
  let b := tickRuleM b0 (ticks.map MTick.price)
  let v ← tradedQtyM unit ticks
  let head := (b.take ETInit).zip (v.take ETInit)
  let r : RunsInitM K :=
    { PBuy := pBuyM PInit (b.take ETInit)
      EvBuy := meanQtyM EvBuyInit ((head.filter fun z => isBuyM z.1 && decide (z.1 ≠ some 0)).map Prod.snd)
      EvSell := meanQtyM EvSellInit ((head.filter fun z => isSellM z.1).map Prod.snd) }
  let p : LoopParams K := { minSize := minSize, maxSize := maxSize, ETInit := (ETInit : K),
                            TSpan := TSpan, bSpan := bSpan.getD (3 * ETInit) }
  let ends ← runsEndsM p r b v
  let ids ← computeTickBarId ticks.length ends
  let res ← groupTicksM (ids.map some) ticks
  return (res, ids)

end FinML.Bars
