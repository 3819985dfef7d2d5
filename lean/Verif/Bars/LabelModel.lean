import Verif.Bars.Model

/-!
# Runs bars on a tick frame with integer row labels

`aggregate_runs_bars` takes the traded quantity as a column of the frame (bars.py:405-408), a Series
with the row labels of the frame, and `_compute_runs_bar_sizes` reads it as `v_arr[i]`
(bars.py:301-309, 320-331), which looks up the *label* `i`.  `Verif/Bars/Model.lean` models a frame
that is labelled 0, 1, …; here the labels are arbitrary integers.  A datetime index, for which old
pandas versions fall back to positions, is not modelled.
-/

namespace FinML.Bars

variable {K : Type} [Field K] [LinearOrder K] [IsStrictOrderedRing K]

/-- `s[i]` on a Series with integer labels.  With several rows of that label pandas returns a Series;
what the loop then does is not modelled; bars.py:321-328. -/
def labelGet (labels : List ℤ) (v : List K) (i : ℕ) : Py K :=
  match ((labels.zip v).filter fun p => p.1 = (i : ℤ)).map Prod.snd with
  | [] => .error .keyError
  | [x] => .ok x
  | _ :: _ :: _ => .error .unmodelled

/-- `v_arr[i]`: an array in tick units (bars.py:408-409), a column of the frame otherwise. -/
def qtyAt (unit : BarUnit) (labels : List ℤ) (v : List K) (i : ℕ) : Py K :=
  if unit = .tick then pyGet v i else labelGet labels v i

/-- One iteration of the loop with `b_arr[i] = x` and `v_arr[i] = q`, bars.py:320-358; the same text as
`runsStep` after its two lookups. -/
def runsBody (p : LoopParams K) (x q : K) (s : RunsState K) (i : ℕ) : Py (RunsState K) := do
  let size := s.size + q
  let vBuys := if 0 ≤ x then s.vBuys ++ [q] else s.vBuys
  let vSells := if x < 0 then s.vSells ++ [q] else s.vSells
  let buyRuns := s.buyRuns + (if 0 ≤ x then 1 else 0)
  let vBuyRuns := s.vBuyRuns + (if 0 ≤ x then q else 0)
  let vSellRuns := s.vSellRuns + (if x < 0 then q else 0)
  let theta := max vBuyRuns vSellRuns
  let s1 := { s with size := size, vBuys := vBuys, vSells := vSells, buyRuns := buyRuns,
                     vBuyRuns := vBuyRuns, vSellRuns := vSellRuns,
                     thetas := s.thetas ++ [theta], thresholds := s.thresholds ++ [s.threshold] }
  if geNan theta s.threshold ∨ geMax size p.maxSize ∨ s.padding then
    if size < p.minSize then
      return { s1 with padding := true }
    else
      let n : K := ((i - s.start + 1 : ℕ) : K)
      let Ts := s.Ts ++ [n]
      let ratios := s.buyRatios ++ [buyRuns / n]
      let span := effTSpan p.TSpan Ts.length
      let ET ← (fastEwma Ts span true) >>= pyLast
      let P ← (fastEwma ratios span true) >>= pyLast
      let Eb ← (fastEwma vBuys (min vBuys.length p.bSpan) true) >>= pyLast
      let Es ← (fastEwma vSells (min vSells.length p.bSpan) true) >>= pyLast
      return { s1 with ends := s.ends ++ [i], Ts := Ts, buyRatios := ratios, padding := false,
                       buyRuns := 0, vBuyRuns := 0, vSellRuns := 0, size := 0, start := i + 1,
                       threshold := runsThreshold ET P (some Eb) (some Es) }
  else
    return s1

/-- One iteration with both lookups, bars.py:320-358. -/
def runsStepAt (p : LoopParams K) (b : List K) (qty : ℕ → Py K) (s : RunsState K) (i : ℕ) :
    Py (RunsState K) := do
  let x ← pyGet b i
  let q ← qty i
  runsBody p x q s i

/-- The loop, bars.py:320-360. -/
def runsLoopAt (p : LoopParams K) (r : RunsInit K) (b : List K) (qty : ℕ → Py K) : Py (RunsState K) := do
  let b0 ← pyGet b 0
  let v0 ← qty 0
  (List.range' 1 (b.length - 1)).foldlM (runsStepAt p b qty) (runsInit p r b0 v0)

/-- `_compute_runs_bar_sizes`, bars.py:254-366. -/
def computeRunsBarSizesAt (p : LoopParams K) (r : RunsInit K) (b : List K) (qty : ℕ → Py K) :
    Py (List ℕ × List K × List K × List (Option K)) := do
  let s ← runsLoopAt p r b qty
  if s.start < b.length then
    return (s.ends ++ [b.length - 1], s.Ts ++ [((b.length - s.start : ℕ) : K)],
            s.thetas, s.thresholds)
  else
    return (s.ends, s.Ts, s.thetas, s.thresholds)

/-- `aggregate_runs_bars`, bars.py:369-442, on a frame whose row `k` has label `labels[k]`.  The slices
`v_arr[:E_T_init]` are positional also with integer labels, and so are the boolean masks. -/
def aggregateRunsBarsFrame (unit : BarUnit) (minSize : K) (maxSize : Option K) (b0 : K)
    (ETInit : ℕ) (PInit EvBuyInit EvSellInit : Option K) (TSpan : Option ℕ) (bSpan : Option ℕ)
    (labels : List ℤ) (ticks : List (Tick K)) :
    Py (List (Bar K) × List ℕ × List K × List (Option K)) := do
  let b := tickRule b0 (ticks.map Tick.price)
  let v ← tradedQty unit ticks
  if PInit = none ∧ b.take ETInit = [] then throw .unmodelled
  let head := (b.take ETInit).zip (v.take ETInit)
  let P := PInit.getD ((((b.take ETInit).filter (0 < ·)).length : K) / ((b.take ETInit).length : K))
  let Eb := match EvBuyInit with
    | some x => some x
    | none => meanNan ((head.filter fun z => 0 < z.1).map Prod.snd)
  let Es := match EvSellInit with
    | some x => some x
    | none => meanNan ((head.filter fun z => z.1 < 0).map Prod.snd)
  let p : LoopParams K := { minSize := minSize, maxSize := maxSize, ETInit := (ETInit : K),
                            TSpan := TSpan, bSpan := bSpan.getD (3 * ETInit) }
  let (ends, _, thetas, thresholds) ← computeRunsBarSizesAt p ⟨P, Eb, Es⟩ b (qtyAt unit labels v)
  let ids ← computeTickBarId ticks.length ends
  let res ← groupTicksToBars ids ticks
  return (res, ids, thetas, thresholds)

end FinML.Bars
