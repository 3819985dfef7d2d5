import Verif.Bars.MissModel

/-!
# Tick rule and imbalance bars of ticks with missing values (microstructure.py:8-29, bars.py:113-251)

NaN is `none`.  The debug columns of `aggregate_imblance_bars` are left out.
-/

namespace FinML.Bars

variable {K : Type} [Field K] [LinearOrder K] [IsStrictOrderedRing K]

/-- `price_change[i]`, microstructure.py:17; NaN next to a missing price. -/
def changeM (p q : Option K) : Option K := p.bind fun a => q.map fun b => b - a

/-- `tick_directions[i]`, microstructure.py:24-27: NaN is not equal to zero, and `abs(NaN)/NaN` is NaN. -/
def flagM (prev change : Option K) : Option K :=
  match change with
  | some d => if d = 0 then prev else some (|d| / d)
  | none => none

/-- Loop of `tick_rule`, microstructure.py:23-27. -/
def tickRuleMFrom (prev p : Option K) : List (Option K) → List (Option K)
  | [] => []
  | q :: qs => flagM prev (changeM p q) :: tickRuleMFrom (flagM prev (changeM p q)) q qs

/-- `tick_rule`, microstructure.py:8-29. -/
def tickRuleM (b0 : K) : List (Option K) → List (Option K)
  | [] => []
  | p :: ps => some b0 :: tickRuleMFrom (some b0) p ps

/-- Product of two floats that may be NaN; bars.py:228, 230. -/
def mulM (a b : Option K) : Option K := a.bind fun x => b.map fun y => x * y

/-- Sum of two floats that may be NaN; bars.py:164-165. -/
def addM (a b : Option K) : Option K := a.bind fun x => b.map fun y => x + y

/-- `a >= b`, false if one of them is NaN; bars.py:171. -/
def geM : Option K → Option K → Bool
  | some a, some b => decide (b ≤ a)
  | _, _ => false

/-- `a < b` for a bar size that may be NaN; bars.py:172. -/
def ltM : Option K → K → Bool
  | some a, b => decide (a < b)
  | none, _ => false

/-- The signed flow `b_arr`, bars.py:226-234. -/
def signedFlowM (unit : BarUnit) (b0 : K) (ticks : List (MTick K)) : Py (List (Option K)) :=
  let dirs := tickRuleM b0 (ticks.map MTick.price)
  match unit with
  | .volume => .ok (List.zipWith mulM dirs (ticks.map MTick.volume))
  | .dollars => .ok (List.zipWith mulM dirs (ticks.map MTick.dollars))
  | .tick => .ok dirs
  | .time => .error .notImplemented

/-- `fast_ewma(b, span, adjust=True)[-1]`, bars.py:186, time_series.py:6-27: a NaN stays in the weighted sum; the division by
the sum of weights fails as without NaN. -/
def ewmaLastM (b : List (Option K)) (span : ℕ) : Py (Option K) := do
  let r ← (fastEwma (b.map fun x => x.getD 0) span true) >>= pyLast
  return (if none ∈ b then none else some r)

/-- Local variables of `_compute_imbalance_bar_sizes`, bars.py:144-154. -/
structure ImbStateM (K : Type) where
  ends : List ℕ
  Ts : List K
  start : ℕ
  size : Option K
  theta : Option K
  threshold : Option K
  padding : Bool
  deriving DecidableEq, Repr

/-- The condition of bars.py:171 after the new tick. -/
def closesM (p : LoopParams K) (threshold size theta : Option K) (padding : Bool) : Bool :=
  geM (theta.map abs) threshold || (geM size p.maxSize || padding)

/-- The state after a closed bar, bars.py:176-188. -/
def closeM (p : LoopParams K) (b : List (Option K)) (s : ImbStateM K) (i : ℕ) : Py (ImbStateM K) := do
  let Ts := s.Ts ++ [(((i - s.start + 1 : ℕ)) : K)]
  let ET ← (fastEwma Ts (effTSpan p.TSpan Ts.length) true) >>= pyLast
  let Eb ← ewmaLastM (b.take i) (min p.bSpan (i + 1))
  return { ends := s.ends ++ [i], Ts := Ts, padding := false, start := i + 1, size := some 0, theta := some 0,
           threshold := mulM (some ET) (Eb.map abs) }

/-- One iteration of the loop, bars.py:163-188. -/
def imbStepM (p : LoopParams K) (b : List (Option K)) (s : ImbStateM K) (i : ℕ) : Py (ImbStateM K) := do
  let x ← pyGet b i
  let size := addM s.size (x.map abs)
  let theta := addM s.theta x
  if closesM p s.threshold size theta s.padding then
    if ltM size p.minSize then
      return { s with size := size, theta := theta, padding := true }
    else
      closeM p b s i
  else
    return { s with size := size, theta := theta }

/-- State before the loop, bars.py:148-154. -/
def imbInitM (p : LoopParams K) (absEb : Option K) (x0 : Option K) : ImbStateM K :=
  { ends := [], Ts := [], start := 0, size := x0.map abs, theta := x0, threshold := mulM (some p.ETInit) absEb,
    padding := false }

/-- The loop `for i in range(1, num_ticks)`, bars.py:163-189. -/
def imbLoopM (p : LoopParams K) (absEb : Option K) (b : List (Option K)) : Py (ImbStateM K) := do
  let x0 ← pyGet b 0
  (List.range' 1 (b.length - 1)).foldlM (imbStepM p b) (imbInitM p absEb x0)

/-- The bar ends of `_compute_imbalance_bar_sizes`, bars.py:113-195. -/
def imbalanceEndsM (p : LoopParams K) (absEb : Option K) (b : List (Option K)) : Py (List ℕ) := do
  let s ← imbLoopM p absEb b
  return (if s.start < b.length then s.ends ++ [b.length - 1] else s.ends)

/-- `np.abs(b_arr[:E_T_init].mean())` if no value is given, bars.py:236-237; the mean of nothing is NaN. -/
def absEbM (absEbInit : Option K) (ETInit : ℕ) (b : List (Option K)) : Option K :=
  match absEbInit with
  | some e => some e
  | none => if b.take ETInit = [] ∨ none ∈ b.take ETInit then none else some |mean (b.take ETInit).reduceOption|

/-- `aggregate_imblance_bars`, bars.py:198-251: bars and bar ids. -/
def aggregateImbalanceBarsM (unit : BarUnit) (minSize : K) (maxSize : Option K) (b0 : K) (ETInit : ℕ)
    (absEbInit : Option K) (TSpan : Option ℕ) (bSpan : Option ℕ) (ticks : List (MTick K)) :
    Py (List (MBar K) × List ℕ) := do
  let b ← signedFlowM unit b0 ticks
  let p : LoopParams K := { minSize := minSize, maxSize := maxSize, ETInit := (ETInit : K),
                            TSpan := TSpan, bSpan := bSpan.getD (3 * ETInit) }
  let ends ← imbalanceEndsM p (absEbM absEbInit ETInit b) b
  let ids ← computeTickBarId ticks.length ends
  let res ← groupTicksM (ids.map some) ticks
  return (res, ids)

end FinML.Bars
