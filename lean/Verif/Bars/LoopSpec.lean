import Verif.Bars.EwmaSpec
import Mathlib.Order.Interval.Finset.Nat

/-! # Specification of imbalance and runs bars

A bar that starts at tick `s` closes at the first tick at which its trigger has already fired and
its size is at least the minimum (tick 0 is never tested).  The threshold of a bar depends on the
bars closed before it. -/

namespace FinML.Bars

variable {K : Type} [Field K] [LinearOrder K] [IsStrictOrderedRing K]

/-- First tick of the bar that follows the closed bars `es` (given by their last ticks). -/
def startAfter (es : List ℕ) : ℕ :=
  match es.getLast? with
  | none => 0
  | some e => e + 1

/-- Numbers of ticks of consecutive bars given by their last ticks. -/
def barLens : ℕ → List ℕ → List ℕ
  | _, [] => []
  | s, e :: es => (e + 1 - s) :: barLens (e + 1) es

/-- Consecutive pieces of a list with the given lengths. -/
def cutLens {α : Type} : List ℕ → List α → List (List α)
  | [], _ => []
  | T :: Ts, l => l.take T :: cutLens Ts (l.drop T)

/-- A rule for closing bars: `trig thr s t` - with threshold `thr`, the bar started at `s` triggers
at tick `t`; `size s t` - accumulated size; `thrOf es` - threshold after closing `es`. -/
structure BarRule (Θ K : Type) where
  trig : Θ → ℕ → ℕ → Prop
  size : ℕ → ℕ → K
  minSize : K
  thrOf : List ℕ → Py Θ

variable {Θ : Type}

/-- The bar started at `s` may close at tick `t`: its trigger has fired and it is large enough. -/
def ClosesAt (R : BarRule Θ K) (thr : Θ) (s t : ℕ) : Prop :=
  (∃ u, max s 1 ≤ u ∧ u ≤ t ∧ R.trig thr s u) ∧ R.minSize ≤ R.size s t

/-- `e` is the first tick at which the bar started at `s` may close. -/
def FirstClose (R : BarRule Θ K) (thr : Θ) (s e : ℕ) : Prop :=
  max s 1 ≤ e ∧ ClosesAt R thr s e ∧ ∀ t, max s 1 ≤ t → t < e → ¬ ClosesAt R thr s t

/-- The bar started at `s` cannot close before tick `n`. -/
def NoClose (R : BarRule Θ K) (thr : Θ) (s n : ℕ) : Prop :=
  ∀ t, max s 1 ≤ t → t < n → ¬ ClosesAt R thr s t

/-- `es` are bars closed by the rule, one after the other. -/
def ValidClosed (R : BarRule Θ K) (es : List ℕ) : Prop :=
  ∀ j (h : j < es.length), ∃ thr, R.thrOf (es.take j) = .ok thr ∧
    FirstClose R thr (startAfter (es.take j)) es[j]

/-- Value of tick `i` in an array. -/
def at' (l : List K) (i : ℕ) : K := l.getD i 0

/-- Sum of `f` over ticks `s..t`. -/
def sumOver (f : ℕ → K) (s t : ℕ) : K := ∑ i ∈ Finset.Icc s t, f i

/-- Span used for the expected bar length after `m` bars: the given one, or all bars. -/
def lenSpan (TSpan : Option ℕ) (m : ℕ) : ℕ :=
  match TSpan with
  | none => m
  | some k => if k = 0 then m else k

/-- Size limit reached. -/
def ReachesMax (maxSize : Option K) (size : K) : Prop := ∃ m, maxSize = some m ∧ m ≤ size

/-- The imbalance rule for signed flows `b`: a bar triggers when the absolute flow accumulated in
the bar reaches the threshold, or the size limit is reached; size is the absolute flow.  The
threshold is `E_T * |E_b|`, with `E_T` the exponentially weighted mean of past bar lengths and `E_b`
that of the flows before the last closing tick. -/
def imbRule (p : LoopParams K) (absEbInit : K) (b : List K) : BarRule K K where
  trig thr s t := thr ≤ |sumOver (at' b) s t| ∨ ReachesMax p.maxSize (sumOver (|at' b ·|) s t)
  size s t := sumOver (|at' b ·|) s t
  minSize := p.minSize
  thrOf es := .ok (match es.getLast? with
    | none => p.ETInit * absEbInit
    | some e =>
      ewMean (decay K (lenSpan p.TSpan es.length)) ((barLens 0 es).map ((↑) : ℕ → K)) *
        |ewMean (decay K (min p.bSpan (e + 1))) (b.take e)|)

/-! ### Runs bars -/

/-- Quantity bought at tick `i` (direction `b`, quantity `v`). -/
def buyQty (b v : List K) (i : ℕ) : K := if 0 ≤ at' b i then at' v i else 0

/-- Quantity sold at tick `i`. -/
def sellQty (b v : List K) (i : ℕ) : K := if at' b i < 0 then at' v i else 0

/-- Quantities of the buy ticks among ticks `1..e`. -/
def buyVols (b v : List K) (e : ℕ) : List K :=
  ((List.range' 1 e).filter fun i => 0 ≤ at' b i).map (at' v)

/-- Quantities of the sell ticks among ticks `1..e`. -/
def sellVols (b v : List K) (e : ℕ) : List K :=
  ((List.range' 1 e).filter fun i => at' b i < 0).map (at' v)

/-- Weight of tick `i` in the number of buys: 1 for a buy, but tick 0 counts with its direction. -/
def buyTicks (b : List K) (i : ℕ) : K :=
  if 0 ≤ at' b i then (if i = 0 then at' b 0 else 1) else 0

/-- Fractions of buy ticks of consecutive bars. -/
def buyFracs (b : List K) : ℕ → List ℕ → List K
  | _, [] => []
  | s, e :: es => sumOver (buyTicks b) s e / ((e + 1 - s : ℕ) : K) :: buyFracs b (e + 1) es

/-- Threshold before the first bar closes; NaN if no buy was seen in the initial window. -/
def initThr (p : LoopParams K) (r : RunsInit K) : Option K :=
  match r.EvBuy, r.EvSell with
  | none, _ => none
  | some x, none => some (p.ETInit * (r.PBuy * x))
  | some x, some y => some (p.ETInit * max (r.PBuy * x) ((1 - r.PBuy) * y))

/-- Threshold after closing the bars `es`, the last one at tick `e`. -/
def runsThr (p : LoopParams K) (b v : List K) (es : List ℕ) (e : ℕ) : K :=
  let span := lenSpan p.TSpan es.length
  let P := ewMean (decay K span) (buyFracs b 0 es)
  ewMean (decay K span) ((barLens 0 es).map ((↑) : ℕ → K)) *
    max (P * ewMean (decay K (min (buyVols b v e).length p.bSpan)) (buyVols b v e))
      ((1 - P) * ewMean (decay K (min (sellVols b v e).length p.bSpan)) (sellVols b v e))

/-- The runs rule: a bar triggers when the quantity bought or the quantity sold in the bar reaches
the threshold, or the size limit is reached.  The new threshold cannot be computed (IndexError) as
long as no buy or no sell was seen after tick 0. -/
def runsRule (p : LoopParams K) (r : RunsInit K) (b v : List K) : BarRule (Option K) K where
  trig thr s t := (∃ x, thr = some x ∧ (x ≤ sumOver (buyQty b v) s t ∨ x ≤ sumOver (sellQty b v) s t)) ∨
    ReachesMax p.maxSize (sumOver (at' v) s t)
  size s t := sumOver (at' v) s t
  minSize := p.minSize
  thrOf es := match es.getLast? with
    | none => .ok (initThr p r)
    | some e => if buyVols b v e = [] ∨ sellVols b v e = [] then .error .indexError
        else .ok (some (runsThr p b v es e))

end FinML.Bars
