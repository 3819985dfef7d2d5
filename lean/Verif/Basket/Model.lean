import Verif.Py.Basic
import Mathlib.Algebra.BigOperators.Fin
import Mathlib.Data.Fintype.BigOperators

/-!
# Model of `financial_ml/data_structures/basket.py`

Tables have one row per bar (a natural number below `num`) and one column per instrument
(`Fin m`).  A non-finite float (inf or NaN) is `none`.
-/

namespace FinML.Basket

variable {K : Type} [Field K] [LinearOrder K] [IsStrictOrderedRing K]

/-! ## basket_to_etf -/

/-- Arguments of `basket_to_etf`, basket.py:13-21.  `num` is `weights.shape[0]`, `m` is
`weights.shape[1]`; rows at or beyond `num` do not exist and are never read. -/
structure Input (K : Type) (m : ℕ) where
  num : ℕ
  weights : ℕ → Fin m → K
  opens : ℕ → Fin m → K
  closes : ℕ → Fin m → K
  fx : ℕ → Fin m → K
  volumes : ℕ → Fin m → K
  dividends : ℕ → Fin m → K
  rebal : List ℤ

variable {m : ℕ}

/-- Product of two floats; non-finite as soon as one factor is (simplified: `inf*0` and `inf*1` are
not told apart); basket.py:47-61. -/
def omul (a b : Option K) : Option K := a.bind fun x => b.map fun y => x * y

/-- Sum of two floats; basket.py:47-61. -/
def oadd (a b : Option K) : Option K := a.bind fun x => b.map fun y => x + y

/-- Quotient of two floats; non-finite when the divisor is 0; basket.py:47-61. -/
def odiv (a b : Option K) : Option K := a.bind fun x => b.bind fun y => fdiv x y

/-- `row.sum()` of a numpy row; basket.py:47-61. -/
def osum (row : Fin m → Option K) : Option K := (List.ofFn row).foldr oadd (some 0)

/-- `sum_abs_weights.iloc[t]`, basket.py:40. -/
def sumAbs (w : Fin m → K) : K := (List.ofFn fun i => |w i|).sum

/-- `is_after_rebalancing[t]`, basket.py:42. -/
def isAfter (inp : Input K m) (t : ℕ) : Bool := (inp.rebal.map (· + 1)).contains (t : ℤ)

/-- `net_val_changes[t]`, basket.py:50-53: open-to-close after a rebalance, else the change of the
close (0 on the first bar), plus the dividend. -/
def netChange (inp : Input K m) (t : ℕ) (i : Fin m) : K :=
  let barToBar := match t with
    | 0 => 0
    | s + 1 => inp.closes (s + 1) i - inp.closes s i
  (if isAfter inp t then inp.closes t i - inp.opens t i else barToBar) + inp.dividends t i

/-- Value and holdings at one bar; basket.py:44-46. -/
structure State (K : Type) (m : ℕ) where
  value : Option K
  holdings : Fin m → Option K

/-- `basket_vals[0]`, `holdings[0]`, basket.py:44-48. -/
def initState (inp : Input K m) : State K m :=
  { value := some 1
    holdings := fun i =>
      odiv (odiv (omul (some (inp.weights 0 i)) (some 1)) (some (sumAbs (inp.weights 0))))
        (some (inp.closes 0 i * inp.fx 0 i)) }

/-- Body of the loop, basket.py:55-63. -/
def stepState (inp : Input K m) (t : ℕ) (s : State K m) : State K m :=
  let v := oadd s.value (osum fun i =>
    omul (omul (s.holdings i) (some (netChange inp t i))) (some (inp.fx t i)))
  { value := v
    holdings :=
      if t + 1 < inp.num ∧ (t : ℤ) ∈ inp.rebal then
        fun i => odiv (odiv (omul (some (inp.weights t i)) v) (some (sumAbs (inp.weights t))))
          (some (inp.opens (t + 1) i * inp.fx t i))
      else s.holdings }

/-- State after bar `t`; basket.py:55-63. -/
def stateAt (inp : Input K m) : ℕ → State K m
  | 0 => initState inp
  | t + 1 => stepState inp (t + 1) (stateAt inp t)

/-- Floats with infinities, for the volume column; basket.py:65. -/
inductive Flt (K : Type)
  | nan | ninf | fin (x : K) | pinf
  deriving DecidableEq

/-- `v / abs(h)`.  A non-finite holding is reported as NaN (simplified: v/inf is 0 in numpy);
basket.py:65. -/
def volRatio (v : K) : Option K → Flt K
  | none => .nan
  | some h => if h = 0 then (if 0 < v then .pinf else if v < 0 then .ninf else .nan)
              else .fin (v / |h|)

/-- Minimum of two floats as `np.min` takes it: NaN wins; basket.py:65. -/
def Flt.min : Flt K → Flt K → Flt K
  | .nan, _ => .nan
  | _, .nan => .nan
  | .ninf, _ => .ninf
  | _, .ninf => .ninf
  | .pinf, b => b
  | a, .pinf => a
  | .fin x, .fin y => .fin (Min.min x y)

/-- Row of the volume column, basket.py:65. -/
def volumeAt (inp : Input K m) (t : ℕ) : Flt K :=
  (List.ofFn fun i => volRatio (inp.volumes t i) ((stateAt inp t).holdings i)).foldr Flt.min .pinf

/-- `basket_to_etf`, basket.py:13-66: the CLOSE and VOLUME columns.  No bars: `basket_vals[0]`
raises IndexError; no instruments: `np.min` over an empty axis raises ValueError. -/
def basketToEtf (inp : Input K m) : Py (List (Option K) × List (Flt K)) :=
  if inp.num = 0 then .error .indexError
  else if m = 0 then .error .valueError
  else .ok ((List.range inp.num).map fun t => (stateAt inp t).value,
            (List.range inp.num).map (volumeAt inp))

/-! ## Rolled series -/

/-- Columns of the bar frame (`BarCol`, constants.py:11-18). -/
inductive Col
  | open | high | low | close | volume | vwap
  deriving DecidableEq, Repr

/-- Bar frame with a unique index: every column has one entry per bar; basket.py:69-71. -/
abbrev Frame (K : Type) := Col → List K

/-- `contracts.drop_duplicates(keep='first').index[1:]` (basket.py:76) as positions: the bars whose
contract did not occur before, except the first bar. -/
def rollAt {C : Type} [DecidableEq C] (contracts : List C) (i : ℕ) : Bool :=
  match contracts[i]? with
  | none => false
  | some c => decide (0 < i) && !(contracts.take i).contains c

/-- The gap written at position `i`, basket.py:77-80. -/
def rawGap {C : Type} [DecidableEq C] (bars : Frame K) (contracts : List C) (i : ℕ) : Py K :=
  if rollAt contracts i then do
    let o ← pyGet (bars .open) i
    let c ← pyGet (bars .close) (i - 1)
    return o - c
  else .ok 0

/-- `gaps.iloc[-2]`; basket.py:83. -/
def ilocM2 (l : List K) : Py K := if l.length < 2 then .error .indexError else pyGet l (l.length - 2)

/-- `_compute_roll_gaps`, basket.py:69-84. -/
def computeRollGaps {C : Type} [DecidableEq C] (bars : Frame K) (contracts : List C)
    (matchEnd : Bool) : Py (List K) := do
  let raw ← (List.range (bars .close).length).mapM (rawGap bars contracts)
  let gaps := cumsum raw
  if matchEnd then
    let g ← ilocM2 gaps
    return gaps.map (· - g)
  else return gaps

/-- `res[col] -= gaps`, basket.py:105-106. -/
def subCol (gaps : List K) (res : Frame K) (col : Col) : Frame K :=
  fun c => if c = col then List.zipWith (· - ·) (res col) gaps else res c

/-- `returns` without the first entry: `res.close.diff() / bars.close.shift(1)`, basket.py:108. -/
def rollReturns (adj raw : List K) : List K :=
  (List.range (adj.length - 1)).map fun i : ℕ =>
    (adj.getD (i + 1) 0 - adj.getD i 0) / raw.getD i 0

/-- Running products (`cumprod`) starting from `s`; basket.py:110. -/
def cumprodFrom (s : K) : List K → List K
  | [] => []
  | x :: xs => (s * x) :: cumprodFrom (s * x) xs

/-- The column RET_PRICES, basket.py:107-110.  A zero raw close before the last bar makes the
returns non-finite and is not modelled; an empty frame raises IndexError at `returns.iloc[0]`. -/
def retPrices (adj raw : List K) : Py (List K) :=
  if adj = [] then .error .indexError
  else if (0 : K) ∈ raw.dropLast then .error .unmodelled
  else .ok (cumprodFrom 1 (((0 : K) :: rollReturns adj raw).map fun r => 1 + r))

/-- `adjust_rolled_series`, basket.py:87-111: the adjusted frame and the RET_PRICES column (computed
always here; the code adds it only with `non_negative=True`). -/
def adjustRolledSeries {C : Type} [DecidableEq C] (bars : Frame K) (contracts : List C)
    (adjustColumns : List Col) (matchEnd : Bool) : Py (Frame K) := do
  let gaps ← computeRollGaps bars contracts matchEnd
  return adjustColumns.foldl (subCol gaps) bars

/-- `adjust_rolled_series(..., non_negative=True)[RET_PRICES]`; basket.py:107-110. -/
def rolledRetPrices {C : Type} [DecidableEq C] (bars : Frame K) (contracts : List C)
    (adjustColumns : List Col) (matchEnd : Bool) : Py (List K) := do
  let res ← adjustRolledSeries bars contracts adjustColumns matchEnd
  retPrices (res .close) (bars .close)

end FinML.Basket
