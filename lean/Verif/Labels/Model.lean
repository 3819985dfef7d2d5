import Verif.Py.Basic

/-!
# Model of `financial_ml/labeling/triple_barrier.py` (barriers and labels)

Times are integers, `NaT` and `NaN` are `none`.  A price table is a list of rows in index order.
-/

namespace FinML.Labels

variable {K : Type} [Field K] [LinearOrder K] [IsStrictOrderedRing K]

/-- One row of the price frame; a cell can be NaN; triple_barrier.py:29-32. -/
structure Row (K : Type) where
  time : ℤ
  op : Option K
  high : Option K
  low : Option K
  close : Option K
  deriving DecidableEq, Repr

/-- One row of the events frame, triple_barrier.py:13-17.  Simplified: a side is an int (the code
truncates a float with `int`). -/
structure Event (K : Type) where
  start : ℤ
  expiry : Option ℤ
  target : Option K
  side : Option ℤ
  deriving DecidableEq, Repr

/-- Columns added to the events frame, triple_barrier.py:48-58. -/
structure Outcome (K : Type) where
  ptTime : Option ℤ
  slTime : Option ℤ
  endTime : ℤ
  ret : Option K
  deriving DecidableEq, Repr

/-- `index.min()`, NaT on an empty index; triple_barrier.py:46-47. -/
def minTime : List ℤ → Option ℤ
  | [] => none
  | t :: ts => some (ts.foldl min t)

/-- `x > limit` on floats; false with a NaN; triple_barrier.py:46, 88. -/
def gtNan (x limit : Option K) : Bool :=
  match x, limit with
  | some a, some b => decide (b < a)
  | _, _ => false

/-- `x < limit` on floats; false with a NaN; triple_barrier.py:47. -/
def ltNan (x limit : Option K) : Bool :=
  match x, limit with
  | some a, some b => decide (a < b)
  | _, _ => false

/-- `price/start_price - 1`, triple_barrier.py:39-40, 52.  A zero start price is excluded before. -/
def retOf (startPrice price : Option K) : Option K :=
  startPrice.bind fun s => price.map fun p => p / s - 1

/-- `-x` on floats; triple_barrier.py:43-44. -/
def negNan (x : Option K) : Option K := x.map fun y => -y

/-- Value of a labelled series at a label; triple_barrier.py:46-47, 87. -/
def atLabel {α : Type} (l : List (ℤ × α)) (t : ℤ) : Py α :=
  match l.find? fun p => p.1 = t with
  | some p => .ok p.2
  | none => .error .keyError

/-- Lookup of a price row by label (`.loc`), KeyError if absent; triple_barrier.py:36. -/
def rowAt (prices : List (Row K)) (t : ℤ) : Py (Row K) :=
  match prices.find? fun r => r.time = t with
  | some r => .ok r
  | none => .error .keyError

/-- Barrier limits of an event, triple_barrier.py:27-28: `none` is NaN (multiplier 0 or NaN target). -/
def ptLimit (ptMul : K) (e : Event K) : Option K :=
  if 0 < ptMul then e.target.map fun x => ptMul * x else none

/-- See `ptLimit`; triple_barrier.py:28. -/
def slLimit (slMul : K) (e : Event K) : Option K :=
  if 0 < slMul then e.target.map fun x => -slMul * x else none

/-- The profit-taking path `path_pt_returns`, triple_barrier.py:37-43, as (time, return). -/
def ptPath (path : List (Row K)) (startPrice : Option K) (side : ℤ) : List (ℤ × Option K) :=
  path.map fun r => (r.time, if side = 1 then retOf startPrice r.high
                             else negNan (retOf startPrice r.low))

/-- The stop-loss path `path_sl_returns`, triple_barrier.py:37-44. -/
def slPath (path : List (Row K)) (startPrice : Option K) (side : ℤ) : List (ℤ × Option K) :=
  path.map fun r => (r.time, if side = 1 then retOf startPrice r.low
                             else negNan (retOf startPrice r.high))

/-- Last index entry (`prices.index[-1]`); triple_barrier.py:35. -/
def lastTime (prices : List (Row K)) : Py ℤ := do
  let r ← pyLast prices
  return r.time

/-- Body of the loop, triple_barrier.py:35-58, for one event with expiry already filled in.  The
index is assumed sorted, so that a label slice is the sublist of rows with times in between.  A zero
start price (division by zero, infinite returns) is not modelled. -/
def evalEvent (prices : List (Row K)) (ptMul slMul : K) (e : Event K) (expiry : ℤ) :
    Py (Outcome K) := do
  let startRow ← rowAt prices e.start
  let startPrice := startRow.op
  let path := prices.filter fun r => e.start ≤ r.time ∧ r.time ≤ expiry
  let side ← match e.side with
    | some s => (.ok s : Py ℤ)
    | none => .error .valueError
  if ¬ (side = -1 ∨ side = 1) then throw .assertionError
  if startPrice = some 0 then throw .unmodelled
  let pt := ptPath path startPrice side
  let sl := slPath path startPrice side
  let ptTime := minTime ((pt.filter fun p => gtNan p.2 (ptLimit ptMul e)).map Prod.fst)
  let slTime := minTime ((sl.filter fun p => ltNan p.2 (slLimit slMul e)).map Prod.fst)
  match ptTime, slTime with
  | none, none => do
    let c ← rowAt prices expiry
    return ⟨none, none, expiry, retOf startPrice c.close⟩
  | some p, none => do
    let x ← atLabel pt p
    return ⟨some p, none, p, x⟩
  | none, some s => do
    let x ← atLabel sl s
    return ⟨none, some s, s, x⟩
  | some p, some s =>
    if p < s then do
      let x ← atLabel pt p
      return ⟨some p, some s, p, x⟩
    else do
      let x ← atLabel sl s
      return ⟨some p, some s, s, x⟩

/-- `_get_triple_barrier_returns`, triple_barrier.py:7-60. -/
def tripleBarrier (prices : List (Row K)) (events : List (Event K)) (ptMul slMul : K) :
    Py (List (Event K × Outcome K)) := do
  if ptMul < 0 then throw .assertionError
  if slMul < 0 then throw .assertionError
  let last ← lastTime prices
  events.mapM fun e => do
    let o ← evalEvent prices ptMul slMul e (e.expiry.getD last)
    return (e, o)

/-- A Series with an index of times; triple_barrier.py:77-84. -/
abbrev Series (α : Type) := List (ℤ × α)

/-- `prices.reindex(labels, method='bfill')`, triple_barrier.py:93: the row at the label, or the next
one; NaN after the last row. -/
def bfill (prices : List (Row K)) (t : ℤ) : Row K :=
  match prices.find? fun r => t ≤ r.time with
  | some r => { r with time := t }
  | none => ⟨t, none, none, none, none⟩

/-- `price_indices`, triple_barrier.py:92. -/
def priceIndices (prices : List (Row K)) (starts : List ℤ) (expiries : Series (Option ℤ)) : List ℤ :=
  ((prices.map Row.time ++ starts ++ expiries.filterMap Prod.snd).dedup).insertionSort (· ≤ ·)

/-- `get_event_returns`, triple_barrier.py:63-109.  `targets` and `sides` are unique-index Series.
Repeated event starts, and price tables whose index is not strictly increasing, are not modelled
(`reindex` raises or the concat fails).  `expiries = none` is `event_expiries=None`.  Row order of the
result: labels of the expiries first, then labels that only occur in the targets (simplified). -/
def getEventReturns (prices : List (Row K)) (starts : List ℤ) (targets : Series (Option K))
    (ptMul slMul : K) (expiries : Option (Series (Option ℤ))) (minTarget : K)
    (sides : Option (Series ℤ)) : Py (List (Event K × Outcome K)) := do
  if ¬ ((prices.map Row.time).Pairwise (· < ·)) ∨ ¬ starts.Nodup then throw .unmodelled
  let targets1 ← starts.mapM fun t => do
    let x ← atLabel targets t
    return (t, x)
  let targets2 := targets1.filter fun p => gtNan p.2 (some minTarget)
  let expiries1 := expiries.getD (starts.map fun t => (t, none))
  let prices1 := (priceIndices prices starts expiries1).map (bfill prices)
  let sides1 ← match sides with
    | none => (.ok (targets2.map fun p => (p.1, (1 : ℤ))) : Py (Series ℤ))
    | some s => targets2.mapM fun p => do
      let x ← atLabel s p.1
      return (p.1, x)
  let slMul' := if sides.isNone then ptMul else slMul
  let labels := (expiries1.map Prod.fst) ++
    ((targets2.map Prod.fst).filter fun t => ¬ t ∈ expiries1.map Prod.fst)
  let events := labels.map fun t =>
    { start := t
      expiry := ((expiries1.find? fun p => p.1 = t).bind Prod.snd)
      target := ((targets2.find? fun p => p.1 = t).bind Prod.snd)
      side := ((sides1.find? fun p => p.1 = t).map Prod.snd) }
  tripleBarrier prices1 events ptMul slMul'

/-- A row of the table given to `get_event_labels`: EXPIRY, END_TIME, RETURN; triple_barrier.py:117. -/
structure Labelled (K : Type) where
  expiry : Option ℤ
  endTime : Option ℤ
  ret : Option K
  deriving DecidableEq, Repr

/-- `np.sign`; triple_barrier.py:125. -/
def npSign (x : Option K) : Option K :=
  x.map fun y => if 0 < y then 1 else if y < 0 then -1 else 0

/-- `events[RETURN] <= 0`, triple_barrier.py:127 (NaN compares false). -/
def nonPositive : Option K → Bool
  | some x => decide (x ≤ 0)
  | none => false

/-- `events[END_TIME] >= events[EXPIRY]`, triple_barrier.py:129 (NaT compares false). -/
def expired : Option ℤ → Option ℤ → Bool
  | some t, some x => decide (x ≤ t)
  | _, _ => false

/-- The LABEL of one row, triple_barrier.py:125-129. -/
def rowLabel (r : Labelled K) (hasSide cancelExpired : Bool) : Option K :=
  if cancelExpired && expired r.endTime r.expiry then some 0
  else if hasSide && nonPositive r.ret then some 0
  else npSign r.ret

/-- `get_event_labels`, triple_barrier.py:112-131: the kept rows with their LABEL.  `hasSide` says
whether the SIDE column is present. -/
def getEventLabels (rows : List (Labelled K)) (hasSide cancelExpired : Bool) :
    List (Labelled K × Option K) :=
  (rows.filter fun r => r.endTime.isSome).map fun r => (r, rowLabel r hasSide cancelExpired)

end FinML.Labels
