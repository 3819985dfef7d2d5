import Verif.Labels.Model
import Verif.Alloc.DoubleModel

/-!
# The triple barriers in doubles, triple_barrier.py:27-58

`Verif/Labels/Model.lean` computes returns and limits exactly; here every operation goes through a rounding `rd`.
Negation is exact on doubles.
-/

namespace FinML.Labels

/-- `price/start_price - 1`, triple_barrier.py:39-40, 52, with rounded arithmetic. -/
def retR (rd : ℚ → ℚ) (startPrice price : Option ℚ) : Option ℚ :=
  startPrice.bind fun s => price.map fun p => rd (rd (p / s) - 1)

/-- `pt_mulp * target`, triple_barrier.py:27, with rounded arithmetic. -/
def ptLimitR (rd : ℚ → ℚ) (ptMul : ℚ) (e : Event ℚ) : Option ℚ :=
  if 0 < ptMul then e.target.map fun x => rd (ptMul * x) else none

/-- `-sl_mulp * target`, triple_barrier.py:28, with rounded arithmetic. -/
def slLimitR (rd : ℚ → ℚ) (slMul : ℚ) (e : Event ℚ) : Option ℚ :=
  if 0 < slMul then e.target.map fun x => rd (-slMul * x) else none

/-- `path_pt_returns`, triple_barrier.py:37-43, with rounded arithmetic. -/
def ptPathR (rd : ℚ → ℚ) (path : List (Row ℚ)) (startPrice : Option ℚ) (side : ℤ) : List (ℤ × Option ℚ) :=
  path.map fun r => (r.time, if side = 1 then retR rd startPrice r.high
                             else negNan (retR rd startPrice r.low))

/-- `path_sl_returns`, triple_barrier.py:37-44, with rounded arithmetic. -/
def slPathR (rd : ℚ → ℚ) (path : List (Row ℚ)) (startPrice : Option ℚ) (side : ℤ) : List (ℤ × Option ℚ) :=
  path.map fun r => (r.time, if side = 1 then retR rd startPrice r.low
                             else negNan (retR rd startPrice r.high))

/-- Body of the loop, triple_barrier.py:35-58, with rounded arithmetic; see `evalEvent`. -/
def evalEventR (rd : ℚ → ℚ) (prices : List (Row ℚ)) (ptMul slMul : ℚ) (e : Event ℚ) (expiry : ℤ) :
    Py (Outcome ℚ) := do
  let startRow ← rowAt prices e.start
  let startPrice := startRow.op
  let path := prices.filter fun r => e.start ≤ r.time ∧ r.time ≤ expiry
  let side ← match e.side with
    | some s => (.ok s : Py ℤ)
    | none => .error .valueError
  if ¬ (side = -1 ∨ side = 1) then throw .assertionError
  if startPrice = some 0 then throw .unmodelled
  let pt := ptPathR rd path startPrice side
  let sl := slPathR rd path startPrice side
  let ptTime := minTime ((pt.filter fun p => gtNan p.2 (ptLimitR rd ptMul e)).map Prod.fst)
  let slTime := minTime ((sl.filter fun p => ltNan p.2 (slLimitR rd slMul e)).map Prod.fst)
  match ptTime, slTime with
  | none, none => do
    let c ← rowAt prices expiry
    return ⟨none, none, expiry, retR rd startPrice c.close⟩
  | some p, none => do
    let x ← atLabel pt p
    return ⟨some p, none, p, x⟩
  | none, some s => do
    let x ← atLabel sl s
    return ⟨none, some s, s, x⟩
  | some p, some s =>
    if p < s then do
      let x ← atLabel pt p
      return ⟨some p, some s, p, x⟩
    else do
      let x ← atLabel sl s
      return ⟨some p, some s, s, x⟩

end FinML.Labels
