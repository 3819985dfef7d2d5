import Verif.Labels.Model
import Verif.Py.Float

/-!
# The triple barriers with infinities and NaN, triple_barrier.py:27-58

`Verif/Labels/Model.lean` stops at a start price of zero; here the division is that of numpy.
-/

namespace FinML.Labels

variable {K : Type} [Field K] [LinearOrder K]

/-- A cell as a float; triple_barrier.py:29-32. -/
def fltOf : Option K → Flt K
  | some x => .fin x
  | none => .nan

/-- `a < b` on floats, false with a NaN; triple_barrier.py:46-47. -/
def ltF : Flt K → Flt K → Bool
  | .fin x, .fin y => decide (x < y)
  | .negInf, .fin _ => true
  | .negInf, .posInf => true
  | .fin _, .posInf => true
  | _, _ => false

/-- Columns added to the events frame, triple_barrier.py:48-58; the return is a float. -/
structure OutcomeF (K : Type) where
  ptTime : Option ℤ
  slTime : Option ℤ
  endTime : ℤ
  ret : Flt K
  deriving DecidableEq, Repr

/-- `price/start_price - 1`, triple_barrier.py:39-40, 52. -/
def retF (startPrice price : Option K) : Flt K := Flt.sub (Flt.div (fltOf price) (fltOf startPrice)) (.fin 1)

/-- `path_pt_returns`, triple_barrier.py:37-43. -/
def ptPathF (path : List (Row K)) (startPrice : Option K) (side : ℤ) : List (ℤ × Flt K) :=
  path.map fun r => (r.time, if side = 1 then retF startPrice r.high else Flt.neg (retF startPrice r.low))

/-- `path_sl_returns`, triple_barrier.py:37-44. -/
def slPathF (path : List (Row K)) (startPrice : Option K) (side : ℤ) : List (ℤ × Flt K) :=
  path.map fun r => (r.time, if side = 1 then retF startPrice r.low else Flt.neg (retF startPrice r.high))

/-- Body of the loop, triple_barrier.py:35-58, in floats; see `evalEvent`. -/
def evalEventF (prices : List (Row K)) (ptMul slMul : K) (e : Event K) (expiry : ℤ) : Py (OutcomeF K) := do
  let startRow ← rowAt prices e.start
  let startPrice := startRow.op
  let path := prices.filter fun r => e.start ≤ r.time ∧ r.time ≤ expiry
  let side ← match e.side with
    | some s => (.ok s : Py ℤ)
    | none => .error .valueError
  if ¬ (side = -1 ∨ side = 1) then throw .assertionError
  let pt := ptPathF path startPrice side
  let sl := slPathF path startPrice side
  let ptTime := minTime ((pt.filter fun p => ltF (fltOf (ptLimit ptMul e)) p.2).map Prod.fst)
  let slTime := minTime ((sl.filter fun p => ltF p.2 (fltOf (slLimit slMul e))).map Prod.fst)
  match ptTime, slTime with
  | none, none => do
    let c ← rowAt prices expiry
    return ⟨none, none, expiry, retF startPrice c.close⟩
  | some p, none => do
    let x ← atLabel pt p
    return ⟨some p, none, p, x⟩
  | none, some s => do
    let x ← atLabel sl s
    return ⟨none, some s, s, x⟩
  | some p, some s =>
    if p < s then do
      let x ← atLabel pt p
      return ⟨some p, some s, p, x⟩
    else do
      let x ← atLabel sl s
      return ⟨some p, some s, s, x⟩

end FinML.Labels
