import Verif.Metrics.Model

/-! # Time-weighted return with missing values (metrics.py:56-68); NaN is `none`. -/

namespace FinML.Metrics

variable {K : Type} [Field K] [LinearOrder K] [IsStrictOrderedRing K]

/-- The return to the value `v` from the row before, metrics.py:65-67: NaN if the value or the balance is.  A division by zero is
not finite and not modelled. -/
def twrReturnM (v : Option K) (before : Option K × Option K) : Py (Option K) :=
  match v, before.1, before.2 with
  | some x, some w, some c => if w + c = 0 then .error .unmodelled else .ok (some ((x - (w + c)) / (w + c)))
  | _, _, _ => .ok none

/-- The returns, metrics.py:65-67. -/
def twrReturnsM : List (Option K × Option K) → Py (List (Option K))
  | [] => return []
  | r :: rest => do
    let rs ← (rest.zip (r :: rest)).mapM fun x => twrReturnM x.1.1 x.2
    return none :: rs

/-- `compute_time_weighted_return`, metrics.py:56-68; `product` skips NaN.  A row is `(BEGIN_VALUE, CASHFLOW)`. -/
def timeWeightedReturnM (rows : List (Option K × Option K)) : Py K := do
  let rets ← twrReturnsM rows
  return ((rets.filterMap id).map fun r => 1 + r).prod - 1

end FinML.Metrics
