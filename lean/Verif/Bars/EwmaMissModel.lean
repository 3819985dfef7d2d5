import Verif.Bars.Model

/-! # `fast_ewma` of a series with missing values (time_series.py:6-31); NaN is `none`. -/

namespace FinML.Bars

variable {K : Type} [Field K] [LinearOrder K]

/-- `old * c + x`; time_series.py:24. -/
def scaleAddM (old : Option K) (c : K) (x : Option K) : Option K := old.bind fun o => x.map fun y => o * c + y

/-- Loop with `adjust=True`, time_series.py:22-25; the weights do not depend on the values. -/
def ewmaAdjLoopM (alpha : K) : ℕ → K → Option K → List (Option K) → Py (List (Option K))
  | _, _, _, [] => .ok []
  | i, w, old, x :: xs => do
    let w' := w + (1 - alpha) ^ i
    let old' := scaleAddM old (1 - alpha) x
    if w' = 0 then throw .zeroDivision
    let rest ← ewmaAdjLoopM alpha (i + 1) w' old' xs
    return old'.map (· / w') :: rest

/-- Loop with `adjust=False`, time_series.py:29-30. -/
def ewmaRecLoopM (alpha : K) (prev : Option K) : List (Option K) → List (Option K)
  | [] => []
  | x :: xs =>
    let e := x.bind fun y => prev.map fun p => y * alpha + p * (1 - alpha)
    e :: ewmaRecLoopM alpha e xs

/-- `fast_ewma`, time_series.py:6-31. -/
def fastEwmaM (series : List (Option K)) (span : ℕ) (adjust : Bool) : Py (List (Option K)) :=
  let alpha : K := 2 / ((span : K) + 1)
  match series with
  | [] => .ok []
  | x :: xs =>
    if adjust then do
      let rest ← ewmaAdjLoopM alpha 1 1 x xs
      return x :: rest
    else .ok (x :: ewmaRecLoopM alpha x xs)

end FinML.Bars
