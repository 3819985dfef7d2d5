import Verif.Basket.Model
import Verif.Py.Float

/-!
# Model of `basket_to_etf` with infinities and NaN, basket.py:13-66

As `Verif/Basket/Model.lean`, which calls every value `none` that is not a number.  The tables hold numbers; a zero divisor
counts as `+0`.
-/

namespace FinML.Basket

variable {K : Type} [Field K] [LinearOrder K] {m : ℕ}

/-- `np.abs`; basket.py:65. -/
def fltAbs : FinML.Flt K → FinML.Flt K
  | .fin x => .fin |x|
  | .nan => .nan
  | _ => .posInf

/-- Minimum of two floats as `np.min` takes it: NaN wins; basket.py:65. -/
def fltMin : FinML.Flt K → FinML.Flt K → FinML.Flt K
  | .nan, _ => .nan
  | _, .nan => .nan
  | .negInf, _ => .negInf
  | _, .negInf => .negInf
  | .posInf, b => b
  | a, .posInf => a
  | .fin x, .fin y => .fin (Min.min x y)

/-- `row.sum()` of a numpy row; basket.py:56-57. -/
def fltSum (row : Fin m → FinML.Flt K) : FinML.Flt K := (List.ofFn row).foldr FinML.Flt.add (.fin 0)

/-- Value and holdings at one bar; basket.py:44-46. -/
structure StateF (K : Type) (m : ℕ) where
  value : FinML.Flt K
  holdings : Fin m → FinML.Flt K

/-- The units bought with the value `v` at prices `p` (in dollars); basket.py:47-48, 60-61. -/
def unitsF (w : Fin m → K) (v : FinML.Flt K) (p : Fin m → K) (i : Fin m) : FinML.Flt K :=
  FinML.Flt.div (FinML.Flt.div (FinML.Flt.mul (.fin (w i)) v) (.fin (List.ofFn fun i => |w i|).sum)) (.fin (p i))

/-- `basket_vals[0]`, `holdings[0]`, basket.py:44-48. -/
def initStateF (inp : Input K m) : StateF K m :=
  { value := .fin 1
    holdings := unitsF (inp.weights 0) (.fin 1) fun i => inp.closes 0 i * inp.fx 0 i }

/-- Body of the loop, basket.py:55-63. -/
def stepStateF (inp : Input K m) (t : ℕ) (s : StateF K m) : StateF K m :=
  let v := FinML.Flt.add s.value (fltSum fun i =>
    FinML.Flt.mul (FinML.Flt.mul (s.holdings i) (.fin (netChange inp t i))) (.fin (inp.fx t i)))
  { value := v
    holdings :=
      if t + 1 < inp.num ∧ (t : ℤ) ∈ inp.rebal then
        unitsF (inp.weights t) v fun i => inp.opens (t + 1) i * inp.fx t i
      else s.holdings }

/-- State after bar `t`; basket.py:55-63. -/
def stateAtF (inp : Input K m) : ℕ → StateF K m
  | 0 => initStateF inp
  | t + 1 => stepStateF inp (t + 1) (stateAtF inp t)

/-- Row of the volume column, basket.py:65. -/
def volumeAtF (inp : Input K m) (t : ℕ) : FinML.Flt K :=
  (List.ofFn fun i => FinML.Flt.div (.fin (inp.volumes t i)) (fltAbs ((stateAtF inp t).holdings i))).foldr fltMin .posInf

/-- `basket_to_etf`, basket.py:13-66: the CLOSE and VOLUME columns.  No bars: `basket_vals[0]` raises IndexError; no
instruments: `np.min` over an empty axis raises ValueError. -/
def basketToEtfF (inp : Input K m) : Py (List (FinML.Flt K) × List (FinML.Flt K)) :=
  if inp.num = 0 then .error .indexError
  else if m = 0 then .error .valueError
  else .ok ((List.range inp.num).map fun t => (stateAtF inp t).value, (List.range inp.num).map (volumeAtF inp))

end FinML.Basket
