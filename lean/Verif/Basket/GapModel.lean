import Verif.Basket.Model

/-!
# `basket_to_etf` with missing prices, basket.py:13-66

Opening and closing prices may be missing (NaN, `none`); the other tables hold numbers.
-/

namespace FinML.Basket

variable {K : Type} [Field K] [LinearOrder K] [IsStrictOrderedRing K] {m : ℕ}

/-- Arguments of `basket_to_etf`, basket.py:13-21, as `Input`. -/
structure InputM (K : Type) (m : ℕ) where
  num : ℕ
  weights : ℕ → Fin m → K
  opens : ℕ → Fin m → Option K
  closes : ℕ → Fin m → Option K
  fx : ℕ → Fin m → K
  volumes : ℕ → Fin m → K
  dividends : ℕ → Fin m → K
  rebal : List ℤ

/-- Difference of two floats; basket.py:50-51. -/
def osubM (a b : Option K) : Option K := a.bind fun x => b.map fun y => x - y

/-- `bar_to_bar_change[t]`, basket.py:51: `fillna(0.0)` also fills the changes to and from a missing close. -/
def barToBarM (inp : InputM K m) (t : ℕ) (i : Fin m) : K :=
  match t with
  | 0 => 0
  | s + 1 => (osubM (inp.closes (s + 1) i) (inp.closes s i)).getD 0

/-- `net_val_changes[t]`, basket.py:50-53. -/
def netChangeM (inp : InputM K m) (t : ℕ) (i : Fin m) : Option K :=
  oadd (if (inp.rebal.map (· + 1)).contains (t : ℤ) then osubM (inp.closes t i) (inp.opens t i)
    else some (barToBarM inp t i)) (some (inp.dividends t i))

/-- `basket_vals[0]`, `holdings[0]`, basket.py:44-48. -/
def initStateM (inp : InputM K m) : State K m :=
  { value := some 1
    holdings := fun i =>
      odiv (odiv (omul (some (inp.weights 0 i)) (some 1)) (some (sumAbs (inp.weights 0))))
        (omul (inp.closes 0 i) (some (inp.fx 0 i))) }

/-- Body of the loop, basket.py:55-63. -/
def stepStateM (inp : InputM K m) (t : ℕ) (s : State K m) : State K m :=
  let v := oadd s.value (osum fun i => omul (omul (s.holdings i) (netChangeM inp t i)) (some (inp.fx t i)))
  { value := v
    holdings :=
      if t + 1 < inp.num ∧ (t : ℤ) ∈ inp.rebal then
        fun i => odiv (odiv (omul (some (inp.weights t i)) v) (some (sumAbs (inp.weights t))))
          (omul (inp.opens (t + 1) i) (some (inp.fx t i)))
      else s.holdings }

/-- State after bar `t`; basket.py:55-63. -/
def stateAtM (inp : InputM K m) : ℕ → State K m
  | 0 => initStateM inp
  | t + 1 => stepStateM inp (t + 1) (stateAtM inp t)

/-- `basket_to_etf`, basket.py:13-66, errors as in `basketToEtf`. -/
def basketToEtfM (inp : InputM K m) : Py (List (Option K) × List (Flt K)) :=
  if inp.num = 0 then .error .indexError
  else if m = 0 then .error .valueError
  else .ok ((List.range inp.num).map fun t => (stateAtM inp t).value,
    (List.range inp.num).map fun t =>
      (List.ofFn fun i => volRatio (inp.volumes t i) ((stateAtM inp t).holdings i)).foldr Flt.min .pinf)

end FinML.Basket
