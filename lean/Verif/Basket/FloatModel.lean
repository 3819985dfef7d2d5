import Verif.Basket.Model
import Verif.Py.Float

/-!
# Returns of a rolled series with infinities and NaN, basket.py:107-110

`Verif/Basket/Model.lean` stops at a raw close of zero; here the division is that of numpy.
-/

namespace FinML.Basket

variable {K : Type} [Field K] [LinearOrder K]

/-- `returns` without the first entry: `res.close.diff() / bars.close.shift(1)`, basket.py:108. -/
def rollReturnsF (adj raw : List K) : List (FinML.Flt K) :=
  (List.range (adj.length - 1)).map fun i : ℕ =>
    FinML.Flt.div (.fin (adj.getD (i + 1) 0 - adj.getD i 0)) (.fin (raw.getD i 0))

/-- `Series.cumprod()` from a product `s`, basket.py:110: pandas leaves a NaN in place and goes on as if it were 1. -/
def cumprodFromF (s : FinML.Flt K) : List (FinML.Flt K) → List (FinML.Flt K)
  | [] => []
  | x :: xs => if x.isNan then .nan :: cumprodFromF s xs else FinML.Flt.mul s x :: cumprodFromF (FinML.Flt.mul s x) xs

/-- The column RET_PRICES, basket.py:107-110. -/
def retPricesF (adj raw : List K) : Py (List (FinML.Flt K)) :=
  if adj = [] then .error .indexError
  else .ok (cumprodFromF (.fin 1) ((.fin 0 :: rollReturnsF adj raw).map fun r => FinML.Flt.add (.fin 1) r))

/-- `adjust_rolled_series(..., non_negative=True)[RET_PRICES]`, basket.py:107-110, in floats. -/
def rolledRetPricesF {C : Type} [DecidableEq C] (bars : Frame K) (contracts : List C)
    (adjustColumns : List Col) (matchEnd : Bool) : Py (List (FinML.Flt K)) := do
  let res ← adjustRolledSeries bars contracts adjustColumns matchEnd
  retPricesF (res .close) (bars .close)

end FinML.Basket
