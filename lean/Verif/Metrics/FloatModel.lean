import Verif.Metrics.Model
import Verif.Py.Float

/-!
# Time-weighted return with infinities and NaN

`Verif/Metrics/Model.lean` stops at a period that begins with a balance of zero; here the division is that of numpy.
-/

namespace FinML.Metrics

variable {K : Type} [Field K] [LinearOrder K]

/-- The returns of `compute_time_weighted_return`, metrics.py:65-67, in floats.  The first one is NaN (`shift(1)`). -/
def twrReturnsF : List (K × K) → List (Flt K)
  | [] => []
  | (v, c) :: rest => .nan :: (rest.zip ((v, c) :: rest)).map fun x =>
      Flt.div (.fin (x.1.1 - (x.2.1 + x.2.2))) (.fin (x.2.1 + x.2.2))

/-- `Series.product()`, metrics.py:68, which skips NaN. -/
def prodF (l : List (Flt K)) : Flt K := (l.filter fun x => !x.isNan).foldl Flt.mul (.fin 1)

/-- `compute_time_weighted_return`, metrics.py:56-68, in floats. -/
def timeWeightedReturnF (rows : List (K × K)) : Flt K :=
  Flt.sub (prodF ((twrReturnsF rows).map fun r => Flt.add (.fin 1) r)) (.fin 1)

end FinML.Metrics
