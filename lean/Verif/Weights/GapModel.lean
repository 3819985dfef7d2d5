import Verif.Weights.Model
import Mathlib.Data.List.ReduceOption

/-! # Weights by returns with missing prices (weighting.py:112-139); NaN is `none`. -/

namespace FinML.Weights

/-- `np.log(bars).diff()`, weighting.py:119: NaN if this price or the one before is. -/
noncomputable def logReturnsM (prev : Option ℝ) : Series (Option ℝ) → Series (Option ℝ)
  | [] => []
  | (t, x) :: bars => (t, x.bind fun y => prev.map fun p => Real.log y - Real.log p) :: logReturnsM x bars

open Classical in
/-- `compute_weights_by_returns`, weighting.py:127-139; known prices must be positive. -/
noncomputable def computeWeightsByReturnsM (eventTimes : Series (Option ℤ)) (counts : Series ℕ)
    (bars : Series (Option ℝ)) : Py (Series (Option ℝ)) := do
  if ¬ ∀ p ∈ bars, ∀ x, p.2 = some x → 0 < x then throw .unmodelled
  else
    let events ← closedEvents eventTimes
    let raw ← returnAttributions events counts (logReturnsM none bars)
    return raw.map fun p => (p.1, (fdiv (raw.length : ℝ) (raw.map Prod.snd).sum).map fun f => p.2 * f)

end FinML.Weights
