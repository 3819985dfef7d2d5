import Mathlib.Algebra.Order.Ring.Abs
import Mathlib.Algebra.Order.Field.Basic

/-!
# Specification of the CUSUM filter

Written from the text of the properties, without the loop of the model.
-/

namespace FinML.Filters

variable {K : Type} [Field K] [LinearOrder K]

/-- The series never moves by more than `thr` between two positions of `[a, b)`. -/
def Quiet (x : ℕ → K) (thr : K) (a b : ℕ) : Prop :=
  ∀ s t, a ≤ s → s < t → t < b → |x t - x s| ≤ thr

/-- `ps` are the events of a series of length `n` whose last reset was at `r`: the next event is the
first position that is more than `thr` away from an earlier one since the reset. -/
def Segmented (x : ℕ → K) (thr : K) (n : ℕ) : ℕ → List ℕ → Prop
  | r, [] => Quiet x thr r n
  | r, p :: ps => r < p ∧ p < n ∧ Quiet x thr r p ∧ (∃ s, r ≤ s ∧ s < p ∧ thr < |x p - x s|) ∧
      Segmented x thr n p ps

end FinML.Filters
