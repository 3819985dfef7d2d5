import Verif.Bars.Model
import Mathlib.Algebra.BigOperators.Group.Finset.Basic
import Mathlib.Algebra.BigOperators.Intervals

/-! # Specification of the exponentially weighted mean -/

namespace FinML.Bars

variable {K : Type} [Field K]

/-- Decay factor of a span: `1 - 2/(span+1)`. -/
def decay (K : Type) [Field K] (span : ℕ) : K := 1 - 2 / ((span : K) + 1)

/-- Exponentially weighted mean of a whole list, newest value last: weights `q^age`. -/
def ewMean (q : K) (l : List K) : K :=
  (∑ k ∈ Finset.range l.length, q ^ k * l.getD (l.length - 1 - k) 0) /
    ∑ k ∈ Finset.range l.length, q ^ k

end FinML.Bars
