import Verif.FracDiff.Model
import Mathlib.Algebra.BigOperators.Intervals
import Mathlib.Data.Nat.Factorial.Basic

/-! # Specification of fractional differencing -/

namespace FinML.FracDiff

variable {K : Type} [Field K] [LinearOrder K]

/-- Generalised binomial coefficient `d (d-1) … (d-k+1) / k!`. -/
def gbinom (d : K) (k : ℕ) : K := (∏ j ∈ Finset.range k, (d - j)) / (k.factorial : K)

/-- Coefficient of lag `k` in `(1 - L)^d`. -/
def lagWeight (d : K) (k : ℕ) : K := (-1) ^ k * gbinom d k

/-- Observation `i` differenced with all earlier observations. -/
def diffAt (d : K) (x : List K) (i : ℕ) : K :=
  ∑ k ∈ Finset.range (i + 1), lagWeight d k * x.getD (i - k) 0

/-- Observation `i` differenced with the lags `0 … width`. -/
def diffWidth (d : K) (width : ℕ) (x : List K) (i : ℕ) : K :=
  ∑ k ∈ Finset.range (width + 1), lagWeight d k * x.getD (i - k) 0

/-- The whole differenced series. -/
def differenced (d : K) (x : List K) : List K := (List.range x.length).map (diffAt d x)

/-- A frame without missing values. -/
def completeFrame (index : List ℤ) (cols : List (String × List K)) : Frame K :=
  ⟨index, cols.map fun c => (c.1, c.2.map some)⟩

/-- A frame with strictly increasing index, at least one column, and columns of the right length. -/
structure Valid (index : List ℤ) (cols : List (String × List K)) : Prop where
  sorted : index.Pairwise (· < ·)
  cols_ne : cols ≠ []
  len : ∀ c ∈ cols, c.2.length = index.length

/-- Weight given to the lags after `i`, out of `n` lags. -/
def tailLoss (d : K) (n i : ℕ) : K := ∑ k ∈ Finset.Ico (i + 1) n, |lagWeight d k|

/-- Total absolute weight of `n` lags. -/
def totalWeight (d : K) (n : ℕ) : K := ∑ k ∈ Finset.range n, |lagWeight d k|

/-- The number of lags kept by the fixed width method: every kept lag after lag 0 has weight at least
`thr`, and the next lag is below `thr` or beyond the length of the series. -/
def IsWidth (d thr : K) (n width : ℕ) : Prop :=
  width + 1 ≤ max 1 n ∧ (∀ k, 1 ≤ k → k ≤ width → thr ≤ |lagWeight d k|) ∧
    (width + 1 < n → |lagWeight d (width + 1)| < thr)

/-- Map every column. -/
def mapCols (f : List K → List K) (cols : List (String × List K)) : List (String × List K) :=
  cols.map fun c => (c.1, f c.2)

end FinML.FracDiff
