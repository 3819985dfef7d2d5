import Mathlib.Algebra.Order.Field.Basic
import Mathlib.Algebra.Order.Ring.Abs
import Mathlib.Algebra.BigOperators.Group.List.Basic
import Mathlib.Data.List.Sort
import Mathlib.Data.List.Dedup
import Mathlib.Tactic.Linarith
import Mathlib.Tactic.Ring

/-!
# Python, numpy and pandas primitives

Total, computable stand-ins for the library functions the repository calls.  Exceptions are
values of `Except PyErr`.
-/

namespace FinML

/-- Exceptions raised by the modelled code.  `unmodelled` marks a branch whose behaviour is not
modelled (it is never used to make a theorem true: theorems exclude it by an explicit guard). -/
inductive PyErr
  | indexError | valueError | keyError | zeroDivision | assertionError
  | notImplemented | typeError | runtimeError | exception | unmodelled
  deriving DecidableEq, Repr

/-- Result of a Python call: a value or a raised exception. -/
abbrev Py (α : Type) := Except PyErr α

/-- `Except` values are comparable, used to evaluate concrete cases. -/
instance instDecEqPy {α : Type} [DecidableEq α] : DecidableEq (Py α)
  | .ok a, .ok b => if h : a = b then isTrue (by rw [h]) else isFalse (by simpa using h)
  | .error a, .error b => if h : a = b then isTrue (by rw [h]) else isFalse (by simpa using h)
  | .ok _, .error _ => isFalse (by simp)
  | .error _, .ok _ => isFalse (by simp)

/-- `x[-1]` on a Python list or numpy array; bars.py:32, frac_diff.py:35. -/
def pyLast {α : Type} (l : List α) : Py α :=
  match l.getLast? with
  | some x => .ok x
  | none => .error .indexError

/-- `x[i]` for a non-negative index; bars.py:29. -/
def pyGet {α : Type} (l : List α) (i : ℕ) : Py α :=
  match l[i]? with
  | some x => .ok x
  | none => .error .indexError

/-- `np.max` on an array (raises ValueError on an empty one); bars.py:30. -/
def npMax {K : Type} [LinearOrder K] : List K → Py K
  | [] => .error .valueError
  | x :: xs => .ok (xs.foldl max x)

/-- `np.min` on an array (raises ValueError on an empty one); bars.py:31. -/
def npMin {K : Type} [LinearOrder K] : List K → Py K
  | [] => .error .valueError
  | x :: xs => .ok (xs.foldl min x)

/-- Running sums starting from `s`; bars.py:82. -/
def cumsumFrom {K : Type} [Add K] (s : K) : List K → List K
  | [] => []
  | x :: xs => (s + x) :: cumsumFrom (s + x) xs

/-- `Series.cumsum()`; bars.py:82. -/
def cumsum {K : Type} [Add K] [Zero K] (l : List K) : List K := cumsumFrom 0 l

/-- True division of two floats; the result is non-finite (`none`) when the divisor is 0;
basket.py:65. -/
def fdiv {K : Type} [Field K] [DecidableEq K] (a b : K) : Option K :=
  if b = 0 then none else some (a / b)

/-- `index.searchsorted(v)` (side='left') on a sorted index: the number of leading entries `< v`;
time_series.py:41, 57. -/
def searchLeft {T : Type} [LinearOrder T] (l : List T) (v : T) : ℕ :=
  (l.takeWhile (· < v)).length

/-- `index.searchsorted(v, side='right')` on a sorted index; cross_validation.py:114. -/
def searchRight {T : Type} [LinearOrder T] (l : List T) (v : T) : ℕ :=
  (l.takeWhile (· ≤ v)).length

/-- `df.groupby(key)`: group keys in increasing order; inside a group the original order is kept;
bars.py:44. -/
def groupBy {ι α : Type} [LinearOrder ι] (ids : List ι) (xs : List α) : List (ι × List α) :=
  (ids.dedup.insertionSort (· ≤ ·)).map fun k =>
    (k, ((ids.zip xs).filter fun p => p.1 = k).map Prod.snd)

end FinML
