import Mathlib.Algebra.Order.Field.Basic

/-!
# Floats with infinities and NaN

Finite numbers are exact; a zero divisor counts as `+0` (the sign of a zero is not kept).
-/

namespace FinML

/-- A float: finite, infinite or NaN; metrics.py:67, HRP.py:53-54, basket.py:108, triple_barrier.py:37-44. -/
inductive Flt (K : Type) where
  | fin (x : K)
  | posInf
  | negInf
  | nan
  deriving DecidableEq, Repr

namespace Flt

variable {K : Type}

/-- `np.isnan`; metrics.py:68. -/
def isNan : Flt K → Bool
  | .nan => true
  | _ => false

section
variable [Field K] [LinearOrder K]

/-- Addition; metrics.py:68. -/
def add : Flt K → Flt K → Flt K
  | .fin x, .fin y => .fin (x + y)
  | .nan, _ => .nan
  | _, .nan => .nan
  | .posInf, .negInf => .nan
  | .negInf, .posInf => .nan
  | .posInf, _ => .posInf
  | .negInf, _ => .negInf
  | _, .posInf => .posInf
  | _, .negInf => .negInf

/-- The opposite; triple_barrier.py:41. -/
def neg : Flt K → Flt K
  | .fin x => .fin (-x)
  | .posInf => .negInf
  | .negInf => .posInf
  | .nan => .nan

/-- Subtraction; metrics.py:68. -/
def sub (a b : Flt K) : Flt K := add a (neg b)

/-- An infinity of the sign of `x`, NaN for zero: `x * inf` and, with the zero counted as `+0`, `x / 0`; metrics.py:67. -/
def infOf (x : K) : Flt K := if 0 < x then .posInf else if x < 0 then .negInf else .nan

/-- Multiplication; metrics.py:68. -/
def mul : Flt K → Flt K → Flt K
  | .fin x, .fin y => .fin (x * y)
  | .nan, _ => .nan
  | _, .nan => .nan
  | .fin x, .posInf => infOf x
  | .fin x, .negInf => infOf (-x)
  | .posInf, .fin y => infOf y
  | .negInf, .fin y => infOf (-y)
  | .posInf, .posInf => .posInf
  | .negInf, .negInf => .posInf
  | .posInf, .negInf => .negInf
  | .negInf, .posInf => .negInf

/-- Division in numpy, a zero divisor counting as `+0`; metrics.py:67. -/
def div : Flt K → Flt K → Flt K
  | .nan, _ => .nan
  | _, .nan => .nan
  | .fin x, .fin y => if y = 0 then infOf x else .fin (x / y)
  | .fin _, .posInf => .fin 0
  | .fin _, .negInf => .fin 0
  | .posInf, .fin y => if y < 0 then .negInf else .posInf
  | .negInf, .fin y => if y < 0 then .posInf else .negInf
  | .posInf, .posInf => .nan
  | .posInf, .negInf => .nan
  | .negInf, .posInf => .nan
  | .negInf, .negInf => .nan

end

end Flt

end FinML
