import Verif.Bars.Model
import Verif.Alloc.DoubleModel

/-!
# `fast_ewma` in doubles, time_series.py:6-31

`Verif/Bars/Model.lean` computes exactly; here every operation goes through a rounding `rd`.  The power
`(1 - alpha)**i` is a parameter `pw`; numba compiles it to the squaring loop `powR` for exponents up to 65536
and to the library function beyond.
-/

namespace FinML.Bars

/-- Repeated squaring with rounding: `n` exponent, `r` result so far; the first argument bounds the number of rounds;
time_series.py:23. -/
def powLoop (rd : ℚ → ℚ) : ℕ → ℚ → ℕ → ℚ → ℚ
  | 0, _, _, r => r
  | fuel + 1, a, n, r =>
    if n = 0 then r
    else powLoop rd fuel (rd (a * a)) (n / 2) (if n % 2 = 1 then rd (r * a) else r)

/-- `a**n` for a double and a non-negative integer as compiled by numba; time_series.py:23. -/
def powR (rd : ℚ → ℚ) (a : ℚ) (n : ℕ) : ℚ := powLoop rd n a n 1

/-- Loop of `fast_ewma` with `adjust=True` (time_series.py:22-25) with rounded arithmetic; `b` is `1 - alpha`. -/
def ewmaAdjLoopR (rd : ℚ → ℚ) (pw : ℚ → ℕ → ℚ) (b : ℚ) : ℕ → ℚ → ℚ → List ℚ → Py (List ℚ)
  | _, _, _, [] => .ok []
  | i, w, old, x :: xs => do
    let w' := rd (w + pw b i)
    let old' := rd (rd (old * b) + x)
    if w' = 0 then throw .zeroDivision
    let rest ← ewmaAdjLoopR rd pw b (i + 1) w' old' xs
    return rd (old' / w') :: rest

/-- Loop of `fast_ewma` with `adjust=False` (time_series.py:29-30) with rounded arithmetic. -/
def ewmaRecLoopR (rd : ℚ → ℚ) (alpha b prev : ℚ) : List ℚ → List ℚ
  | [] => []
  | x :: xs =>
    let e := rd (rd (x * alpha) + rd (prev * b))
    e :: ewmaRecLoopR rd alpha b e xs

/-- `fast_ewma`, time_series.py:6-31, with rounded arithmetic. -/
def fastEwmaR (rd : ℚ → ℚ) (pw : ℚ → ℕ → ℚ) (series : List ℚ) (span : ℕ) (adjust : Bool) : Py (List ℚ) :=
  let alpha : ℚ := rd (2 / ((span : ℚ) + 1))
  let b : ℚ := rd (1 - alpha)
  match series with
  | [] => .ok []
  | x :: xs =>
    if adjust then do
      let rest ← ewmaAdjLoopR rd pw b 1 1 x xs
      return x :: rest
    else .ok (x :: ewmaRecLoopR rd alpha b x xs)

end FinML.Bars
