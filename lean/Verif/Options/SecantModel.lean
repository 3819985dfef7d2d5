import Verif.Options.Model

/-!
# Model of `scipy.optimize.newton` as `implied_asset_price` calls it (tools/option.py)

`implied_asset_price` passes no derivative, so that `newton` runs the secant method.  The library code
(scipy 1.x, `_zeros_py.py`, `newton`, the branch without `fprime` and `x1`, with the default `rtol=0`
and `disp=True`) is transcribed over the reals.  A NaN value of the function makes all later iterates
NaN, which are never close to one another, so that the call ends in a RuntimeError.
-/

namespace FinML.Options

/-- The zero of the line through two points, in the two forms of the library; option.py:306. -/
noncomputable def secantStep (p0 q0 p1 q1 : ℝ) : ℝ :=
  if |q1| > |q0| then (-q0 / q1 * p1 + p0) / (1 - q0 / q1)
  else (-q1 / q0 * p0 + p1) / (1 - q1 / q0)

open Classical in
/-- The loop of the secant method, option.py:306: equal values end it (with an error if the points
differ), close points too (`np.isclose(p, p1, rtol=0, atol=tol)`), and so does the number of
iterations. -/
noncomputable def secantLoop (f : ℝ → Py (Option ℝ)) (tol : ℝ) : ℕ → ℝ → ℝ → ℝ → ℝ → Py ℝ
  | 0, _, _, _, _ => .error .runtimeError
  | n + 1, p0, q0, p1, q1 =>
    if q1 = q0 then (if p1 ≠ p0 then .error .runtimeError else .ok ((p1 + p0) / 2))
    else if |secantStep p0 q0 p1 q1 - p1| ≤ tol then .ok (secantStep p0 q0 p1 q1)
    else (f (secantStep p0 q0 p1 q1)).bind fun v =>
      match v with
      | none => .error .runtimeError
      | some q => secantLoop f tol n p1 q1 (secantStep p0 q0 p1 q1) q

/-- The second starting point, option.py:306: `x0*(1 + 1e-4)`, moved away from 0 by `1e-4`. -/
noncomputable def secondPoint (x0 : ℝ) : ℝ :=
  let p1 := x0 * (1 + 1 / 10000)
  p1 + (if 0 ≤ p1 then 1 / 10000 else -(1 / 10000))

/-- `newton(f, x0=x0, tol=tol, maxiter=maxiter)`, option.py:306. -/
noncomputable def newtonSecant (f : ℝ → Py (Option ℝ)) (x0 tol : ℝ) (maxiter : ℕ) : Py ℝ :=
  if tol ≤ 0 then .error .valueError
  else if maxiter < 1 then .error .valueError
  else (f x0).bind fun v0 => (f (secondPoint x0)).bind fun v1 =>
    match v0, v1 with
    | some q0, some q1 =>
      if |q1| < |q0| then secantLoop f tol maxiter (secondPoint x0) q1 x0 q0
      else secantLoop f tol maxiter x0 q0 (secondPoint x0) q1
    | _, _ => .error .runtimeError

end FinML.Options
