import Verif.Py.Basic
import Verif.Py.Normal
import Mathlib.Topology.ContinuousOn

/-!
# Model of financial_ml/tools/option.py, lines 145-323, and financial_ml/tools/interest_rate.py

Numbers are real.  Intermediate values that can be infinite or NaN are `FExt`; a price that is NaN is
`none`.
-/

namespace FinML.Options

/-- `OptionType`, data_structures/constants.py:84-90. -/
inductive OptionType
  | call
  | put
  | american
  | european
  deriving DecidableEq

/-- A float: finite, infinite or NaN; option.py:147. -/
inductive FExt
  | fin (x : ℝ)
  | posInf
  | negInf
  | nan

/-- `np.log`; option.py:147. -/
noncomputable def npLog (x : ℝ) : FExt :=
  if 0 < x then .fin (Real.log x) else if x = 0 then .negInf else .nan

/-- Adding a finite number; option.py:147, 151. -/
def FExt.add : FExt → ℝ → FExt
  | .fin x, y => .fin (x + y)
  | .posInf, _ => .posInf
  | .negInf, _ => .negInf
  | .nan, _ => .nan

/-- The opposite; option.py:181. -/
def FExt.neg : FExt → FExt
  | .fin x => .fin (-x)
  | .posInf => .negInf
  | .negInf => .posInf
  | .nan => .nan

/-- Numpy division by a finite number; a zero divisor counts as `+0`; option.py:147. -/
noncomputable def FExt.div : FExt → ℝ → FExt
  | .fin x, y =>
    if y = 0 then (if 0 < x then .posInf else if x < 0 then .negInf else .nan) else .fin (x / y)
  | .posInf, y => if y < 0 then .negInf else .posInf
  | .negInf, y => if y < 0 then .posInf else .negInf
  | .nan, _ => .nan

/-- `norm.cdf`; NaN for NaN; option.py:178, 181. -/
noncomputable def FExt.cdf : FExt → Option ℝ
  | .fin x => some (normCdf x)
  | .posInf => some 1
  | .negInf => some 0
  | .nan => none

/-- `np.log(s0/k)`, option.py:147, with numpy's division: a positive number by zero is infinite, its logarithm too; a
negative number or zero by zero has no logarithm. -/
noncomputable def logRatio (s0 k : ℝ) : FExt :=
  if k = 0 then (if 0 < s0 then .posInf else .nan) else npLog (s0 / k)

/-- `_bsm_d1`, option.py:146-147; the root of a negative time is NaN. -/
noncomputable def bsmD1 (s0 k r sigma t q : ℝ) : FExt :=
  if t < 0 then .nan
  else ((logRatio s0 k).add ((r - q + sigma ^ 2 / 2) * t)).div (sigma * √t)

/-- `_bsm_d2`, option.py:150-151. -/
noncomputable def bsmD2 (s0 k r sigma t q : ℝ) : FExt :=
  (bsmD1 s0 k r sigma t q).add (-(sigma * √t))

/-- `divs_present`, option.py:170. -/
noncomputable def divsPresent (r : ℝ) (divs : List (ℝ × ℝ)) : ℝ :=
  (divs.map fun v : ℝ × ℝ => v.1 * Real.exp (-r * v.2)).sum

/-- The price of a call, option.py:178. -/
noncomputable def bsmCall (s0 k r sigma t q : ℝ) : Option ℝ := do
  let a ← (bsmD1 s0 k r sigma t q).cdf
  let b ← (bsmD2 s0 k r sigma t q).cdf
  return s0 * Real.exp (-q * t) * a - k * Real.exp (-r * t) * b

/-- The price of a put, option.py:181. -/
noncomputable def bsmPut (s0 k r sigma t q : ℝ) : Option ℝ := do
  let a ← (bsmD1 s0 k r sigma t q).neg.cdf
  let b ← (bsmD2 s0 k r sigma t q).neg.cdf
  return -s0 * Real.exp (-q * t) * a + k * Real.exp (-r * t) * b

/-- The underlying price less the present value of dividends, option.py:169-171. -/
noncomputable def spotLess (s0 r : ℝ) : Option (List (ℝ × ℝ)) → ℝ
  | none => s0
  | some l => s0 - divsPresent r l

/-- The yield used, option.py:172-173 and 207-208. -/
def yieldUsed (q r : ℝ) (isFutures : Bool) : ℝ := if isFutures then r else q

/-- `bsm_option_price`, option.py:154-184.  The numbers passed are Python floats, so that a zero strike is a
`ZeroDivisionError` in `s0/k`; but with cash dividends `s0 -= divs_present` makes the spot a numpy number (`np.exp`), and
numpy's division does not raise. -/
noncomputable def bsmOptionPrice (ot : OptionType) (s0 k r sigma t : ℝ) (divs : Option (List (ℝ × ℝ)))
    (q : ℝ) (isFutures : Bool) : Py (Option ℝ) :=
  if divs.isSome ∧ q ≠ 0 then .error .assertionError
  else if k = 0 ∧ divs.getD [] = [] then .error .zeroDivision
  else match ot with
    | .call => .ok (bsmCall (spotLess s0 r divs) k r sigma t (yieldUsed q r isFutures))
    | .put => .ok (bsmPut (spotLess s0 r divs) k r sigma t (yieldUsed q r isFutures))
    | _ => .error .notImplemented

/-! ## Binomial trees, option.py:188-273 -/

/-- The numbers a tree is built from, option.py:209-213. -/
structure Tree where
  /-- `delta_t` -/
  dt : ℝ
  /-- `u` -/
  u : ℝ
  /-- `d` -/
  d : ℝ
  /-- `p` -/
  p : ℝ
  /-- `np.exp(-r*delta_t)` -/
  disc : ℝ

/-- option.py:209-213.  A negative time, or no movement (`u = d`), makes `p` NaN or infinite; then
every value of the tree is NaN (`∞·v + (1-∞)·v` and `∞·0` are), which is `none`. -/
noncomputable def mkTree (t r sigma q : ℝ) (n : ℕ) : Option Tree :=
  let dt := t / (n : ℝ)
  let u := Real.exp (sigma * √dt)
  let d := 1 / u
  let a := Real.exp ((r - q) * dt)
  if dt < 0 ∨ u - d = 0 then none
  else some { dt := dt, u := u, d := d, p := (a - d) / (u - d), disc := Real.exp (-r * dt) }

/-- The underlying after `j` ups and `i - j` downs, option.py:219, 221, 228. -/
noncomputable def spot (tr : Tree) (s0 : ℝ) (i j : ℕ) : ℝ := s0 * tr.u ^ j * tr.d ^ (i - j)

/-- The value of exercising, option.py:219-221 and 230-233.  `none` for other types. -/
noncomputable def exercise (ot : OptionType) (s k : ℝ) : Option ℝ :=
  match ot with
  | .call => some (max (s - k) 0)
  | .put => some (max (k - s) 0)
  | _ => none

/-- `v[i][j]`; every index used is in range; option.py:227. -/
noncomputable def at' (l : List ℝ) (j : ℕ) : ℝ := l.getD j 0

/-- The payoffs of the last row, option.py:217-223. -/
noncomputable def lastRow (tr : Tree) (ex : ℝ → ℝ) (s0 : ℝ) (n : ℕ) : List ℝ :=
  (List.range (n + 1)).map fun j : ℕ => ex (spot tr s0 n j)

/-- One row from the next one, option.py:226-240; `early s` is `v_ex`. -/
noncomputable def prevRow (tr : Tree) (early : ℝ → ℝ) (s0 : ℝ) (i : ℕ) (next : List ℝ) : List ℝ :=
  (List.range (i + 1)).map fun j : ℕ =>
    max (tr.disc * (tr.p * at' next (j + 1) + (1 - tr.p) * at' next j)) (early (spot tr s0 i j))

/-- The loop over rows, option.py:225: from row `i` down to row 0. -/
noncomputable def backward (tr : Tree) (early : ℝ → ℝ) (s0 : ℝ) : ℕ → List ℝ → List ℝ
  | 0, row => row
  | i + 1, row => backward tr early s0 i (prevRow tr early s0 i row)

/-- `exercise` as a number, used where the type is a call or a put; option.py:229-233. -/
noncomputable def payoff (ot : OptionType) (k s : ℝ) : ℝ := (exercise ot s k).getD 0

/-- `v_ex`, option.py:229-239; `none` for other exercise styles. -/
noncomputable def earlyValue (ot style : OptionType) (k : ℝ) : Option (ℝ → ℝ) :=
  match style with
  | .american => some (payoff ot k)
  | .european => some fun _ => 0
  | _ => none

/-- `binom_option_price`, option.py:188-242.  With `n = 0` the division `T/n` fails; with a negative
`n` there are no rows and `v[0]` fails. -/
noncomputable def binomOptionPrice (ot style : OptionType) (s0 k t r sigma q : ℝ) (isFutures : Bool)
    (n : ℤ) : Py (Option ℝ) :=
  if n = 0 then .error .zeroDivision
  else if n < 0 then .error .indexError
  else if (exercise ot s0 k).isNone then .error .notImplemented
  else match earlyValue ot style k with
    | none => .error .notImplemented
    | some early => .ok ((mkTree t r sigma (yieldUsed q r isFutures) n.toNat).map fun tr =>
        at' (backward tr early s0 n.toNat (lastRow tr (payoff ot k) s0 n.toNat)) 0)

/-- `binom_am_option_price`, option.py:245-273. -/
noncomputable def binomAmOptionPrice (ot : OptionType) (s0 k t r sigma q : ℝ) (isFutures : Bool)
    (n : ℤ) (controlVariates : Bool) : Py (Option ℝ) := do
  let am ← binomOptionPrice ot .american s0 k t r sigma q isFutures n
  if controlVariates then
    let eur ← binomOptionPrice ot .european s0 k t r sigma q isFutures n
    let bsm ← bsmOptionPrice ot s0 k r sigma t none q isFutures
    return (do
      let x ← am
      let b ← bsm
      let e ← eur
      return x + (b - e))
  else return am

/-! ## Implied volatility and asset price, option.py:276-307 -/

/-- `implied_volatility`, option.py:276-292.  `scipy.optimize.brentq` is a parameter, see `BrentOk`. -/
def impliedVolatility (brentq : (ℝ → Py (Option ℝ)) → ℝ → ℝ → ℕ → Py ℝ) (observed : ℝ)
    (pricing : ℝ → Py (Option ℝ)) (lower upper : ℝ) (maxiter : ℕ) : Py ℝ :=
  brentq (fun sigma => (pricing sigma).map fun p => p.map fun x => x - observed) lower upper maxiter

/-- `implied_asset_price`, option.py:295-307.  `scipy.optimize.newton` is a parameter. -/
def impliedAssetPrice (newton : (ℝ → Py (Option ℝ)) → ℝ → ℝ → ℕ → Py ℝ) (optionPrice x0 : ℝ)
    (pricing : ℝ → Py (Option ℝ)) (maxiter : ℕ) (tol : ℝ) : Py ℝ :=
  newton (fun s0 => (pricing s0).map fun p => p.map fun x => x - optionPrice) x0 tol maxiter

/-- The documented behaviour of `brentq(f, a, b)` with tolerances `xtol` and `rtol`, for functions with
real values on the bracket: a `ValueError` if the values at the ends have the same sign; otherwise a
number close to a root in the bracket, or a `RuntimeError` if `maxiter` does not suffice;
option.py:291. -/
structure BrentOk (brentq : (ℝ → Py (Option ℝ)) → ℝ → ℝ → ℕ → Py ℝ) (xtol rtol : ℝ) : Prop where
  same_sign : ∀ (f : ℝ → Py (Option ℝ)) (g : ℝ → ℝ) (a b : ℝ) (m : ℕ), a < b →
    (∀ x ∈ Set.Icc a b, f x = .ok (some (g x))) → 0 < g a * g b → brentq f a b m = .error .valueError
  root : ∀ (f : ℝ → Py (Option ℝ)) (g : ℝ → ℝ) (a b : ℝ) (m : ℕ), a < b →
    (∀ x ∈ Set.Icc a b, f x = .ok (some (g x))) → ContinuousOn g (Set.Icc a b) → g a * g b ≤ 0 →
    brentq f a b m = .error .runtimeError ∨
      ∃ x, brentq f a b m = .ok x ∧ ∃ z ∈ Set.Icc a b, g z = 0 ∧ |x - z| ≤ xtol + rtol * |z|

/-! ## Returns, option.py:310-323 -/

/-- `dist(loc, scale)`: scipy's frozen distribution, as location and scale; scipy answers NaN to
everything if the scale is not positive, and here it is `none`; option.py:321-322. -/
noncomputable def frozen (loc scale : ℝ) : Option (ℝ × ℝ) := if 0 < scale then some (loc, scale) else none

/-- `bsm_return_distribution`, option.py:310-323: the distributions of the log return and of the annual
return.  With `t = 0` the division `sigma/np.sqrt(t)` is not finite; with `t < 0` the root is NaN. -/
noncomputable def bsmReturnDistribution (mu sigma t : ℝ) : Option (ℝ × ℝ) × Option (ℝ × ℝ) :=
  if t ≤ 0 then (none, none)
  else (frozen ((mu - sigma ^ 2 / 2) * t) (sigma * √t), frozen (mu - sigma ^ 2 / 2) (sigma / √t))

/-! ## Forward rates, interest_rate.py:15-24 -/

/-- `get_implied_forward_rate`, interest_rate.py:15-24.  A negative ratio has no logarithm (NaN, `none`);
a zero ratio or time gives an infinite value or NaN, also `none`. -/
noncomputable def impliedForwardRate (s0 f t : ℝ) : Py (Option ℝ) :=
  if s0 = 0 then .error .zeroDivision
  else .ok (if 0 < f / s0 then fdiv (Real.log (f / s0)) t else none)

end FinML.Options
