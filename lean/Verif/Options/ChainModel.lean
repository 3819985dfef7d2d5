import Verif.Options.Model
import Verif.Filters.Model

/-!
# Model of financial_ml/tools/option.py, lines 14-142

Quotes are rows of strike and price.  `scipy.interpolate.CubicSpline`, `gaussian_filter1d` and the random
sampling are parameters.
-/

namespace FinML.Options

open FinML.Filters (npMedian)

/-! ## Implied risk-free rate, option.py:14-33 -/

/-- The quotes without missing values; option.py:27. -/
noncomputable def complete (l : List (Option ℝ × Option ℝ)) : List (ℝ × ℝ) :=
  l.filterMap fun x : Option ℝ × Option ℝ => x.1.bind fun k => x.2.map fun v => (k, v)

open Classical in
/-- `calls.merge(puts, on=STRIKE, how='outer').dropna()`, option.py:27: strike, call price and put price
for every pair of quotes with a common strike, ordered by strike.  Rows that an outer merge adds have a
missing price and are dropped. -/
noncomputable def callput (calls puts : List (Option ℝ × Option ℝ)) : List (ℝ × ℝ × ℝ) :=
  ((complete calls).flatMap fun c : ℝ × ℝ =>
    ((complete puts).filter fun p : ℝ × ℝ => decide (p.1 = c.1)).map fun p : ℝ × ℝ => (c.1, c.2, p.2)).insertionSort
      fun a b => a.1 ≤ b.1

/-- One entry of `rf_rates`, option.py:30-31.  NaN is `none`; infinite values (a zero strike, time or
bond price) are outside the model. -/
noncomputable def rfRate (s0 t d : ℝ) (row : ℝ × ℝ × ℝ) : Py (ℝ × Option ℝ) :=
  let x := row.2.2 + s0 - row.2.1 - d
  if row.1 = 0 ∨ t = 0 ∨ x = 0 then .error .unmodelled
  else .ok (row.1, if 0 < x / row.1 then some (-Real.log (x / row.1) / t) else none)

/-- `Series.median`: missing values are skipped; option.py:33. -/
noncomputable def seriesMedian (l : List (Option ℝ)) : Option ℝ :=
  if l.reduceOption = [] then none else some (npMedian l.reduceOption)

/-- `implied_risk_free_rate`, option.py:14-33.  The test `callput.shape == 0` compares a tuple with a
number, so it never holds and `(None, None)` is never returned. -/
noncomputable def impliedRiskFreeRate (calls puts : List (Option ℝ × Option ℝ)) (s0 t d : ℝ) :
    Py (Option ℝ × List (ℝ × Option ℝ)) := do
  let rates ← (callput calls puts).mapM (rfRate s0 t d)
  return (seriesMedian (rates.map Prod.snd), rates)

/-! ## Implied density, option.py:36-80 -/

/-- A curve of `CubicSpline`: its values and those of its second derivative; option.py:64-73. -/
structure Curve where
  /-- `curve(x)` -/
  eval : ℝ → ℝ
  /-- `curve.derivative(2)(x)` -/
  deriv2 : ℝ → ℝ

/-- `np.linspace(a, b, num)`; option.py:57. -/
noncomputable def linspace (a b : ℝ) (num : ℤ) : Py (List ℝ) :=
  if num < 0 then .error .valueError
  else .ok ((List.range num.toNat).map fun i : ℕ => a + (i : ℝ) * ((b - a) / ((num.toNat : ℝ) - 1)))

/-- A price that has to be a finite number; `CubicSpline` rejects others; option.py:64, 69, 110. -/
def finite : Option ℝ → Py ℝ
  | some x => .ok x
  | none => .error .valueError

/-- The price curve, option.py:59-71.  `iv observed pricing` is `implied_volatility` with its defaults.
The grid is `k`. -/
noncomputable def priceCurve (spline : List ℝ → List ℝ → Py Curve)
    (iv : ℝ → (ℝ → Py (Option ℝ)) → Py ℝ) (options : List (ℝ × ℝ)) (t r : ℝ) (grid : List ℝ)
    (volatilitySpace : Bool) (s0 : ℝ) (ot : OptionType) : Py Curve :=
  if volatilitySpace then do
    let vols ← options.mapM fun o : ℝ × ℝ =>
      iv o.2 fun sigma => bsmOptionPrice ot s0 o.1 r sigma t none 0 false
    let ivCurve ← spline (options.map Prod.fst) vols
    let prices ← grid.mapM fun k : ℝ =>
      bsmOptionPrice ot s0 k r (ivCurve.eval k) t none 0 false >>= finite
    spline grid prices
  else spline (options.map Prod.fst) (options.map Prod.snd)

/-- `implied_underlying_discrete_pdf`, option.py:36-80: rows of strike and density. -/
noncomputable def impliedDiscretePdf (spline : List ℝ → List ℝ → Py Curve)
    (iv : ℝ → (ℝ → Py (Option ℝ)) → Py ℝ) (smooth : ℝ → List ℝ → List ℝ) (options : List (ℝ × ℝ)) (t r : ℝ)
    (nInterpolate : Option ℤ) (smoothWidth : Option ℝ) (volatilitySpace : Bool) (s0 : ℝ) (ot : OptionType) :
    Py (List (ℝ × ℝ)) :=
  if options = [] then .ok []
  else do
    let lo ← npMin (options.map Prod.fst)
    let hi ← npMax (options.map Prod.fst)
    let grid ← linspace lo hi (nInterpolate.getD ((options.length : ℤ) * 3))
    let curve ← priceCurve spline iv options t r grid volatilitySpace s0 ot
    let pdf := (grid.map fun k : ℝ => (k, Real.exp (r * t) * curve.deriv2 k)).filter
      fun x : ℝ × ℝ => decide (0 ≤ x.2)
    match smoothWidth with
    | none => return pdf
    | some w => return (pdf.map Prod.fst).zip (smooth w (pdf.map Prod.snd))

/-! ## Implied distribution, option.py:83-142 -/

/-- The rate, given or estimated, option.py:105-110.  `rate` is the median of `implied_risk_free_rate`;
with calls missing, `calls[[...]]` fails.  A NaN rate makes every density NaN, no row is kept, and the
sampling fails. -/
noncomputable def rateUsed {Q : Type} (rate : Q → Q → ℝ → Py (Option ℝ)) (calls puts : Option Q) :
    Option ℝ → Option ℝ → Py ℝ
  | some r, _ => .ok r
  | none, none => .error .valueError
  | none, some s =>
    match puts, calls with
    | none, _ => .error .valueError
    | some _, none => .error .typeError
    | some p, some c => rate c p s >>= finite

/-- The densities of one side, if quoted, option.py:112-122. -/
def sideRows {Q : Type} (pdf : Q → ℝ → Py (List (ℝ × ℝ))) (r : ℝ) : Option Q → Py (List (ℝ × ℝ))
  | some q => pdf q r
  | none => .ok []

/-- `implied_underlying_distribution` up to the sampling, option.py:105-139: the strikes with the
probabilities they are drawn with, and the rate.  `pdf` is `implied_underlying_discrete_pdf` for a rate.
`np.random.choice` fails if there is nothing to draw from, or if the densities sum to 0 (the
probabilities are NaN). -/
noncomputable def samplingWeights {Q : Type} (rate : Q → Q → ℝ → Py (Option ℝ))
    (pdf : OptionType → Q → ℝ → Py (List (ℝ × ℝ))) (calls puts : Option Q) (r s0 : Option ℝ) :
    Py (List (ℝ × ℝ) × ℝ) := do
  let r' ← rateUsed rate calls puts r s0
  let pc ← sideRows (pdf .call) r' calls
  let pp ← sideRows (pdf .put) r' puts
  if calls.isNone ∧ puts.isNone then .error .exception
  else
    let all := pc ++ pp
    let total := (all.map Prod.snd).sum
    if total = 0 then .error .valueError
    else return (all.map fun x : ℝ × ℝ => (x.1, x.2 / total), r')

end FinML.Options
