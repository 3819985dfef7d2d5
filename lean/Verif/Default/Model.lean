import Verif.Options.Model
import Verif.Py.Ols

/-!
# Model of financial_ml/features/systematic_default.py

Numbers are real.  A vector of default counts is a list: the code turns vectors into one-column
matrices and back (systematic_default.py:219, 233, 240).  Where an array would hold a NaN or an
infinite number the model stops with `unmodelled`.
-/

namespace FinML.Default

open FinML.Options

/-! ## The number of defaults, systematic_default.py:218-239 -/

section Count

variable {K : Type} [Field K]

/-- `default_vec[i] += x`; systematic_default.py:230. -/
def addAt (vec : List K) (i : ℕ) (x : K) : List K := vec.modify i (· + x)

/-- The two nested loops over the outer product of two vectors, systematic_default.py:224-232. -/
def convolve (a b : List K) : List K :=
  (List.range a.length).foldl
    (fun vec j => (List.range b.length).foldl
      (fun vec k => addAt vec (j + k) (a.getD j 0 * b.getD k 0)) vec)
    (List.replicate (a.length + b.length - 1) 0)

/-- systematic_default.py:224-233.  `np.zeros(-1)` is a ValueError. -/
def convolvePy (a b : List K) : Py (List K) :=
  if a.length + b.length = 0 then .error .valueError else .ok (convolve a b)

/-- One pass over the vectors: neighbours are merged and an odd last one is kept,
systematic_default.py:223-237. -/
def pairUp : List (List K) → Py (List (List K))
  | a :: b :: rest => do
    let c ← convolvePy a b
    let cs ← pairUp rest
    return c :: cs
  | rest => .ok rest

theorem pairUp_length : ∀ {l l' : List (List K)}, pairUp l = .ok l' → l'.length = (l.length + 1) / 2
  | [], l', h => by
    simp only [pairUp, Except.ok.injEq] at h
    rw [← h]; simp
  | [a], l', h => by
    simp only [pairUp, Except.ok.injEq] at h
    rw [← h]; simp
  | a :: b :: rest, l', h => by
    unfold pairUp at h
    cases hc : convolvePy a b with
    | error e => rw [hc] at h; cases h
    | ok c =>
      rw [hc] at h
      cases hr : pairUp rest with
      | error e => rw [hr] at h; cases h
      | ok cs =>
        rw [hr] at h
        have hl := pairUp_length hr
        cases h
        simp only [List.length_cons, hl]
        omega

/-- The `while` loop, systematic_default.py:221-237. -/
def mergeAll (l : List (List K)) : Py (List (List K)) :=
  if 1 < l.length then
    match _h : pairUp l with
    | .ok l' => mergeAll l'
    | .error e => .error e
  else .ok l
termination_by l.length
decreasing_by
  have := pairUp_length _h
  omega

/-- `get_default_count_probs`, systematic_default.py:218-239.  (A single number comes back as a
0-dimensional array.) -/
def getDefaultCountProbs (vectors : List (List K)) : Py (List K) := do
  let l ← mergeAll vectors
  pyGet l 0

/-- The vectors `np.array([1 - p, p])`, systematic_default.py:262-263. -/
def systematicDefaultProbs (probs : List K) : Py (List K) :=
  getDefaultCountProbs (probs.map fun p => [1 - p, p])

end Count

/-! ## Equity as an option on assets, systematic_default.py:10-22 -/

/-- `_d1`, systematic_default.py:10-11; the root of a negative time is NaN. -/
noncomputable def condD1 (s0 k r sigma t alpha beta m : ℝ) : FExt :=
  if t < 0 then .nan
  else (((npLog (s0 / k)).add ((r + alpha + sigma ^ 2 / 2) * t)).add (beta * m)).div (sigma * √t)

/-- `_d2`, systematic_default.py:14-15. -/
noncomputable def condD2 (s0 k r sigma t alpha beta m : ℝ) : FExt :=
  (condD1 s0 k r sigma t alpha beta m).add (-(sigma * √t))

/-- `_cond_equity_value`, systematic_default.py:18-22.  (Both callers have `k ≥ 1`.) -/
noncomputable def condEquityValue (s0 k r sigma t alpha beta m : ℝ) : Option ℝ := do
  let a ← (condD1 s0 k r sigma t alpha beta m).cdf
  let b ← (condD2 s0 k r sigma t alpha beta m).cdf
  return s0 * a - k * Real.exp (-r * t) * b

/-! ## Estimation, systematic_default.py:25-146 -/

/-- `FirmParams`, systematic_default.py:25-30. -/
structure FirmParams where
  /-- `alpha` -/
  alpha : ℝ
  /-- `beta` -/
  beta : ℝ
  /-- `sigma` -/
  sigma : ℝ

/-- `FirmParams.approx_equal`, systematic_default.py:32-37. -/
def FirmParams.ApproxEqual (p q : FirmParams) (tol : ℝ) : Prop :=
  |p.alpha - q.alpha| < tol ∧ |p.beta - q.beta| < tol ∧ |p.sigma - q.sigma| < tol

/-- Arithmetic of two arrays; arrays of different lengths do not broadcast (a length of one does, and
is not modelled); systematic_default.py:46-47, 197. -/
def npZip (f : ℝ → ℝ → ℝ) (x y : List ℝ) : Py (List ℝ) :=
  if x.length = y.length then .ok (List.zipWith f x y)
  else if x.length = 1 ∨ y.length = 1 then .error .unmodelled
  else .error .valueError

/-- `np.std(x)`, with divisor `n`; systematic_default.py:54. -/
noncomputable def npStd (x : List ℝ) : ℝ :=
  √((x.map fun v => (v - x.sum / x.length) ^ 2).sum / x.length)

/-- systematic_default.py:53-55; an interval that is not positive does not give finite numbers. -/
noncomputable def annualise (const beta std interval : ℝ) : Py FirmParams :=
  if 0 < interval then
    .ok { alpha := const / interval + (std / √interval) ^ 2 / 2, beta := beta, sigma := std / √interval }
  else .error .unmodelled

/-- `_regress_firm_params`, systematic_default.py:40-56.  `ols` stands for
`sm.OLS(y, X).fit().params`. -/
noncomputable def regressFirmParams (ols : List (List ℝ) → List ℝ → List ℝ)
    (assetRets marketRets riskFree : List ℝ) (interval : ℝ) : Py FirmParams := do
  let y ← npZip (fun a r => a - r * interval) assetRets riskFree
  let m ← npZip (fun a r => a - r * interval) marketRets riskFree
  let X ← addConstant m
  let params := ols X y
  let beta ← pyGet params 1
  let const ← pyGet params 0
  let resid := List.zipWith (fun row v => v - dotL row params) X y
  annualise const beta (npStd resid) interval

/-- The arguments of `fit`, systematic_default.py:64-75. -/
structure FitData where
  /-- `expected_market_ret` -/
  expectedMarketRet : ℝ
  /-- `market_rets` -/
  marketRets : List ℝ
  /-- `equity_values` -/
  equity : List ℝ
  /-- `debt_values` -/
  debt : List ℝ
  /-- `debt_maturities` -/
  maturity : List ℝ
  /-- `interval` -/
  interval : ℝ
  /-- `risk_free_rates` -/
  riskFree : List ℝ

/-- `np.diff(np.log(equity_values))`, systematic_default.py:93.  The logarithm of a value that is not
positive is not a finite number. -/
noncomputable def logDiff (x : List ℝ) : Py (List ℝ) :=
  open Classical in
  if ∀ v ∈ x, 0 < v then .ok (List.zipWith (fun a b => Real.log b - Real.log a) x x.tail)
  else .error .unmodelled

/-- One firm date of the comprehension in `fit`, systematic_default.py:104-119. -/
structure FirmDate where
  /-- `equity` -/
  equity : ℝ
  /-- `debt` -/
  debt : ℝ
  /-- `T` -/
  maturity : ℝ
  /-- `r` -/
  riskFree : ℝ

/-- `zip(equity_values, debt_values, debt_maturities, risk_free_rates, …)`,
systematic_default.py:117-118. -/
def FitData.dates (d : FitData) : List FirmDate :=
  List.zipWith (fun (ed : ℝ × ℝ) (tr : ℝ × ℝ) => ⟨ed.1, ed.2, tr.1, tr.2⟩)
    (d.equity.zip d.debt) (d.maturity.zip d.riskFree)

/-- `exp_mkt_ex_rets * T`, systematic_default.py:94, 115 and 129. -/
def FitData.exMkt (d : FitData) (f : FirmDate) : ℝ :=
  (d.expectedMarketRet - f.riskFree * d.interval) * f.maturity

/-- `implied_asset_price` of one date, systematic_default.py:105-116.  `newton` stands for
`scipy.optimize.newton`. -/
noncomputable def assetValue (newton : (ℝ → Py (Option ℝ)) → ℝ → ℝ → ℕ → Py ℝ) (d : FitData)
    (p : FirmParams) (f : FirmDate) : Py ℝ :=
  impliedAssetPrice newton f.equity (f.equity + f.debt)
    (fun s0 => .ok (condEquityValue s0 (max 1 f.debt) f.riskFree p.sigma f.maturity p.alpha p.beta
      (d.exMkt f))) 100 (1 / 100)

/-- One entry of `asset_rets`, systematic_default.py:121-131; not a finite number if the delta is not
one or if the divisor is zero. -/
noncomputable def assetRet (d : FitData) (p : FirmParams) (f : FirmDate) (value equityRet : ℝ) :
    Py ℝ :=
  match (condD1 value (max 1 f.debt) f.riskFree p.sigma f.maturity p.alpha p.beta (d.exMkt f)).cdf with
  | none => .error .unmodelled
  | some delta =>
    if f.equity = 0 ∨ delta * value / f.equity = 0 then .error .unmodelled
    else .ok (equityRet / (delta * value / f.equity))

/-- The arrays of the second step must have as many entries as there are rates (systematic_default.py:121-131); other
lengths are errors of broadcasting. -/
def FitData.Aligned (d : FitData) : Prop :=
  d.debt.length = d.equity.length ∧ d.maturity.length = d.equity.length ∧
    d.riskFree.length + 1 = d.equity.length

/-- One round of the loop, systematic_default.py:104-138: the asset returns and values, and the new
parameters. -/
noncomputable def fitRound (newton : (ℝ → Py (Option ℝ)) → ℝ → ℝ → ℕ → Py ℝ)
    (ols : List (List ℝ) → List ℝ → List ℝ) (d : FitData) (equityRets : List ℝ) (p : FirmParams) :
    Py ((List ℝ × List ℝ) × FirmParams) := do
  let values ← d.dates.mapM (assetValue newton d p)
  let rets ← (d.dates.zip (values.zip equityRets)).mapM fun x => assetRet d p x.1 x.2.1 x.2.2
  let q ← regressFirmParams ols rets d.marketRets d.riskFree d.interval
  return ((rets, values), q)

/-- The `while` loop, systematic_default.py:102-146, with `n` rounds left. -/
noncomputable def fitLoop {A : Type} (round : FirmParams → Py (A × FirmParams)) (tol : ℝ) :
    ℕ → FirmParams → Py (FirmParams × A)
  | 0, _ => .error .exception
  | n + 1, p =>
    match round p with
    | .error e => .error e
    | .ok (a, q) =>
      open Classical in if p.ApproxEqual q tol then .ok (q, a) else fitLoop round tol n q

/-- The loop, for arrays of the right lengths; systematic_default.py:93-146. -/
noncomputable def fitAligned (newton : (ℝ → Py (Option ℝ)) → ℝ → ℝ → ℕ → Py ℝ)
    (ols : List (List ℝ) → List ℝ → List ℝ) (d : FitData) (equityRets : List ℝ) (tol : ℝ) (maxiter : ℕ)
    (p : FirmParams) : Py (FirmParams × (List ℝ × List ℝ)) :=
  open Classical in
  if d.Aligned then fitLoop (fitRound newton ols d equityRets) tol maxiter p
  else .error .unmodelled

/-- `FirmStructuralCreditRisk.fit`, systematic_default.py:64-146: the parameters stored, the asset
returns and the asset values. -/
noncomputable def fit (newton : (ℝ → Py (Option ℝ)) → ℝ → ℝ → ℕ → Py ℝ)
    (ols : List (List ℝ) → List ℝ → List ℝ) (d : FitData) (tol : ℝ) (maxiter : ℕ) :
    Py (FirmParams × (List ℝ × List ℝ)) := do
  let equityRets ← logDiff d.equity
  let p ← regressFirmParams ols equityRets d.marketRets d.riskFree d.interval
  fitAligned newton ols d equityRets tol maxiter p

/-- `predict_default`, systematic_default.py:148-182. -/
noncomputable def predictDefault (newton : (ℝ → Py (Option ℝ)) → ℝ → ℝ → ℕ → Py ℝ) (p : FirmParams)
    (equity debt maturity riskFree marketRet : ℝ) : Py (Option ℝ) := do
  let debt := max 1 debt
  let m := marketRet - riskFree * maturity
  let value ← impliedAssetPrice newton equity (equity + debt)
    (fun s0 => .ok (condEquityValue s0 debt riskFree p.sigma maturity p.alpha p.beta m)) 100 (1 / 100)
  return (condD2 value debt riskFree p.sigma maturity p.alpha p.beta m).cdf.map fun x => 1 - x

/-! ## Preparing the data, systematic_default.py:195-213 -/

/-- `market_rets`, systematic_default.py:195-197. -/
noncomputable def marketRets (equitiesIndex bondsIndex : List ℝ) (ratio : ℝ) : Py (List ℝ) := do
  let e ← logDiff equitiesIndex
  let b ← logDiff bondsIndex
  npZip (fun x y => ratio * x + (1 - ratio) * y) e b

/-- `debt_values`, systematic_default.py:199. -/
noncomputable def debtValues (shortTerm longTerm : List ℝ) : List ℝ :=
  List.zipWith (fun s l => s + l / 2) shortTerm longTerm

/-- A row of the dataset of a firm, systematic_default.py:185-191. -/
structure FirmRow where
  /-- `marketCap` -/
  marketCap : ℝ
  /-- `shortTermDebt` -/
  shortDebt : ℝ
  /-- `longTermDebt` -/
  longDebt : ℝ
  /-- `treasury_yield` -/
  yield : ℝ
  /-- `bonds_index` -/
  bonds : ℝ
  /-- `equities_index` -/
  equities : ℝ

/-- `create_firm_model`, systematic_default.py:194-215, with the default `tol` and `maxiter`. -/
noncomputable def createFirmModel (newton : (ℝ → Py (Option ℝ)) → ℝ → ℝ → ℕ → Py ℝ)
    (ols : List (List ℝ) → List ℝ → List ℝ) (rows : List FirmRow) (interval expectedMarketRet : ℝ)
    (ratio : ℝ) : Py (FirmParams × (List ℝ × List ℝ)) := do
  let m ← marketRets (rows.map FirmRow.equities) (rows.map FirmRow.bonds) ratio
  fit newton ols
    { expectedMarketRet := expectedMarketRet
      marketRets := m
      equity := rows.map FirmRow.marketCap
      debt := debtValues (rows.map FirmRow.shortDebt) (rows.map FirmRow.longDebt)
      maturity := rows.map fun _ => 1
      interval := interval
      riskFree := (rows.map FirmRow.yield).dropLast } (1 / 1000000) 100

end FinML.Default
