import Verif.Py.Rolling
import Verif.Py.Ols
import Verif.Bars.Model
import Mathlib.Analysis.SpecialFunctions.Log.Basic
import Mathlib.Analysis.SpecialFunctions.Pow.Real
import Mathlib.Analysis.SpecialFunctions.Trigonometric.Basic

/-!
# Model of financial_ml/features/microstructure.py

`tick_rule` is `Bars.tickRule`.  Bars are lists by position; labels are assumed unique, so that pandas
aligns by position.  Missing and infinite values are `none`.
-/

namespace FinML.Micro

open Bars (tickRule)

/-- `series.diff().values[1:]` (microstructure.py:44, 129). -/
def diff1 (l : List ℝ) : List ℝ := List.zipWith (fun b a => b - a) l.tail l

/-- Mean of a list (`np.mean`), for non-empty lists; microstructure.py:45. -/
noncomputable def mean (l : List ℝ) : ℝ := l.sum / (l.length : ℝ)

/-- `np.var` (population variance); NaN for an empty array; microstructure.py:45. -/
noncomputable def npVar (l : List ℝ) : Option ℝ :=
  if l = [] then none else some ((l.map fun x => (x - mean l) ^ 2).sum / (l.length : ℝ))

/-- `np.cov(a, b)[0, 1]` (divided by `n - 1`); NaN for fewer than two observations;
microstructure.py:46. -/
noncomputable def npCov (a b : List ℝ) : Option ℝ :=
  if a.length < 2 then none
  else some ((List.zipWith (fun x y => (x - mean a) * (y - mean b)) a b).sum / ((a.length : ℝ) - 1))

/-- `roll_effective_spread`, microstructure.py:32-49.  `max(0, nan)` is 0 in Python. -/
noncomputable def rollSpread (prices : List ℝ) : ℝ × Option ℝ :=
  let dp := diff1 prices
  let dpVar := npVar dp
  let dpCov := npCov dp.dropLast dp.tail
  let c := Real.sqrt (dpCov.elim 0 fun v => max 0 (-v))
  (c * 2, dpVar.bind fun v => dpCov.map fun w => v + 2 * w)

/-- `np.log` of a value: not finite for non-positive ones; microstructure.py:60, 66. -/
noncomputable def logO (x : ℝ) : Option ℝ := open Classical in if 0 < x then some (Real.log x) else none

/-- High and low of a bar; microstructure.py:60. -/
structure HL where
  high : ℝ
  low : ℝ

/-- `np.log(HIGH) - np.log(LOW)` squared, microstructure.py:60-61. -/
noncomputable def hlSq (b : HL) : Option ℝ :=
  (logO b.high).bind fun h => (logO b.low).map fun l => (h - l) ^ 2

/-- Mean of a full window of `w` values; microstructure.py:61, 68. -/
noncomputable def meanW (w : ℕ) (l : List ℝ) : ℝ := l.sum / (w : ℝ)

/-- `high_low_volatility`, microstructure.py:52-62. -/
noncomputable def highLowVol (bars : List HL) (window : ℕ) : List (Option ℝ) :=
  (rolling window (meanW window) (bars.map hlSq)).map
    (Option.map fun m => Real.sqrt (m / (4 * Real.log 2)))

/-- `np.log(HIGH/LOW)**2`, microstructure.py:66. -/
noncomputable def hlRatioSq (h l : ℝ) : Option ℝ :=
  ((fdiv h l).bind logO).map fun v => v ^ 2

/-- `_get_beta` before `dropna`, microstructure.py:65-69. -/
noncomputable def beta (bars : List HL) (window : ℕ) : List (Option ℝ) :=
  rolling window (meanW window) (rolling 2 List.sum (bars.map fun b => hlRatioSq b.high b.low))

/-- Maximum of a non-empty window; microstructure.py:73. -/
noncomputable def maxL (l : List ℝ) : ℝ := l.tail.foldl max (l.headD 0)

/-- Minimum of a non-empty window; microstructure.py:74. -/
noncomputable def minL (l : List ℝ) : ℝ := l.tail.foldl min (l.headD 0)

/-- `_get_gamma` before `dropna`, microstructure.py:72-76. -/
noncomputable def gamma (bars : List HL) : List (Option ℝ) :=
  let h := rolling 2 maxL (bars.map fun b => some b.high)
  let l := rolling 2 minL (bars.map fun b => some b.low)
  List.zipWith (fun x y => x.bind fun u => y.bind fun v => hlRatioSq u v) h l

/-- `3 - 2*2**.5`; microstructure.py:80, 95. -/
noncomputable def denom : ℝ := 3 - 2 * (2 : ℝ) ^ (0.5 : ℝ)

/-- Replace negative values by 0; microstructure.py:82, 98. -/
noncomputable def clip (x : ℝ) : ℝ := open Classical in if x < 0 then 0 else x

/-- `_get_alpha` at one time, microstructure.py:79-83. -/
noncomputable def alphaOf (b g : ℝ) : ℝ :=
  clip (((2 * b) ^ (0.5 : ℝ) - b ^ (0.5 : ℝ)) / denom - (g / denom) ^ (0.5 : ℝ))

/-- `(8/np.pi)**.5`; microstructure.py:94. -/
noncomputable def k2 : ℝ := (8 / Real.pi) ^ (0.5 : ℝ)

/-- `_corwin_schultz_volatility` at one time, microstructure.py:86-99. -/
noncomputable def sigmaOf (b g : ℝ) : ℝ :=
  clip (((2 : ℝ) ^ (-0.5 : ℝ) - 1) * b ^ (0.5 : ℝ) / (k2 * denom) + (g / (k2 ^ 2 * denom)) ^ (0.5 : ℝ))

/-- `2*(exp(alpha) - 1)/(1 + exp(alpha))`, microstructure.py:113. -/
noncomputable def spreadOf (a : ℝ) : ℝ := 2 * (Real.exp a - 1) / (1 + Real.exp a)

/-- The rows of a column that are present, with their labels (`dropna`);
microstructure.py:69, 76, 83. -/
def rowsOf (index : List ℤ) (col : List (Option ℝ)) : List (ℤ × ℝ) :=
  (index.zip col).filterMap fun p => p.2.map fun v => (p.1, v)

/-- One row of the spread table; microstructure.py:113-116. -/
structure SpreadRow where
  time : ℤ
  spread : ℝ
  start : ℤ

/-- The spread column of `corwin_schultz_spread` by position, microstructure.py:110-113. -/
noncomputable def spreadCol (bars : List HL) (window : ℕ) : List (Option ℝ) :=
  (zipO alphaOf (beta bars window) (gamma bars)).map (Option.map spreadOf)

/-- The spread table of `corwin_schultz_spread`, microstructure.py:110-116: start times are the first
labels of the bars, in order. -/
noncomputable def spreadTable (index : List ℤ) (bars : List HL) (window : ℕ) : List SpreadRow :=
  let rows := rowsOf index (spreadCol bars window)
  List.zipWith (fun r s => ⟨r.1, r.2, s⟩) rows (index.take rows.length)

/-- The volatility column of `corwin_schultz_spread`, microstructure.py:117. -/
noncomputable def volCol (bars : List HL) (window : ℕ) : List (Option ℝ) :=
  zipO sigmaOf (beta bars window) (gamma bars)

/-- The volatility series: `sigma +=` keeps the index of `beta`; microstructure.py:96-99, 117.  A row with `beta` and without
`gamma`, which takes prices of both signs, is NaN in the code and left out here. -/
noncomputable def volTable (index : List ℤ) (bars : List HL) (window : ℕ) : List (ℤ × ℝ) :=
  rowsOf index (volCol bars window)

/-- `kyle_lambda`, microstructure.py:121-135 (the value; the regression enters as `ols`). -/
noncomputable def kyleLambda (ols : List (List ℝ) → List ℝ → List ℝ) (prices volumes : List ℝ) (b0 : ℝ) :
    Py ℝ := do
  let signed := List.zipWith (· * ·) volumes (tickRule b0 prices)
  let X ← addConstant signed.tail
  pyGet (ols X (diff1 prices)) 1

/-- `amihud_lambda`, microstructure.py:138-150, for positive closes. -/
noncomputable def amihudLambda (ols : List (List ℝ) → List ℝ → List ℝ) (closes vwaps volumes : List ℝ) :
    Py ℝ :=
  open Classical in
  if ∃ c ∈ closes, c ≤ 0 then .error .unmodelled else do
  let X ← addConstant (List.zipWith (· * ·) vwaps volumes).tail
  pyGet (ols X ((diff1 (closes.map Real.log)).map fun x => |x|)) 1

/-- A tick with volume, price and bar id; microstructure.py:161-166. -/
structure BTick (K : Type) where
  price : K
  volume : K
  bar : ℤ

/-- Last value of a non-empty list; microstructure.py:161. -/
def lastD (l : List ℝ) : ℝ := l.getLastD 0

/-- `hasbrouck_lambda`, microstructure.py:153-170, for positive prices and non-negative volumes. -/
noncomputable def hasbrouckLambda (ols : List (List ℝ) → List ℝ → List ℝ) (ticks : List (BTick ℝ))
    (b0 : ℝ) : Py ℝ :=
  open Classical in
  if ∃ t ∈ ticks, t.price ≤ 0 ∨ t.volume < 0 then .error .unmodelled else do
  let ids := ticks.map fun t => t.bar
  let closes := (groupBy ids (ticks.map fun t => t.price)).map fun g => lastD g.2
  let aggressor := tickRule b0 (ticks.map fun t => t.price)
  let x := List.zipWith (fun (t : BTick ℝ) a => Real.sqrt (t.volume * t.price) * a) ticks aggressor
  let flow := (groupBy ids x).map fun g => g.2.sum
  let X ← addConstant flow.tail
  pyGet (ols X (diff1 (closes.map Real.log))) 1

section Vpin

variable {K : Type} [Field K] [LinearOrder K]

/-- `VOLUME*(aggressor == 1) - VOLUME*(aggressor == -1)`, microstructure.py:184-187. -/
def netVolume (t : BTick K) (a : K) : K :=
  t.volume * (if a = 1 then 1 else 0) - t.volume * (if a = -1 then 1 else 0)

/-- `volume_synchronized_pin`, microstructure.py:173-192: one value per bar, in bar order. -/
def vpin (ticks : List (BTick K)) (volumePerBar : K) (n : ℕ) (b0 : K) : List (ℤ × Option K) :=
  let aggressor := tickRule b0 (ticks.map fun t => t.price)
  let net := List.zipWith netVolume ticks aggressor
  let g := groupBy (ticks.map fun t => t.bar) net
  let sums := rolling n List.sum (g.map fun p => some p.2.sum)
  (g.map Prod.fst).zip (sums.map fun s => s.bind fun v => fdiv |v| ((n : K) * volumePerBar))

end Vpin

end FinML.Micro
