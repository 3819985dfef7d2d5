import Verif.Micro.Model
import Verif.Bars.MissFlowModel
import Mathlib.Data.List.ReduceOption

/-!
# Microstructure features with missing values (microstructure.py:32-192)

NaN is `none`.  `tick_rule` is `Bars.tickRuleM`.  Rolling windows with a missing value give NaN.
-/

namespace FinML.Micro

open Bars (tickRuleM changeM mulM)

/-- High and low of a bar, each of which may be missing; microstructure.py:60, 66. -/
structure HLM where
  high : Option ℝ
  low : Option ℝ

/-- `(np.log(HIGH) - np.log(LOW))**2`, microstructure.py:60-61. -/
noncomputable def hlSqM (b : HLM) : Option ℝ := b.high.bind fun h => b.low.bind fun l => hlSq ⟨h, l⟩

/-- `high_low_volatility`, microstructure.py:52-62. -/
noncomputable def highLowVolM (bars : List HLM) (window : ℕ) : List (Option ℝ) :=
  (rolling window (meanW window) (bars.map hlSqM)).map (Option.map fun m => Real.sqrt (m / (4 * Real.log 2)))

/-- `np.log(h/l)**2`, microstructure.py:66, 75. -/
noncomputable def ratioSqM (h l : Option ℝ) : Option ℝ := h.bind fun x => l.bind fun y => hlRatioSq x y

/-- `_get_beta` before `dropna`, microstructure.py:65-69. -/
noncomputable def betaM (bars : List HLM) (window : ℕ) : List (Option ℝ) :=
  rolling window (meanW window) (rolling 2 List.sum (bars.map fun b => ratioSqM b.high b.low))

/-- `_get_gamma` before `dropna`, microstructure.py:72-76. -/
noncomputable def gammaM (bars : List HLM) : List (Option ℝ) :=
  List.zipWith ratioSqM (rolling 2 maxL (bars.map HLM.high)) (rolling 2 minL (bars.map HLM.low))

/-- The spread column of `corwin_schultz_spread` by position, microstructure.py:110-113. -/
noncomputable def spreadColM (bars : List HLM) (window : ℕ) : List (Option ℝ) :=
  (zipO alphaOf (betaM bars window) (gammaM bars)).map (Option.map spreadOf)

/-- The spread table of `corwin_schultz_spread`, microstructure.py:110-116: the start times are the first labels of the bars,
whichever rows have been dropped. -/
noncomputable def spreadTableM (index : List ℤ) (bars : List HLM) (window : ℕ) : List SpreadRow :=
  let rows := rowsOf index (spreadColM bars window)
  List.zipWith (fun r s => ⟨r.1, r.2, s⟩) rows (index.take rows.length)

/-- The volatility column of `corwin_schultz_spread`, microstructure.py:117. -/
noncomputable def volColM (bars : List HLM) (window : ℕ) : List (Option ℝ) := zipO sigmaOf (betaM bars window) (gammaM bars)

/-! ## Ticks -/

/-- `series.diff().values[1:]`, microstructure.py:44, 129. -/
noncomputable def diff1M (l : List (Option ℝ)) : List (Option ℝ) := List.zipWith (fun b a => changeM a b) l.tail l

/-- `np.var`, NaN with a NaN among the values; microstructure.py:45. -/
noncomputable def npVarM (l : List (Option ℝ)) : Option ℝ := if none ∈ l then none else npVar l.reduceOption

/-- `np.cov(a, b)[0, 1]`, NaN with a NaN among the values; microstructure.py:46. -/
noncomputable def npCovM (a b : List (Option ℝ)) : Option ℝ :=
  if none ∈ a ∨ none ∈ b then none else npCov a.reduceOption b.reduceOption

/-- `roll_effective_spread`, microstructure.py:32-49.  `max(0, nan)` is 0 in Python. -/
noncomputable def rollSpreadM (prices : List (Option ℝ)) : ℝ × Option ℝ :=
  let dp := diff1M prices
  let dpVar := npVarM dp
  let dpCov := npCovM dp.dropLast dp.tail
  let c := Real.sqrt (dpCov.elim 0 fun v => max 0 (-v))
  (c * 2, dpVar.bind fun v => dpCov.map fun w => v + 2 * w)

/-- `sm.OLS(y, sm.add_constant(x)).fit().params[1]`: a NaN among the regressors raises MissingDataError (`exception`), a NaN among
the responses makes all parameters NaN; microstructure.py:132-135, 147-150, 167-170. -/
noncomputable def slopeM (ols : List (List ℝ) → List ℝ → List ℝ) (x y : List (Option ℝ)) : Py (Option ℝ) :=
  if none ∈ x then .error .exception else do
  let X ← addConstant x.reduceOption
  let v ← pyGet (ols X (y.map fun o => o.getD 0)) 1
  return if none ∈ y then none else some v

/-- `kyle_lambda`, microstructure.py:121-135. -/
noncomputable def kyleLambdaM (ols : List (List ℝ) → List ℝ → List ℝ) (prices volumes : List (Option ℝ)) (b0 : ℝ) :
    Py (Option ℝ) :=
  slopeM ols (List.zipWith mulM volumes (tickRuleM b0 prices)).tail (diff1M prices)

/-- `amihud_lambda`, microstructure.py:138-150, for positive closes. -/
noncomputable def amihudLambdaM (ols : List (List ℝ) → List ℝ → List ℝ) (closes vwaps volumes : List (Option ℝ)) :
    Py (Option ℝ) :=
  open Classical in
  if ∃ c ∈ closes.reduceOption, c ≤ 0 then .error .unmodelled else
  slopeM ols (List.zipWith mulM vwaps volumes).tail
    ((diff1M (closes.map (Option.map Real.log))).map (Option.map fun x => |x|))

/-- A tick with bar id whose price and volume may be missing; microstructure.py:161-166. -/
structure BTickM (K : Type) where
  price : Option K
  volume : Option K
  bar : ℤ

/-- `groupby(...).last()`: the last value that is not missing; microstructure.py:161. -/
def lastKnown {K : Type} (l : List (Option K)) : Option K := l.reduceOption.getLast?

/-- `hasbrouck_lambda`, microstructure.py:153-170, for positive prices and non-negative volumes: `last` and `sum` of a group skip
missing values. -/
noncomputable def hasbrouckLambdaM (ols : List (List ℝ) → List ℝ → List ℝ) (ticks : List (BTickM ℝ)) (b0 : ℝ) :
    Py (Option ℝ) :=
  open Classical in
  if (∃ t ∈ ticks, ∃ p, t.price = some p ∧ p ≤ 0) ∨ (∃ t ∈ ticks, ∃ v, t.volume = some v ∧ v < 0) then .error .unmodelled else
  let ids := ticks.map fun t => t.bar
  let closes := (groupBy ids (ticks.map fun t => t.price)).map fun g => lastKnown g.2
  let aggressor := tickRuleM b0 (ticks.map fun t => t.price)
  let x := List.zipWith (fun (t : BTickM ℝ) a => mulM ((mulM t.volume t.price).map Real.sqrt) a) ticks aggressor
  let flow := (groupBy ids x).map fun g => some g.2.reduceOption.sum
  slopeM ols flow.tail (diff1M (closes.map (Option.map Real.log)))

section Vpin

variable {K : Type} [Field K] [LinearOrder K] [IsStrictOrderedRing K]

/-- `VOLUME*(aggressor == 1) - VOLUME*(aggressor == -1)`, microstructure.py:184-187; NaN is equal to neither. -/
def netVolumeM (t : BTickM K) (a : Option K) : Option K :=
  t.volume.map fun v => v * (if a = some 1 then 1 else 0) - v * (if a = some (-1) then 1 else 0)

/-- `volume_synchronized_pin`, microstructure.py:173-192; the sum of a group skips missing values. -/
def vpinM (ticks : List (BTickM K)) (volumePerBar : K) (n : ℕ) (b0 : K) : List (ℤ × Option K) :=
  let aggressor := tickRuleM b0 (ticks.map fun t => t.price)
  let net := List.zipWith netVolumeM ticks aggressor
  let g := groupBy (ticks.map fun t => t.bar) net
  let sums := rolling n List.sum (g.map fun p => some p.2.reduceOption.sum)
  (g.map Prod.fst).zip (sums.map fun s => s.bind fun v => fdiv |v| ((n : K) * volumePerBar))

end Vpin

end FinML.Micro
