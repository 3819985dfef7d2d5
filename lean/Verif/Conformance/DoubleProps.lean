import Verif.Default.CountDoubleModel
import Verif.Metrics.TwrDoubleModel
import Verif.Entropy.SigmaDoubleModel
import Verif.Alloc.DivDoubleModel
import Verif.Bars.VwapDoubleProps
import Verif.Bars.EwmaDoubleProps
import Verif.Bars.DoubleProps
import Verif.FracDiff.DoubleProps
import Verif.Weights.DoubleProps
import Verif.Metrics.HhiDoubleProps
import Verif.Metrics.DdDoubleProps
import Verif.Filters.DoubleProps
import Verif.Alloc.HrpDoubleProps
import Verif.Options.DoubleProps
import Verif.Metrics.HoldDoubleProps
import Verif.Alloc.BudgetDoubleProps
import Verif.Weights.UniqDoubleProps
import Verif.Weights.DecayDoubleProps
import Mathlib.Tactic.Ring

/-!
# Without rounding, the models in doubles are the exact models

The computations modelled with a rounding function `rd` after every operation and a summation `sm` give what the exact
models give when nothing is rounded (`rd = id`, `sm = List.sum`).  So the error bounds compare the code in doubles with
the code in exact arithmetic, and not with some other formula.
-/

namespace FinML

section Bars
open FinML.Bars

private theorem cumsumR_id (s : ℚ) (q : List ℚ) : cumsumR id s q = cumsumFrom s q := by
  induction q generalizing s with
  | nil => rfl
  | cons x xs ih => simp only [cumsumR, cumsumFrom, id, ih]

/-- C213: without rounding the bar ids in doubles are those of the exact model. -/
theorem C213_without_rounding (freq : ℚ) (q : List ℚ) : cumIdsR id freq q = cumIds freq q := by
  simp only [cumIdsR, cumIds, cumsum, cumsumR_id, id]

private theorem adj_id (alpha : ℚ) (i : ℕ) (w old : ℚ) (l : List ℚ) :
    ewmaAdjLoopR id (fun a n => a ^ n) (1 - alpha) i w old l = ewmaAdjLoop alpha i w old l := by
  induction l generalizing i w old with
  | nil => rfl
  | cons x xs ih => simp only [ewmaAdjLoopR, ewmaAdjLoop, id, ih]

private theorem rec_id (alpha prev : ℚ) (l : List ℚ) :
    ewmaRecLoopR id alpha (1 - alpha) prev l = ewmaRecLoop alpha prev l := by
  induction l generalizing prev with
  | nil => rfl
  | cons x xs ih => simp only [ewmaRecLoopR, ewmaRecLoop, id, ih]

/-- C283: without rounding the moving average in doubles is that of the exact model. -/
theorem C283_without_rounding (l : List ℚ) (span : ℕ) (adjust : Bool) :
    fastEwmaR id (fun a n => a ^ n) l span adjust = fastEwma l span adjust := by
  cases l with
  | nil => rfl
  | cons x xs => simp only [fastEwmaR, fastEwma, id, adj_id, rec_id]

private theorem powLoop_id (fuel : ℕ) (a : ℚ) (n : ℕ) (r : ℚ) (h : n ≤ fuel) : powLoop id fuel a n r = r * a ^ n := by
  induction fuel generalizing a n r with
  | zero => obtain rfl : n = 0 := by omega
            simp [powLoop]
  | succ fuel ih =>
    rw [powLoop]
    by_cases h0 : n = 0
    · rw [if_pos h0, h0, pow_zero, mul_one]
    · rw [if_neg h0, ih _ _ _ (by omega)]
      simp only [id]
      have e : a ^ n = (a * a) ^ (n / 2) * a ^ (n % 2) := by
        rw [← pow_two, ← pow_mul, ← pow_add]
        congr 1
        omega
      rw [e]
      by_cases h1 : n % 2 = 1
      · rw [if_pos h1, h1, pow_one]
        ring
      · rw [if_neg h1, show n % 2 = 0 by omega, pow_zero, mul_one]

/-- C283: without rounding, repeated squaring is the power. -/
theorem C283_power_exact (a : ℚ) (n : ℕ) : powR id a n = a ^ n := by
  rw [powR, powLoop_id n a n 1 le_rfl, one_mul]

/-- C286: without rounding the bars in doubles are those of the exact model. -/
theorem C286_without_rounding (ticks : List (Tick ℚ)) : computeBarStatsR id List.sum ticks = computeBarStats ticks := by
  simp only [computeBarStatsR, computeBarStats, computeVwapR, computeVwap, Option.map_id_fun, id]

/-- C287: without rounding the resampled bars in doubles are those of the exact model. -/
theorem C287_without_rounding (bars : List (Bar ℚ)) :
    resampleBarStatsR id List.sum bars = resampleBarStats bars := by
  have e : barDollarsR id = barDollars (K := ℚ) := by
    funext b
    unfold barDollarsR barDollars
    cases b.vwap <;> rfl
  simp only [resampleBarStatsR, resampleBarStats, resampleVwapR, resampleVwap, Option.map_id_fun, id, e]

end Bars

section FracDiff
open FinML.FracDiff

/-- C272: without rounding the weights in doubles are those of the exact model. -/
theorem C272_without_rounding (d : ℚ) (n : ℕ) : getWeightsR id d n = getWeights d n := rfl

end FracDiff

section Metrics
open FinML.Metrics

/-- C284: without rounding the concentration in doubles is that of the exact model. -/
theorem C284_without_rounding (rets : List ℚ) : hhiConcentrationR id List.sum rets = hhiConcentration rets := by
  have e (l : List ℚ) : hhiR id List.sum l = hhi l := by
    simp only [hhiR, hhi, Option.map_id_fun, id, pow_two]
  simp only [hhiConcentrationR, hhiConcentration, e]

/-- C285: without rounding the drawdowns and times under water in doubles are those of the exact model. -/
theorem C285_without_rounding (s : Ser ℚ) (dollars : Bool) :
    drawdownsR id s dollars = drawdowns s dollars ∧ timeUnderWaterR id s = timeUnderWater s := ⟨rfl, rfl⟩

end Metrics

section Filters
open FinML.Filters

/-- C281: without rounding the events in doubles are those of the exact model. -/
theorem C281_without_rounding (index : List ℤ) (series : List ℚ) (thr : ℚ) :
    filterCusumR id index series thr = filterCusum index series thr := by
  have e (l : List ℚ) : diffsR id l = diffs l := by cases l <;> rfl
  have g (d : List (Option ℚ)) (ts : List ℤ) (s : Cusum ℚ) :
      cusumLoopR id index d thr ts s = cusumLoop index d thr ts s := by
    induction ts generalizing s with
    | nil => rfl
    | cons t ts ih =>
      simp only [cusumLoopR, cusumLoop]
      congr 1
      funext v
      exact ih _
  simp only [filterCusumR, filterCusum, e, g]

end Filters

section Alloc
open FinML.Alloc

/-- C245: without rounding the rounded size in doubles is that of the exact model. -/
theorem C245_without_rounding (step x : ℚ) : discretizeR id step x = discretize step x := rfl

private theorem pair_id (cov : ℕ → ℕ → ℚ) (var : List ℕ → ℚ) (hv : ∀ g x, clusterVar cov g = .ok x → x = var g)
    (ps : List (List ℕ)) (w v : Labelled ℚ) (h : pairLoop cov ps w = .ok v) : pairLoopR id var ps w = v := by
  induction ps, w using pairLoop.induct with
  | case1 w => cases h; rfl
  | case2 p w => cases h
  | case3 p1 p2 rest w ih =>
    simp only [pairLoop, splitWeights, py_bind_eq_ok, py_pure] at h
    obtain ⟨w', ⟨x, hx, y, hy, hw⟩, h2⟩ := h
    obtain rfl := hv _ _ hx
    obtain rfl := hv _ _ hy
    by_cases h0 : var p1 + var p2 = 0
    · rw [if_pos h0] at hw
      cases hw
    · rw [if_neg h0] at hw
      cases hw
      exact ih _ h2

private theorem bisect_id (cov : ℕ → ℕ → ℚ) (var : List ℕ → ℚ) (hv : ∀ g x, clusterVar cov g = .ok x → x = var g)
    (fuel : ℕ) (ps : List (List ℕ)) (w v : Labelled ℚ) (h : bisectLoop cov fuel ps w = .ok v) :
    bisectLoopR id var fuel ps w = v := by
  induction fuel generalizing ps w with
  | zero =>
    rw [bisectLoop] at h
    by_cases h0 : ps = []
    · rw [if_pos h0] at h
      cases h
      rfl
    · rw [if_neg h0] at h
      cases h
  | succ fuel ih =>
    rw [bisectLoop] at h
    rw [bisectLoopR]
    by_cases h0 : ps = []
    · rw [if_pos h0] at h
      cases h
      rw [if_pos h0]
    · rw [if_neg h0] at h
      rw [if_neg h0]
      simp only [py_bind_eq_ok] at h
      obtain ⟨w', h1, h2⟩ := h
      rw [pair_id cov var hv _ _ _ h1]
      exact ih _ _ h2

/-- C274: without rounding the weights in doubles are those of the exact model, when the variances of the groups are
those the code computes. -/
theorem C274_without_rounding (cov : ℕ → ℕ → ℚ) (var : List ℕ → ℚ)
    (hv : ∀ g x, clusterVar cov g = .ok x → x = var g) (order : List ℕ) (w : Labelled ℚ)
    (h : recursiveBisection cov order = .ok w) : recursiveBisectionR id var order = w :=
  bisect_id cov var hv _ _ _ _ h

/-- Two assets of variances 1 and 3 and no covariance get 3/4 and 1/4, with the variances the code computes. -/
example : recursiveBisection (fun i j => if i = j then (if i = 0 then 1 else 3) else 0 : ℕ → ℕ → ℚ) [0, 1] =
    .ok [(0, 3 / 4), (1, 1 / 4)] := by
  decide +kernel

end Alloc

section Weights
open FinML.Weights

/-- C273: without rounding, adding in any order gives the sum. -/
theorem C273_order_exact (l : List ℚ) (s : ℚ) (h : RSum id l s) : s = l.sum := by
  induction h with
  | one x => simp
  | add _ _ ih1 ih2 => simp only [List.sum_append, ih1, ih2, id]
  | perm hp _ ih => rw [ih, hp.sum_eq]

/-- C273: without rounding the compensated sum is the sum. -/
theorem C273_kahan_exact (l : List ℚ) : kahanSum id l = l.sum := by
  have g (s : ℚ) (l : List ℚ) : kahanLoop id s 0 l = s + l.sum := by
    induction l generalizing s with
    | nil => simp [kahanLoop]
    | cons p rest ih =>
      rw [kahanLoop]
      simp only [id, sub_zero]
      rw [show s + p - s - p = 0 by ring, ih, List.sum_cons]
      ring
  cases l with
  | nil => rfl
  | cons p rest => rw [kahanSum, g, List.sum_cons]

end Weights

section Options
open FinML.Options

/-- The library without rounding. -/
noncomputable def realLib : Lib ℝ := ⟨id, Real.exp, Real.sqrt, fun x j => x ^ j⟩

private theorem backward_same (tr : Tree) (early : ℝ → ℝ) (s0 : ℝ) (i : ℕ) (row : List ℝ) :
    backwardR realLib ⟨tr.u, tr.d, tr.p, tr.disc⟩ early s0 i row = backward tr early s0 i row := by
  induction i generalizing row with
  | zero => rfl
  | succ i ih => rw [backwardR, backward, ih]; rfl

/-- C292: without rounding the binomial price in doubles is that of the exact model. -/
theorem C292_without_rounding (ot style : OptionType) (s0 k t r sigma q : ℝ) (fut : Bool) (n : ℤ) :
    binomOptionPriceR realLib ot style s0 k t r sigma q fut n = binomOptionPrice ot style s0 k t r sigma q fut n := by
  have hex : exerciseR realLib ot s0 k = exercise ot s0 k := rfl
  have hev : earlyValueR realLib ot style k = earlyValue ot style k := rfl
  have ht : ∀ (m : ℕ), mkTreeR realLib t r sigma (if fut then r else q) m =
      (mkTree t r sigma (yieldUsed q r fut) m).map fun tr => ⟨tr.u, tr.d, tr.p, tr.disc⟩ := fun m => by
    unfold mkTreeR mkTree yieldUsed
    dsimp only
    by_cases hc : t / (m : ℝ) < 0 ∨ Real.exp (sigma * √(t / m)) - 1 / Real.exp (sigma * √(t / m)) = 0
    · rw [if_pos hc]; exact if_pos hc
    · rw [if_neg hc]; exact if_neg hc
  unfold binomOptionPriceR binomOptionPrice
  rw [hex, hev]
  by_cases h1 : n = 0
  · rw [if_pos h1, if_pos h1]
  by_cases h2 : n < 0
  · rw [if_neg h1, if_neg h1, if_pos h2, if_pos h2]
  by_cases h3 : (exercise ot s0 k).isNone
  · rw [if_neg h1, if_neg h1, if_neg h2, if_neg h2, if_pos h3, if_pos h3]
  rw [if_neg h1, if_neg h1, if_neg h2, if_neg h2, if_neg h3, if_neg h3]
  cases earlyValue ot style k with
  | none => rfl
  | some early =>
    dsimp only
    have := ht n.toNat
    rw [this, Option.map_map]
    congr 1
    congr 1
    funext tr
    simp only [Function.comp]
    rw [backward_same]
    rfl

end Options

section Decay
open FinML.Weights

/-- C293: without rounding the average uniqueness in doubles is that of the exact model. -/
theorem C293_without_rounding (bars : List ℤ) (ev : Series (Option ℤ)) :
    labelAvgUniquenessR id List.sum bars ev = labelAvgUniqueness (K := ℚ) bars ev := by
  have h : sliceUniquenessR id List.sum = sliceUniqueness (K := ℚ) := by
    funext counts e
    simp only [sliceUniquenessR, sliceUniqueness, Option.map_id_fun, id]
    unfold meanOptR meanOpt
    split <;> simp_all
  unfold labelAvgUniquenessR labelAvgUniqueness
  rw [h]

private theorem decayCumsum_id (s : ℚ) (l : List ℚ) : cumsumFromR id s l = cumsumFrom s l := by
  induction l generalizing s with
  | nil => rfl
  | cons x xs ih => simp only [cumsumFromR, cumsumFrom, id, ih]

/-- C294: without rounding the decayed weights in doubles are those of the exact model. -/
theorem C294_without_rounding (obs : Series ℚ) (c : ℚ) : applyTimeDecayR id obs c = applyTimeDecay obs c := by
  have h : decaySlopeR id = decaySlope (K := ℚ) := by
    funext a b
    simp only [decaySlopeR, decaySlope, Option.map_id_fun, id]
  unfold applyTimeDecayR applyTimeDecay decayWeightR
  simp only [decayCumsum_id, h, cumsum, id]
  cases pyLast (cumsumFrom 0 (List.map Prod.snd (sortIndex obs))) with
  | error => rfl
  | ok total =>
    simp only [py_bind_ok]
    cases decaySlope c total with
    | none => rfl
    | some slope =>
      dsimp only

end Decay

section Budget
open FinML.Alloc

/-- C295: without rounding the budgeted sizes in doubles are those of the exact model. -/
theorem C295_without_rounding (bars : List ℤ) (events : List (ℤ × Option ℤ × ℚ)) (budgetFn : List ℚ → Py ℚ) :
    budgetedPositionSizeR id bars events budgetFn = budgetedPositionSize bars events budgetFn := by
  have h : divSeriesR id = divSeries (K := ℚ) := by
    funext c b
    simp only [divSeriesR, divSeries, Option.map_id_fun, id]
  unfold budgetedPositionSizeR budgetedPositionSize
  rw [h]
  rfl

end Budget

section Hold
open FinML.Metrics

/-- C296: without rounding the holding period in doubles is that of the exact model. -/
theorem C296_without_rounding (s : Ser ℚ) : holdingPeriodR id List.sum s = holdingPeriod s := by
  have h (t0 : ℤ) (rest : Ser ℚ) : ∀ (p : ℚ) (st : HoldState ℚ), holdLoopR id t0 p st rest = holdLoop t0 p st rest := by
    induction rest with
    | nil => intro p st; rfl
    | cons y rest ih =>
      intro p st
      rw [holdLoopR, holdLoop, ih]
      rfl
  cases s with
  | nil => rfl
  | cons x rest =>
    obtain ⟨t0, p⟩ := x
    rw [holdingPeriodR, holdingPeriod, h]
    rfl

end Hold

section Divergence
open FinML.Alloc

/-- C318: without rounding the size from the divergence in doubles is that of the exact model. -/
theorem C318_without_rounding (forecast marketPrice maxSize w : ℝ) :
    divergenceR id (fun b : ℝ => b ^ (-0.5 : ℝ)) forecast marketPrice maxSize w =
      positionSizeFromDivergence forecast marketPrice maxSize w := rfl

end Divergence

section Sigma
open FinML.Entropy

/-- C319: without rounding the sigma code in doubles is that of the exact model. -/
theorem C319_without_rounding (series : List ℚ) (sigma : ℚ) :
    sigmaEncodeR id series sigma = sigmaEncode series sigma := rfl

end Sigma

section Counts
open FinML.Default

theorem pairUpR_id : ∀ l : List (List ℚ), pairUpR id l = pairUp l
  | [] => rfl
  | [_] => rfl
  | a :: b :: rest => by
    unfold pairUpR pairUp
    rw [pairUpR_id rest]
    rfl

theorem mergeAllR_id (l : List (List ℚ)) : mergeAllR id l = mergeAll l := by
  obtain ⟨n, hn⟩ : ∃ n, l.length = n := ⟨_, rfl⟩
  induction n using Nat.strong_induction_on generalizing l with
  | _ n ih =>
    unfold mergeAllR mergeAll
    by_cases h1 : 1 < l.length
    · rw [if_pos h1, if_pos h1]
      split <;> rename_i x hx <;> rw [pairUpR_id] at hx <;> split <;> rename_i y hy <;> rw [hx] at hy <;> cases hy
      · have := pairUp_length hx
        exact ih _ (by omega) _ rfl
      · rfl
    · rw [if_neg h1, if_neg h1]

/-- C321: without rounding the number of defaults in doubles is that of the exact model. -/
theorem C321_without_rounding (probs : List ℚ) : systematicDefaultProbsR id probs = systematicDefaultProbs probs := by
  unfold systematicDefaultProbsR systematicDefaultProbs getDefaultCountProbsR getDefaultCountProbs
  rw [mergeAllR_id]
  rfl

end Counts

section TimeWeighted
open FinML.Metrics

/-- C327: without rounding the time weighted return in doubles is that of the exact model. -/
theorem C327_without_rounding (rows : List (ℚ × ℚ)) :
    timeWeightedReturnR id List.prod rows = timeWeightedReturn rows := by
  cases rows with
  | nil => rfl
  | cons a rest => rfl

end TimeWeighted

end FinML
