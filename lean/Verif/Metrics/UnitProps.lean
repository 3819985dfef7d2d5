import Verif.Metrics.SharpeProps
import Verif.Metrics.DdProps
import Verif.Metrics.PosProps
import Verif.Metrics.RetProps

/-!
# C176: performance metrics have no currency
-/

namespace FinML.Metrics

set_option linter.unusedSectionVars false

section
variable {K : Type} [Field K] [LinearOrder K] [IsStrictOrderedRing K]

/-- A series in another unit, with a clock that starts elsewhere. -/
def conv (c : K) (d : ℤ) (s : Ser K) : Ser K := s.map fun p => (p.1 + d, c * p.2)

variable {c : K} {d : ℤ}

theorem sort_dedup_shift (l : List ℤ) :
    (l.map (· + d)).dedup.insertionSort (· ≤ ·) = (l.dedup.insertionSort (· ≤ ·)).map (· + d) := by
  rw [List.dedup_map_of_injective (add_left_injective d)]
  exact (List.map_insertionSort (· ≤ ·) (· ≤ ·) (· + d) _ (fun _ _ _ _ => by simp)).symm

theorem conv_fst (s : Ser K) : (conv c d s).map Prod.fst = (s.map Prod.fst).map (· + d) := by
  unfold conv
  rw [List.map_map, List.map_map]
  rfl

theorem conv_snd (s : Ser K) : (conv c d s).map Prod.snd = (s.map Prod.snd).map (c * ·) := by
  unfold conv
  rw [List.map_map, List.map_map]
  rfl

theorem shift_conv (s : Ser K) :
    shift (conv c d s) = (shift s).map fun p => (p.1 + d, p.2.map (c * ·)) := by
  unfold shift
  rw [conv_fst]
  have : (none :: (conv c d s).map fun p => some p.2) =
      (none :: s.map fun p => some p.2).map (Option.map (c * ·)) := by
    simp [conv, Function.comp_def]
  rw [this, List.zip_map]
  rfl

theorem flips_conv (s : Ser K) : flips (conv c d s) = conv (c * c) d (flips s) := by
  unfold flips conv
  rw [← List.map_tail, ← List.map_dropLast, List.map_map, List.map_zipWith]
  have e : s.dropLast.map (Prod.snd ∘ fun p : ℤ × K => (p.1 + d, c * p.2)) =
      (s.dropLast.map Prod.snd).map (c * ·) := by
    rw [List.map_map]; rfl
  rw [e, List.zipWith_map]
  congr 1
  funext p y
  simp only [Prod.mk.injEq, true_and]
  ring

/-- C176 (timings): flattenings and flips do not depend on the unit of the positions; the clock may start
anywhere. -/
theorem C176_timings (hc : c ≠ 0) (s : Ser K) :
    positionTimings (conv c d s) = (positionTimings s).map (· + d) := by
  unfold positionTimings
  have e1 : ((conv c d s).filter fun p => p.2 = 0).map Prod.fst =
      ((s.filter fun p => p.2 = 0).map Prod.fst).map (· + d) := by
    unfold conv
    rw [List.filter_map, List.map_map, List.map_map]
    have : ((fun p : ℤ × K => decide (p.2 = 0)) ∘ fun p : ℤ × K => (p.1 + d, c * p.2)) =
        fun p => decide (p.2 = 0) := by
      funext p
      simp [hc]
    rw [this]
    rfl
  have e2 : ((shift (conv c d s)).filter fun p => p.2 ≠ some 0).map Prod.fst =
      (((shift s).filter fun p => p.2 ≠ some 0).map Prod.fst).map (· + d) := by
    rw [shift_conv, List.filter_map, List.map_map, List.map_map]
    have : ((fun p : ℤ × Option K => decide (p.2 ≠ some 0)) ∘
        fun p : ℤ × Option K => (p.1 + d, p.2.map (c * ·))) = fun p => decide (p.2 ≠ some 0) := by
      funext p
      obtain ⟨t, x⟩ := p
      cases x <;> simp [hc]
    rw [this]
    rfl
  have e3 : ((flips (conv c d s)).filter fun p => p.2 < 0).map Prod.fst =
      (((flips s).filter fun p => p.2 < 0).map Prod.fst).map (· + d) := by
    rw [flips_conv]
    unfold conv
    rw [List.filter_map, List.map_map, List.map_map]
    have : ((fun p : ℤ × K => decide (p.2 < 0)) ∘ fun p : ℤ × K => (p.1 + d, c * c * p.2)) =
        fun p => decide (p.2 < 0) := by
      funext p
      have := mul_self_pos.2 hc
      simp only [Function.comp, decide_eq_decide]
      constructor
      · intro h
        by_contra h'
        exact absurd h (not_lt.2 (mul_nonneg this.le (not_lt.1 h')))
      · exact fun h => mul_neg_of_pos_of_neg this h
    rw [this]
    rfl
  simp only
  rw [e1, e2, e3, ← sort_dedup_shift, List.map_append]
  congr 3
  rw [List.filter_map]
  congr 2
  funext t
  simp

/-! ## Holding period -/

/-- The state with the sizes in another unit. -/
def HoldState.conv (c : K) (st : HoldState K) : HoldState K := (st.1, st.2.map fun x => (x.1, |c| * x.2))

theorem holdStep_conv (hc : c ≠ 0) (p q t : K) (st : HoldState K) :
    holdStep (c * p) (c * q) t (HoldState.conv c st) = HoldState.conv c (holdStep p q t st) := by
  have hcc := mul_self_pos.2 hc
  have g1 : 0 ≤ (c * q - c * p) * (c * p) ↔ 0 ≤ (q - p) * p := by
    rw [show (c * q - c * p) * (c * p) = (c * c) * ((q - p) * p) by ring]
    exact mul_nonneg_iff_of_pos_left hcc
  have g2 : c * q ≠ 0 ↔ q ≠ 0 := by simp [hc]
  have g3 : c * q * (c * p) < 0 ↔ q * p < 0 := by
    rw [show c * q * (c * p) = (c * c) * (q * p) by ring]
    rw [← not_le, ← not_le, mul_nonneg_iff_of_pos_left hcc]
  unfold holdStep
  simp only [g1, g2, g3]
  split_ifs with h1 h2 h3
  · simp only [HoldState.conv, Prod.mk.injEq, and_true]
    have hq : q ≠ 0 := h2
    field_simp
  · rfl
  · simp [HoldState.conv, abs_mul]
  · simp only [HoldState.conv, List.map_append, List.map_cons, List.map_nil, Prod.mk.injEq, true_and]
    rw [← mul_sub, abs_mul]

theorem holdLoop_conv (hc : c ≠ 0) (t0 : ℤ) (rest : Ser K) : ∀ (p : K) (st : HoldState K),
    holdLoop (t0 + d) (c * p) (HoldState.conv c st) (conv c d rest) =
      HoldState.conv c (holdLoop t0 p st rest) := by
  induction rest with
  | nil => intro p st; rfl
  | cons x rest ih =>
    intro p st
    obtain ⟨t, q⟩ := x
    change holdLoop (t0 + d) (c * q) (holdStep (c * p) (c * q) (((t + d - (t0 + d) : ℤ) : K) / (dayNs : K))
      (HoldState.conv c st)) (conv c d rest) = _
    rw [show t + d - (t0 + d) = t - t0 by ring, holdStep_conv hc, ih]
    rfl

theorem holdAverage_conv (hc : c ≠ 0) (hp : List (Closed K)) :
    holdAverage (hp.map fun x => (x.1, |c| * x.2)) = holdAverage hp := by
  have h0 : 0 < |c| := abs_pos.2 hc
  have e1 : ((hp.map fun x => (x.1, |c| * x.2)).map Prod.snd).sum = |c| * (hp.map Prod.snd).sum := by
    rw [List.map_map]
    exact List.sum_map_mul_left hp Prod.snd |c|
  have e2 : ((hp.map fun x => (x.1, |c| * x.2)).map fun x => x.1 * x.2).sum =
      |c| * (hp.map fun x => x.1 * x.2).sum := by
    rw [List.map_map, ← List.sum_map_mul_left]
    congr 1
    apply List.map_congr_left
    intro x _
    simp only [Function.comp]
    ring
  unfold holdAverage
  rw [e1, e2]
  simp only [mul_pos_iff_of_pos_left h0, mul_div_mul_left _ _ h0.ne']

/-- C176 (holding period): the average holding period does not depend on the unit of the positions, on
whether they are long or short, or on where the clock starts. -/
theorem C176_holding_period (hc : c ≠ 0) (s : Ser K) : holdingPeriod (conv c d s) = holdingPeriod s := by
  cases s with
  | nil => rfl
  | cons x rest =>
    obtain ⟨t0, p⟩ := x
    change Except.ok (holdAverage (holdLoop (t0 + d) (c * p) (0, []) (conv c d rest)).2) =
      Except.ok (holdAverage (holdLoop t0 p (0, []) rest).2)
    have := holdLoop_conv (d := d) hc t0 rest p (0, [])
    rw [show HoldState.conv c ((0, []) : HoldState K) = (0, []) from rfl] at this
    rw [this]
    exact congrArg _ (holdAverage_conv hc _)

/-! ## Returns -/

theorem twrReturns_conv (hc : c ≠ 0) (rows : List (K × K)) :
    twrReturns (rows.map fun r => (c * r.1, c * r.2)) = twrReturns rows := by
  cases rows with
  | nil => rfl
  | cons x rest =>
    obtain ⟨v, f⟩ := x
    have key : (((rest.map fun r => (c * r.1, c * r.2)).zip
          ((c * v, c * f) :: rest.map fun r => (c * r.1, c * r.2))).mapM fun x =>
        let b := x.2.1 + x.2.2
        if b = 0 then (throw .unmodelled : Py (Option K)) else return some ((x.1.1 - b) / b)) =
        ((rest.zip ((v, f) :: rest)).mapM fun x =>
        let b := x.2.1 + x.2.2
        if b = 0 then (throw .unmodelled : Py (Option K)) else return some ((x.1.1 - b) / b)) := by
      have e : (c * v, c * f) :: rest.map (fun r => (c * r.1, c * r.2)) =
          ((v, f) :: rest).map fun r => (c * r.1, c * r.2) := rfl
      rw [e, List.zip_map, List.mapM_map]
      congr 1
      funext x
      simp only [Function.comp, Prod.map, ← mul_add, mul_eq_zero, hc, false_or, ← mul_sub,
        mul_div_mul_left _ _ hc]
    change (do
      let rs ← ((rest.map fun r => (c * r.1, c * r.2)).zip
          ((c * v, c * f) :: rest.map fun r => (c * r.1, c * r.2))).mapM fun x =>
        let b := x.2.1 + x.2.2
        if b = 0 then (throw .unmodelled : Py (Option K)) else return some ((x.1.1 - b) / b)
      return none :: rs : Py (List (Option K))) = _
    rw [key]
    rfl

/-- C176 (time weighted return): values and cash flows may be in any unit. -/
theorem C176_time_weighted (hc : c ≠ 0) (rows : List (K × K)) :
    timeWeightedReturn (rows.map fun r => (c * r.1, c * r.2)) = timeWeightedReturn rows := by
  unfold timeWeightedReturn
  rw [twrReturns_conv hc]

theorem hhi_conv (hc : c ≠ 0) (rets : List K) : hhi (rets.map (c * ·)) = hhi rets := by
  have e : (rets.map (c * ·)).sum = c * rets.sum := by
    simpa using List.sum_map_mul_left rets id c
  have ew : (rets.map (c * ·)).map (fun r => fdiv r (c * rets.sum)) = rets.map fun r => fdiv r rets.sum := by
    rw [List.map_map]
    apply List.map_congr_left
    intro r _
    simp only [Function.comp, fdiv, mul_eq_zero, hc, false_or, mul_div_mul_left _ _ hc]
  unfold hhi
  simp only [e, ew, List.length_map]

/-- C176 (concentration): the concentration of returns does not depend on the unit of the returns. -/
theorem C176_concentration (hc : 0 < c) (rets : List K) :
    hhiConcentration (rets.map (c * ·)) = hhiConcentration rets := by
  have e1 : (rets.map (c * ·)).filter (fun r => 0 ≤ r) = (rets.filter fun r => 0 ≤ r).map (c * ·) := by
    rw [List.filter_map]
    congr 2
    funext r
    simp [mul_nonneg_iff_of_pos_left hc]
  have e2 : (rets.map (c * ·)).filter (fun r => r < 0) = (rets.filter fun r => r < 0).map (c * ·) := by
    rw [List.filter_map]
    congr 2
    funext r
    simp only [Function.comp, decide_eq_decide]
    rw [← not_le, ← not_le, mul_nonneg_iff_of_pos_left hc]
  unfold hhiConcentration
  simp only [e1, e2, List.length_map, hhi_conv hc.ne']

/-! ## Drawdowns -/

theorem cummaxFrom_conv (hc : 0 < c) (l : List K) : ∀ m : K,
    cummaxFrom (c * m) (l.map (c * ·)) = (cummaxFrom m l).map (c * ·) := by
  induction l with
  | nil => intro m; rfl
  | cons x l ih =>
    intro m
    simp only [cummaxFrom, List.map_cons, ← mul_max_of_nonneg _ _ hc.le, ih]

theorem cummax_conv (hc : 0 < c) (l : List K) : cummax (l.map (c * ·)) = (cummax l).map (c * ·) := by
  cases l with
  | nil => rfl
  | cons x l => simp only [cummax, List.map_cons, cummaxFrom_conv hc]

theorem groupMin_conv (hc : 0 < c) (l : List K) : groupMin (l.map (c * ·)) = (groupMin l).map (c * ·) := by
  cases l with
  | nil => rfl
  | cons x l =>
    simp only [groupMin, List.map_cons, Option.map_some]
    congr 1
    induction l generalizing x with
    | nil => rfl
    | cons y l ih =>
      simp only [List.map_cons, List.foldl_cons, ← mul_min_of_nonneg _ _ hc.le]
      exact ih _

theorem firstTimes_conv (hc : c ≠ 0) (l : List (ℤ × K)) : ∀ seen : List K,
    firstTimes (seen.map (c * ·)) (conv c d l) = (firstTimes seen l).map (· + d) := by
  induction l with
  | nil => intro seen; rfl
  | cons x l ih =>
    intro seen
    obtain ⟨t, h⟩ := x
    have hm : c * h ∈ seen.map (c * ·) ↔ h ∈ seen := by
      simp [hc]
    change (if c * h ∈ seen.map (c * ·) then firstTimes (seen.map (c * ·)) (conv c d l)
      else (t + d) :: firstTimes (c * h :: seen.map (c * ·)) (conv c d l)) = _
    have e := ih (h :: seen)
    rw [List.map_cons] at e
    simp only [hm, ih seen, e, firstTimes]
    split_ifs <;> rfl

theorem groupBy_conv (hc : 0 < c) (ids xs : List K) :
    groupBy (ids.map (c * ·)) (xs.map (c * ·)) =
      (groupBy ids xs).map fun g => (c * g.1, g.2.map (c * ·)) := by
  have inj : Function.Injective (c * · : K → K) := mul_right_injective₀ hc.ne'
  unfold groupBy
  rw [List.dedup_map_of_injective inj,
    ← List.map_insertionSort (· ≤ ·) (· ≤ ·) (c * ·) _ (fun a _ b _ => (mul_le_mul_iff_right₀ hc).symm),
    List.map_map, List.map_map]
  apply List.map_congr_left
  intro k _
  simp only [Function.comp, Prod.mk.injEq, true_and]
  rw [List.zip_map, List.filter_map, List.map_map, List.map_map]
  have : ((fun p : K × K => decide (p.1 = c * k)) ∘ Prod.map (c * ·) (c * ·)) =
      fun p => decide (p.1 = k) := by
    funext p
    simp [hc.ne']
  rw [this]
  rfl

/-- A row in another unit. -/
def HwmRow.conv (c : K) (d : ℤ) (r : HwmRow K) : HwmRow K := ⟨r.time + d, c * r.hwm, c * r.low⟩

theorem hwmRows_conv (hc : 0 < c) (s : Ser K) : hwmRows (conv c d s) = (hwmRows s).map (HwmRow.conv c d) := by
  unfold hwmRows
  simp only [conv_fst, conv_snd, cummax_conv hc, groupBy_conv hc]
  generalize hg : groupBy (cummax (s.map Prod.snd)) (s.map Prod.snd) = gs
  generalize cummax (s.map Prod.snd) = hw
  have e1 : (gs.map fun g => (c * g.1, g.2.map (c * ·))).filterMap
      (fun g => (groupMin g.2).map fun m => (g.1, m)) =
      (gs.filterMap fun g => (groupMin g.2).map fun m => (g.1, m)).map fun g => (c * g.1, c * g.2) := by
    rw [List.filterMap_map, List.map_filterMap]
    congr 1
    funext g
    simp only [Function.comp, groupMin_conv hc]
    cases groupMin g.2 <;> rfl
  have e2 : firstTimes [] (((s.map Prod.fst).map (· + d)).zip (hw.map (c * ·))) =
      (firstTimes [] ((s.map Prod.fst).zip hw)).map (· + d) := by
    rw [List.zip_map]
    exact firstTimes_conv hc.ne' _ []
  rw [e1, e2, List.zipWith_map]
  have e3 : (firstTimes [] ((s.map Prod.fst).zip hw)).zipWith
      (fun (t : ℤ) (g : K × K) => (⟨t + d, c * g.1, c * g.2⟩ : HwmRow K))
        (gs.filterMap fun g => (groupMin g.2).map fun m => (g.1, m)) =
      ((firstTimes [] ((s.map Prod.fst).zip hw)).zipWith
        (fun (t : ℤ) (g : K × K) => (⟨t, g.1, g.2⟩ : HwmRow K))
        (gs.filterMap fun g => (groupMin g.2).map fun m => (g.1, m))).map (HwmRow.conv c d) := by
    rw [List.map_zipWith]
    rfl
  rw [e3, List.filter_map]
  congr 2
  funext r
  simp [HwmRow.conv, mul_lt_mul_iff_right₀ hc]

/-- C176 (drawdowns): in another currency, drawdowns in money are in that currency, relative drawdowns and
times under water are the same; the clock may start anywhere. -/
theorem C176_drawdowns (hc : 0 < c) (s : Ser K) :
    drawdowns (conv c d s) true = (drawdowns s true).map (fun p => (p.1 + d, p.2.map (c * ·))) ∧
    drawdowns (conv c d s) false = (drawdowns s false).map (fun p => (p.1 + d, p.2)) ∧
    timeUnderWater (conv c d s) = (timeUnderWater s).map fun p => (p.1 + d, p.2) := by
  unfold drawdowns timeUnderWater
  rw [hwmRows_conv hc]
  refine ⟨?_, ?_, ?_⟩
  · rw [List.map_map, List.map_map]
    apply List.map_congr_left
    intro r _
    simp [HwmRow.conv, mul_sub]
  · rw [List.map_map, List.map_map]
    apply List.map_congr_left
    intro r _
    simp [HwmRow.conv, fdiv, hc.ne', mul_div_mul_left _ _ hc.ne']
  · have e : ((hwmRows s).map (HwmRow.conv c d)).map HwmRow.time = ((hwmRows s).map HwmRow.time).map (· + d) := by
      rw [List.map_map, List.map_map]
      rfl
    simp only [e]
    generalize (hwmRows s).map HwmRow.time = ts
    rw [← List.map_dropLast, ← List.map_tail, List.zipWith_map, List.map_zipWith]
    congr 1
    funext a b
    simp

end

/-! ## Sharpe ratios -/

variable {c : ℝ}

theorem moment_scale (k : ℕ) (l : List ℝ) (c : ℝ) : moment k (l.map fun x => c * x) = c ^ k * moment k l := by
  simpa using moment_affine k l c 0

theorem npStd_scale (hc : 0 < c) (l : List ℝ) : npStd (l.map fun x => c * x) = c * npStd l := by
  have := npStd_affine l c 0
  rw [abs_of_pos hc] at this
  simpa using this

theorem psrLine_conv (hc : 0 < c) (l : List ℝ) (b : ℝ) (n : ℕ) :
    psrLine (l.map fun x => c * x) b n = psrLine l b n := by
  have e1 : sharpe (l.map fun x => c * x) = sharpe l := (C97_scale l c).1 hc
  have e2 : skew (l.map fun x => c * x) = skew l := by
    unfold skew fdiv
    rw [moment_scale, npStd_scale hc, mul_pow]
    have : c ^ 3 ≠ 0 := pow_ne_zero _ hc.ne'
    simp [hc.ne', mul_div_mul_left _ _ this]
  have e3 : kurtosis (l.map fun x => c * x) = kurtosis l := by
    unfold kurtosis fdiv
    rw [moment_scale, moment_scale, mul_pow, ← pow_mul]
    have : c ^ (2 * 2) ≠ 0 := pow_ne_zero _ hc.ne'
    simp [hc.ne', mul_div_mul_left _ _ this]
  unfold psrLine
  rw [e1, e2, e3]

theorem lines_conv (m : List (List ℝ)) (ax : Axis) :
    lines (m.map (List.map fun x => c * x)) ax = (lines m ax).map (List.map fun x => c * x) := by
  cases ax with
  | all => simp [lines, List.map_flatten]
  | cols => rfl
  | rows =>
    have h : ((m.map (List.map fun x => c * x)).headD []).length = (m.headD []).length := by
      cases m <;> simp
    simp only [lines]
    rw [h, List.map_map]
    apply List.map_congr_left
    intro j _
    simp only [Function.comp, List.map_map]
    apply List.map_congr_left
    intro r _
    simp only [Function.comp]
    rw [List.getD_eq_getElem?_getD, List.getD_eq_getElem?_getD, List.getElem?_map]
    cases r[j]? <;> simp

theorem numObs_conv (m : List (List ℝ)) (ax : Axis) :
    numObs (m.map (List.map fun x => c * x)) ax = numObs m ax := by
  cases ax with
  | all => simp [numObs, Function.comp_def]
  | rows => simp [numObs, Function.comp_def]
  | cols => cases m <;> simp [numObs]

theorem psr_conv (hc : 0 < c) (m : List (List ℝ)) (b : ℝ) (ax : Axis) :
    psr (m.map (List.map fun x => c * x)) b ax = psr m b ax := by
  unfold psr
  rw [lines_conv, numObs_conv, List.map_map]
  apply List.map_congr_left
  intro l _
  exact psrLine_conv hc l b _

/-- C176 (Sharpe ratios): the probabilistic and the deflated Sharpe ratio do not depend on the unit of the
returns. -/
theorem C176_sharpe (hc : 0 < c) (m : List (List ℝ)) (ax : Axis) :
    (∀ b, psr (m.map (List.map fun x => c * x)) b ax = psr m b ax) ∧
    deflatedSharpe (m.map (List.map fun x => c * x)) ax = deflatedSharpe m ax := by
  refine ⟨fun b => psr_conv hc m b ax, ?_⟩
  have e1 : sharpeRatio (m.map (List.map fun x => c * x)) ax = sharpeRatio m ax := by
    unfold sharpeRatio
    rw [lines_conv, List.map_map]
    apply List.map_congr_left
    intro l _
    exact (C97_scale l c).1 hc
  have e2 : deflatedBenchmark (m.map (List.map fun x => c * x)) ax = deflatedBenchmark m ax := by
    unfold deflatedBenchmark
    rw [e1]
  unfold deflatedSharpe
  rw [e2]
  congr 1
  cases deflatedBenchmark m ax with
  | none =>
    simp only [Option.elim]
    rw [lines_conv, List.map_map]
    rfl
  | some b =>
    simp only [Option.elim]
    exact psr_conv hc m b ax

/-- A drawdown in cents. -/
example : drawdowns (conv (100 : ℚ) 7 [(0, 10), (1, 8), (2, 12), (3, 9)]) true =
    [(7, some 200), (9, some 300)] ∧
    holdingPeriod (conv (-3 : ℚ) 5 [(0, 1), (dayNs, 1), (2 * dayNs, 0)]) = .ok (some 2) := by
  decide +kernel

end FinML.Metrics
