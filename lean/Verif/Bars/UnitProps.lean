import Verif.Bars.MirrorProps

/-!
# Property C168: bars do not depend on the units of price and volume

Quoting prices in another currency (factor `a`) and volumes in another lot size (factor `c`), with
the sizes given to the aggregation converted accordingly, gives the same bars in the new units.
-/

set_option linter.unusedSectionVars false

namespace FinML.Bars

variable {K : Type} [Field K] [LinearOrder K] [IsStrictOrderedRing K]

/-- A tick in the new units. -/
def Tick.rescale (a c : K) (t : Tick K) : Tick K :=
  { time := t.time, price := a * t.price, volume := c * t.volume }

/-- A bar in the new units. -/
def Bar.rescale (a c : K) (b : Bar K) : Bar K :=
  { time := b.time, op := a * b.op, high := a * b.high, low := a * b.low, close := a * b.close,
    volume := c * b.volume, vwap := b.vwap.map fun x => a * x }

/-- How many new units one old unit of the traded quantity is. -/
def unitFactor (unit : BarUnit) (a c : K) : K :=
  match unit with
  | .tick => 1
  | .time => 1
  | .volume => c
  | .dollars => a * c

theorem foldl_max_mul (a : K) (ha : 0 < a) (l : List K) (x : K) :
    (l.map fun y => a * y).foldl max (a * x) = a * l.foldl max x := by
  induction l generalizing x with
  | nil => rfl
  | cons y ys ih =>
    rw [List.map_cons, List.foldl_cons, List.foldl_cons, ← mul_max_of_nonneg _ _ ha.le, ih]

theorem foldl_min_mul (a : K) (ha : 0 < a) (l : List K) (x : K) :
    (l.map fun y => a * y).foldl min (a * x) = a * l.foldl min x := by
  induction l generalizing x with
  | nil => rfl
  | cons y ys ih =>
    rw [List.map_cons, List.foldl_cons, List.foldl_cons, ← mul_min_of_nonneg _ _ ha.le, ih]

theorem sum_map_const_mul {α : Type} (k : K) (f : α → K) (l : List α) :
    (l.map fun x => k * f x).sum = k * (l.map f).sum := by
  induction l with
  | nil => simp
  | cons x xs ih => simp only [List.map_cons, List.sum_cons, ih]; ring

theorem computeBarStats_rescale (a c : K) (ha : 0 < a) (hc : 0 < c) (ticks : List (Tick K)) :
    computeBarStats (ticks.map (Tick.rescale a c)) =
      (computeBarStats ticks).map (Bar.rescale a c) := by
  cases ticks with
  | nil => rfl
  | cons t ts =>
    have hp : ((t :: ts).map (Tick.rescale a c)).map Tick.price =
        ((t :: ts).map Tick.price).map fun y => a * y := by
      rw [List.map_map, List.map_map]; rfl
    have hv : (((t :: ts).map (Tick.rescale a c)).map Tick.volume).sum =
        c * ((t :: ts).map Tick.volume).sum := by
      rw [List.map_map, ← sum_map_const_mul]; rfl
    have hw : computeVwap ((t :: ts).map (Tick.rescale a c)) =
        (computeVwap (t :: ts)).map fun x => a * x := by
      unfold computeVwap
      rw [hv]
      have : (((t :: ts).map (Tick.rescale a c)).map fun t => t.price * t.volume).sum =
          a * c * ((t :: ts).map fun t => t.price * t.volume).sum := by
        rw [List.map_map, ← sum_map_const_mul]
        congr 1
        apply List.map_congr_left
        intro x _
        simp only [Function.comp, Tick.rescale]
        ring
      rw [this]
      generalize ((t :: ts).map fun t => t.price * t.volume).sum = d
      generalize ((t :: ts).map Tick.volume).sum = v
      unfold fdiv
      by_cases h : v = 0
      · rw [if_pos h, if_pos (by rw [h, mul_zero])]; rfl
      · rw [if_neg h, if_neg (mul_ne_zero hc.ne' h), Option.map_some]
        congr 1
        have := hc.ne'
        field_simp
    unfold computeBarStats
    rw [hp, hv, hw]
    have hl : pyLast ((t :: ts).map (Tick.rescale a c)) =
        (pyLast (t :: ts)).map (Tick.rescale a c) := by
      unfold pyLast
      rw [List.getLast?_map]
      cases (t :: ts).getLast? <;> rfl
    rw [hl]
    have hm : npMax (((t :: ts).map Tick.price).map fun y => a * y) =
        .ok (a * (ts.map Tick.price).foldl max t.price) := by
      simp only [List.map_cons, npMax]
      rw [foldl_max_mul a ha]
    have hn : npMin (((t :: ts).map Tick.price).map fun y => a * y) =
        .ok (a * (ts.map Tick.price).foldl min t.price) := by
      simp only [List.map_cons, npMin]
      rw [foldl_min_mul a ha]
    rw [hm, hn]
    have h0 : pyLast (t :: ts) = .ok ((t :: ts).getLast (by simp)) := by
      unfold pyLast
      rw [List.getLast?_eq_getLast_of_ne_nil (by simp)]
    rw [h0]
    rfl

theorem mapM_map_py {α β γ : Type} (f : α → Py β) (g : β → γ) (l : List α) :
    (l.mapM fun x => (f x).map g) = (l.mapM f).map (List.map g) := by
  induction l with
  | nil => rfl
  | cons x xs ih =>
    rw [mapM_cons_py, mapM_cons_py, ih]
    cases f x with
    | error e => rfl
    | ok y =>
      cases xs.mapM f with
      | error e => rfl
      | ok ys => rfl

theorem groupTicks_rescale {ι : Type} [LinearOrder ι] (a c : K) (ha : 0 < a) (hc : 0 < c)
    (ids : List ι) (ticks : List (Tick K)) :
    groupTicksToBars ids (ticks.map (Tick.rescale a c)) =
      (groupTicksToBars ids ticks).map (List.map (Bar.rescale a c)) := by
  unfold groupTicksToBars
  rw [← mapM_map_py, groupBy_def, groupBy_def, List.mapM_map, List.mapM_map]
  congr 1
  funext k
  simp only [Function.comp]
  rw [← computeBarStats_rescale a c ha hc]
  congr 1
  rw [List.zip_map_right, List.filter_map, List.map_map, List.map_map]
  rfl

section Floor

variable [FloorRing K]

theorem cumsumFrom_mul (k s : K) (l : List K) :
    cumsumFrom (k * s) (l.map fun x => k * x) = (cumsumFrom s l).map fun x => k * x := by
  induction l generalizing s with
  | nil => rfl
  | cons x xs ih =>
    simp only [List.map_cons, cumsumFrom]
    rw [← mul_add, ih]

theorem cumIds_mul (k : K) (hk : 0 < k) (freq : K) (l : List K) :
    cumIds (k * freq) (l.map fun x => k * x) = cumIds freq l := by
  unfold cumIds cumsum
  have := cumsumFrom_mul k 0 l
  rw [mul_zero] at this
  rw [this, List.map_map]
  apply List.map_congr_left
  intro x _
  simp only [Function.comp, floorDiv]
  rw [mul_div_mul_left _ _ hk.ne']

/-- C168.  Time bars: only the numbers in the bars change. -/
theorem C168_time_bars (a c : K) (ha : 0 < a) (hc : 0 < c) (freq : ℤ) (ticks : List (Tick K)) :
    aggregateTimeBars freq (ticks.map (Tick.rescale a c)) =
      (aggregateTimeBars freq ticks).map (List.map (Bar.rescale a c)) := by
  unfold aggregateTimeBars
  by_cases hf : freq ≤ 0
  · rw [if_pos hf, if_pos hf]; rfl
  · rw [if_neg hf, if_neg hf]
    cases ticks with
    | nil => rfl
    | cons t ts =>
      simp only [List.map_cons]
      have ht : (ts.map (Tick.rescale a c)).map Tick.time = ts.map Tick.time := by
        rw [List.map_map]; rfl
      have h0 : (Tick.rescale a c t).time = t.time := rfl
      rw [ht, h0, ← mapM_map_py]
      congr 1
      funext b
      have : (Tick.rescale a c t :: ts.map (Tick.rescale a c)).filter
          (fun t => decide (t.time / freq = b)) =
          ((t :: ts).filter fun t => decide (t.time / freq = b)).map (Tick.rescale a c) := by
        rw [← List.map_cons, List.filter_map]; rfl
      rw [this, computeBarStats_rescale a c ha hc]
      cases computeBarStats ((t :: ts).filter fun t => decide (t.time / freq = b)) <;> rfl

/-- C168.  Tick bars. -/
theorem C168_tick_bars (a c : K) (ha : 0 < a) (hc : 0 < c) (freq : K) (ticks : List (Tick K)) :
    aggregateTickBars freq (ticks.map (Tick.rescale a c)) =
      (aggregateTickBars freq ticks).map (List.map (Bar.rescale a c)) := by
  unfold aggregateTickBars
  by_cases hf : freq = 0
  · rw [if_pos hf, if_pos hf]; rfl
  · rw [if_neg hf, if_neg hf, List.length_map, groupTicks_rescale a c ha hc]

/-- C168.  Volume bars, with the volume per bar converted: same bar ids. -/
theorem C168_volume_bars (a c : K) (ha : 0 < a) (hc : 0 < c) (freq : K) (ticks : List (Tick K)) :
    aggregateVolumeBars (c * freq) (ticks.map (Tick.rescale a c)) =
      (aggregateVolumeBars freq ticks).map fun r => (r.1.map (Bar.rescale a c), r.2) := by
  unfold aggregateVolumeBars
  by_cases hf : freq = 0
  · rw [if_pos hf, if_pos (by rw [hf, mul_zero])]; rfl
  · rw [if_neg hf, if_neg (mul_ne_zero hc.ne' hf)]
    have hv : (ticks.map (Tick.rescale a c)).map Tick.volume =
        (ticks.map Tick.volume).map fun x => c * x := by
      rw [List.map_map, List.map_map]; rfl
    rw [hv, cumIds_mul c hc]
    simp only
    rw [groupTicks_rescale a c ha hc]
    cases groupTicksToBars (cumIds freq (ticks.map Tick.volume)) ticks <;> rfl

/-- C168.  Dollar bars, with the dollar amount per bar converted. -/
theorem C168_dollar_bars (a c : K) (ha : 0 < a) (hc : 0 < c) (freq : K) (ticks : List (Tick K)) :
    aggregateDollarBars (a * c * freq) (ticks.map (Tick.rescale a c)) =
      (aggregateDollarBars freq ticks).map (List.map (Bar.rescale a c)) := by
  unfold aggregateDollarBars
  have hk : 0 < a * c := mul_pos ha hc
  by_cases hf : freq = 0
  · rw [if_pos hf, if_pos (by rw [hf, mul_zero])]; rfl
  · rw [if_neg hf, if_neg (mul_ne_zero hk.ne' hf)]
    have hv : ((ticks.map (Tick.rescale a c)).map fun t => t.volume * t.price) =
        (ticks.map fun t => t.volume * t.price).map fun x => a * c * x := by
      rw [List.map_map, List.map_map]
      apply List.map_congr_left
      intro t _
      simp only [Function.comp, Tick.rescale]
      ring
    rw [hv, cumIds_mul _ hk, groupTicks_rescale a c ha hc]

end Floor

/-! ## Imbalance bars -/

theorem ewmaAdjLoop_mul (k alpha : K) (i : ℕ) (w old : K) (l : List K) :
    ewmaAdjLoop alpha i w (k * old) (l.map fun x => k * x) =
      (ewmaAdjLoop alpha i w old l).map (List.map fun x => k * x) := by
  induction l generalizing i w old with
  | nil => rfl
  | cons x xs ih =>
    simp only [List.map_cons, ewmaAdjLoop]
    by_cases h : w + (1 - alpha) ^ i = 0
    · simp only [h, if_true]; rfl
    · simp only [h, if_false]
      have he : k * old * (1 - alpha) + k * x = k * (old * (1 - alpha) + x) := by ring
      rw [he, ih]
      cases ewmaAdjLoop alpha (i + 1) (w + (1 - alpha) ^ i) (old * (1 - alpha) + x) xs with
      | error e => rfl
      | ok r =>
        show Except.ok _ = Except.ok _
        rw [List.map_cons, mul_div_assoc]

theorem fastEwma_mul_last (k : K) (l : List K) (span : ℕ) :
    ((fastEwma (l.map fun x => k * x) span true) >>= pyLast) =
      ((fastEwma l span true) >>= pyLast).map fun x => k * x := by
  cases l with
  | nil => rfl
  | cons x xs =>
    simp only [List.map_cons, fastEwma, if_true]
    rw [ewmaAdjLoop_mul]
    cases ewmaAdjLoop (2 / ((span : K) + 1)) 1 1 x xs with
    | error e => rfl
    | ok r =>
      show pyLast (k * x :: r.map fun x => k * x) = (pyLast (x :: r)).map fun x => k * x
      rw [← List.map_cons (f := fun x : K => k * x)]
      unfold pyLast
      rw [List.getLast?_map]
      cases (x :: r).getLast? <;> rfl

/-- Sizes in the new units. -/
def LoopParams.rescale (k : K) (p : LoopParams K) : LoopParams K :=
  { p with minSize := k * p.minSize, maxSize := p.maxSize.map fun m => k * m }

/-- The loop state in the new units. -/
def ImbState.rescale (k : K) (s : ImbState K) : ImbState K :=
  { s with size := k * s.size, theta := k * s.theta, threshold := k * s.threshold,
           absThetas := s.absThetas.map fun x => k * x,
           thresholds := s.thresholds.map fun x => k * x }

theorem geMax_mul (k : K) (hk : 0 < k) (x : K) (m : Option K) :
    geMax (k * x) (m.map fun m => k * m) = geMax x m := by
  cases m with
  | none => rfl
  | some m => simp only [Option.map_some, geMax, mul_le_mul_iff_right₀ hk]

theorem pyGet_map {α β : Type} (f : α → β) (l : List α) (i : ℕ) :
    pyGet (l.map f) i = (pyGet l i).map f := by
  unfold pyGet
  rw [List.getElem?_map]
  cases l[i]? <;> rfl

theorem imbStep_rescale (k : K) (hk : 0 < k) (p : LoopParams K) (b : List K) (s : ImbState K)
    (i : ℕ) :
    imbStep (p.rescale k) (b.map fun x => k * x) (s.rescale k) i =
      (imbStep p b s i).map (ImbState.rescale k) := by
  unfold imbStep
  rw [pyGet_map]
  cases pyGet b i with
  | error e => rfl
  | ok x =>
    have h2 : (Except.ok x : Py K).map (fun x => k * x) = .ok (k * x) := rfl
    rw [h2, py_bind_ok, py_bind_ok]
    have e1 : k * s.size + |k * x| = k * (s.size + |x|) := by
      rw [abs_mul, abs_of_pos hk]; ring
    have e2 : |k * s.theta + k * x| = k * |s.theta + x| := by
      rw [← mul_add, abs_mul, abs_of_pos hk]
    have e3 : (p.rescale k).maxSize = p.maxSize.map fun m => k * m := rfl
    have e4 : (p.rescale k).minSize = k * p.minSize := rfl
    have e5 : (p.rescale k).TSpan = p.TSpan := rfl
    have e6 : (p.rescale k).bSpan = p.bSpan := rfl
    simp only [ImbState.rescale, e1, e2, e3, e4, e5, e6, geMax_mul k hk, mul_le_mul_iff_right₀ hk,
      mul_lt_mul_iff_right₀ hk, ← List.map_take]
    rw [fastEwma_mul_last]
    by_cases hc : s.threshold ≤ |s.theta + x| ∨ geMax (s.size + |x|) p.maxSize = true ∨
        s.padding = true
    · rw [if_pos hc, if_pos hc]
      by_cases hm : s.size + |x| < p.minSize
      · rw [if_pos hm, if_pos hm]
        show Except.ok _ = Except.ok _
        simp [ImbState.rescale, mul_add]
      · rw [if_neg hm, if_neg hm]
        cases (fastEwma (s.Ts ++ [((i - s.start + 1 : ℕ) : K)])
          (effTSpan p.TSpan (s.Ts ++ [((i - s.start + 1 : ℕ) : K)]).length) true >>= pyLast) with
        | error e => rfl
        | ok ET =>
          cases (fastEwma (List.take i b) (min p.bSpan (i + 1)) true >>= pyLast) with
          | error e => rfl
          | ok Eb =>
            show Except.ok _ = Except.ok _
            simp only [ImbState.rescale, abs_mul, abs_of_pos hk, List.map_append, List.map_cons,
              List.map_nil, mul_zero]
            congr 2
            ring
    · rw [if_neg hc, if_neg hc]
      show Except.ok _ = Except.ok _
      simp [ImbState.rescale, mul_add]

theorem foldlM_rescale (k : K) (hk : 0 < k) (p : LoopParams K) (b : List K) (is : List ℕ)
    (s : ImbState K) :
    is.foldlM (imbStep (p.rescale k) (b.map fun x => k * x)) (s.rescale k) =
      (is.foldlM (imbStep p b) s).map (ImbState.rescale k) := by
  induction is generalizing s with
  | nil => rfl
  | cons i is ih =>
    rw [List.foldlM_cons, List.foldlM_cons, imbStep_rescale k hk]
    cases imbStep p b s i with
    | error e => rfl
    | ok s' => exact ih s'

theorem computeImb_rescale (k : K) (hk : 0 < k) (p : LoopParams K) (eb : K) (b : List K) :
    computeImbalanceBarSizes (p.rescale k) (k * eb) (b.map fun x => k * x) =
      (computeImbalanceBarSizes p eb b).map fun r =>
        (r.1, r.2.1, r.2.2.1.map (fun x => k * x), r.2.2.2.map fun x => k * x) := by
  unfold computeImbalanceBarSizes
  have : imbLoop (p.rescale k) (k * eb) (b.map fun x => k * x) =
      (imbLoop p eb b).map (ImbState.rescale k) := by
    unfold imbLoop
    rw [pyGet_map]
    cases pyGet b 0 with
    | error e => rfl
    | ok x =>
      have h2 : (Except.ok x : Py K).map (fun x => k * x) = .ok (k * x) := rfl
      rw [h2, py_bind_ok, py_bind_ok, List.length_map]
      have : imbInit (p.rescale k) (k * eb) (k * x) = (imbInit p eb x).rescale k := by
        simp only [imbInit, ImbState.rescale, LoopParams.rescale, abs_mul, abs_of_pos hk,
          List.map_cons, List.map_nil, mul_left_comm k]
      rw [this, foldlM_rescale k hk]
  rw [this]
  cases imbLoop p eb b with
  | error e => rfl
  | ok s =>
    show (if s.start < (b.map fun x => k * x).length then _ else _) = _
    rw [List.length_map]
    show _ = Except.map _ (if s.start < b.length then _ else _)
    by_cases h : s.start < b.length
    · rw [if_pos h, if_pos h]; rfl
    · rw [if_neg h, if_neg h]; rfl

theorem mean_mul (k : K) (l : List K) : mean (l.map fun x => k * x) = k * mean l := by
  unfold mean
  rw [sum_map_const_mul k (fun x => x), List.map_id', List.length_map, mul_div_assoc]

theorem tickRule_rescale (a c : K) (ha : 0 < a) (b0 : K) (ticks : List (Tick K)) :
    tickRule b0 ((ticks.map (Tick.rescale a c)).map Tick.price) =
      tickRule b0 (ticks.map Tick.price) := by
  have h2 := C58_tick_rule_affine b0 a 0 ha (ticks.map Tick.price)
  rw [← h2]
  congr 1
  rw [List.map_map, List.map_map]
  apply List.map_congr_left
  intro t _
  simp only [Function.comp, Tick.rescale, add_zero]

theorem signedFlow_rescale (unit : BarUnit) (a c : K) (ha : 0 < a) (b0 : K)
    (ticks : List (Tick K)) :
    signedFlow unit b0 (ticks.map (Tick.rescale a c)) =
      (signedFlow unit b0 ticks).map (List.map fun x => unitFactor unit a c * x) := by
  unfold signedFlow
  rw [tickRule_rescale a c ha]
  have hv : (ticks.map (Tick.rescale a c)).map Tick.volume =
      (ticks.map Tick.volume).map fun x => c * x := by
    rw [List.map_map, List.map_map]; rfl
  have hd : ((ticks.map (Tick.rescale a c)).map fun t => t.price * t.volume) =
      (ticks.map fun t => t.price * t.volume).map fun x => a * c * x := by
    rw [List.map_map, List.map_map]
    apply List.map_congr_left
    intro t _
    simp only [Function.comp, Tick.rescale]
    ring
  cases unit with
  | time => rfl
  | tick =>
    show Except.ok _ = Except.ok _
    simp only [unitFactor, one_mul, List.map_id']
  | volume =>
    simp only [hv]
    show Except.ok _ = Except.ok _
    rw [List.zipWith_map_right, List.map_zipWith]
    congr 2
    funext x y
    simp only [unitFactor]
    ring
  | dollars =>
    simp only [hd]
    show Except.ok _ = Except.ok _
    rw [List.zipWith_map_right, List.map_zipWith]
    congr 2
    funext x y
    simp only [unitFactor]
    ring

theorem unitFactor_pos (unit : BarUnit) (a c : K) (ha : 0 < a) (hc : 0 < c) :
    0 < unitFactor unit a c := by
  cases unit with
  | time => exact one_pos
  | tick => exact one_pos
  | volume => exact hc
  | dollars => exact mul_pos ha hc

/-- C168.  Imbalance bars: with the sizes and the expected imbalance converted to the new unit, the
bar ids are the same, the bars are the same in the new units, and so are imbalances and
thresholds. -/
theorem C168_imbalance_bars (unit : BarUnit) (a c : K) (ha : 0 < a) (hc : 0 < c) (minSize : K)
    (maxSize : Option K) (b0 : K) (ETInit : ℕ) (eb : Option K) (TSpan bSpan : Option ℕ)
    (ticks : List (Tick K)) :
    aggregateImbalanceBars unit (unitFactor unit a c * minSize)
      (maxSize.map fun m => unitFactor unit a c * m) b0 ETInit
      (eb.map fun m => unitFactor unit a c * m) TSpan bSpan (ticks.map (Tick.rescale a c)) =
    (aggregateImbalanceBars unit minSize maxSize b0 ETInit eb TSpan bSpan ticks).map fun r =>
      (r.1.map (Bar.rescale a c), r.2.1, r.2.2.1.map (fun x => unitFactor unit a c * x),
        r.2.2.2.map fun x => unitFactor unit a c * x) := by
  have hk := unitFactor_pos unit a c ha hc
  unfold aggregateImbalanceBars
  rw [signedFlow_rescale unit a c ha]
  generalize unitFactor unit a c = k at hk
  cases signedFlow unit b0 ticks with
  | error e => rfl
  | ok b =>
    have h2 : (Except.ok b : Py (List K)).map (List.map fun x => k * x) =
      .ok (b.map fun x => k * x) := rfl
    rw [h2, py_bind_ok, py_bind_ok]
    have hn : ((b.map fun x => k * x).take ETInit = []) ↔ (b.take ETInit = []) := by
      rw [← List.map_take, List.map_eq_nil_iff]
    have hm : (eb.map fun m => k * m).getD |mean ((b.map fun x => k * x).take ETInit)| =
        k * eb.getD |mean (b.take ETInit)| := by
      rw [← List.map_take, mean_mul, abs_mul, abs_of_pos hk]
      cases eb <;> rfl
    have hz : ((eb.map fun m => k * m) = none) ↔ eb = none := Option.map_eq_none_iff
    simp only [hn, hm, hz]
    by_cases hc0 : eb = none ∧ b.take ETInit = []
    · rw [if_pos hc0, if_pos hc0]; rfl
    · rw [if_neg hc0, if_neg hc0]
      have hres := computeImb_rescale k hk
        { minSize := minSize, maxSize := maxSize, ETInit := (ETInit : K),
          TSpan := TSpan, bSpan := bSpan.getD (3 * ETInit) } (eb.getD |mean (b.take ETInit)|) b
      unfold LoopParams.rescale at hres
      simp only at hres
      rw [hres]
      generalize computeImbalanceBarSizes _ _ b = r
      cases r with
      | error e => rfl
      | ok r =>
        show (computeTickBarId (ticks.map (Tick.rescale a c)).length r.1 >>= _) =
          Except.map _ (computeTickBarId ticks.length r.1 >>= _)
        rw [List.length_map]
        cases computeTickBarId ticks.length r.1 with
        | error e => rfl
        | ok ids =>
          simp only [py_bind_ok]
          rw [groupTicks_rescale a c ha hc]
          cases groupTicksToBars ids ticks <;> rfl

/-! ## Runs bars -/

theorem pyMaxNan_mul (k : K) (hk : 0 < k) (x y : Option K) :
    pyMaxNan (x.map fun z => k * z) (y.map fun z => k * z) =
      (pyMaxNan x y).map fun z => k * z := by
  cases x with
  | none => cases y <;> rfl
  | some x =>
    cases y with
    | none => rfl
    | some y =>
      simp only [Option.map_some, pyMaxNan, gt_iff_lt, mul_lt_mul_iff_right₀ hk]
      split <;> rfl

theorem runsThreshold_mul (k : K) (hk : 0 < k) (ET P : K) (x y : Option K) :
    runsThreshold ET P (x.map fun z => k * z) (y.map fun z => k * z) =
      (runsThreshold ET P x y).map fun z => k * z := by
  unfold runsThreshold
  have h1 : (x.map fun z => k * z).map (P * ·) = (x.map (P * ·)).map fun z => k * z := by
    cases x with
    | none => rfl
    | some x => simp only [Option.map_some, mul_left_comm]
  have h2 : (y.map fun z => k * z).map ((1 - P) * ·) =
      (y.map ((1 - P) * ·)).map fun z => k * z := by
    cases y with
    | none => rfl
    | some y => simp only [Option.map_some, mul_left_comm]
  rw [h1, h2, pyMaxNan_mul k hk]
  cases pyMaxNan (x.map (P * ·)) (y.map ((1 - P) * ·)) with
  | none => rfl
  | some z => simp only [Option.map_some, mul_left_comm]

theorem geNan_mul (k : K) (hk : 0 < k) (x : K) (t : Option K) :
    geNan (k * x) (t.map fun z => k * z) = geNan x t := by
  cases t with
  | none => rfl
  | some t => simp only [Option.map_some, geNan, mul_le_mul_iff_right₀ hk]

/-- The loop state in the new units; the number of buys does not change. -/
def RunsState.rescale (k : K) (s : RunsState K) : RunsState K :=
  { s with vBuys := s.vBuys.map fun x => k * x
           vSells := s.vSells.map fun x => k * x
           size := k * s.size
           vBuyRuns := k * s.vBuyRuns
           vSellRuns := k * s.vSellRuns
           threshold := s.threshold.map fun x => k * x
           thetas := s.thetas.map fun x => k * x
           thresholds := s.thresholds.map (Option.map fun x => k * x) }

theorem runsStep_rescale (k : K) (hk : 0 < k) (p : LoopParams K) (b v : List K) (s : RunsState K)
    (i : ℕ) :
    runsStep (p.rescale k) b (v.map fun x => k * x) (s.rescale k) i =
      (runsStep p b v s i).map (RunsState.rescale k) := by
  unfold runsStep
  rw [pyGet_map]
  cases pyGet b i with
  | error e => rfl
  | ok x =>
    rw [py_bind_ok, py_bind_ok]
    cases pyGet v i with
    | error e => rfl
    | ok q =>
      have h2 : (Except.ok q : Py K).map (fun x => k * x) = .ok (k * q) := rfl
      rw [h2, py_bind_ok, py_bind_ok]
      have eB : (if 0 ≤ x then (s.vBuys.map fun x => k * x) ++ [k * q]
          else s.vBuys.map fun x => k * x) =
          (if 0 ≤ x then s.vBuys ++ [q] else s.vBuys).map fun x => k * x := by
        split <;> simp
      have eS : (if x < 0 then (s.vSells.map fun x => k * x) ++ [k * q]
          else s.vSells.map fun x => k * x) =
          (if x < 0 then s.vSells ++ [q] else s.vSells).map fun x => k * x := by
        split <;> simp
      have e1 : k * s.vBuyRuns + (if 0 ≤ x then k * q else 0) =
          k * (s.vBuyRuns + (if 0 ≤ x then q else 0)) := by
        split <;> ring
      have e2 : k * s.vSellRuns + (if x < 0 then k * q else 0) =
          k * (s.vSellRuns + (if x < 0 then q else 0)) := by
        split <;> ring
      have e3 : (p.rescale k).maxSize = p.maxSize.map fun m => k * m := rfl
      have e4 : (p.rescale k).minSize = k * p.minSize := rfl
      have e5 : (p.rescale k).TSpan = p.TSpan := rfl
      have e6 : (p.rescale k).bSpan = p.bSpan := rfl
      simp only [RunsState.rescale, eB, eS, e1, e2, ← mul_add, e3, e4, e5, e6, geMax_mul k hk,
        ← mul_max_of_nonneg _ _ hk.le, geNan_mul k hk, mul_lt_mul_iff_right₀ hk, List.length_map]
      rw [fastEwma_mul_last, fastEwma_mul_last]
      generalize (if 0 ≤ x then s.vBuys ++ [q] else s.vBuys) = vb
      generalize (if x < 0 then s.vSells ++ [q] else s.vSells) = vs
      generalize s.vBuyRuns + (if 0 ≤ x then q else 0) = rb
      generalize s.vSellRuns + (if x < 0 then q else 0) = rs
      generalize s.buyRuns + (if 0 ≤ x then 1 else 0) = nb
      by_cases hc : geNan (max rb rs) s.threshold = true ∨ geMax (s.size + q) p.maxSize = true ∨
          s.padding = true
      · rw [if_pos hc, if_pos hc]
        by_cases hm : s.size + q < p.minSize
        · rw [if_pos hm, if_pos hm]
          show Except.ok _ = Except.ok _
          simp [RunsState.rescale]
        · rw [if_neg hm, if_neg hm]
          cases (fastEwma (s.Ts ++ [((i - s.start + 1 : ℕ) : K)])
            (effTSpan p.TSpan (s.Ts ++ [((i - s.start + 1 : ℕ) : K)]).length) true >>= pyLast) with
          | error e => rfl
          | ok ET =>
            rw [py_bind_ok, py_bind_ok]
            cases (fastEwma (s.buyRatios ++ [nb / ((i - s.start + 1 : ℕ) : K)])
              (effTSpan p.TSpan (s.Ts ++ [((i - s.start + 1 : ℕ) : K)]).length) true >>= pyLast) with
            | error e => rfl
            | ok P =>
              rw [py_bind_ok, py_bind_ok]
              cases (fastEwma vb (min vb.length p.bSpan) true >>= pyLast) with
              | error e => rfl
              | ok Eb =>
                cases (fastEwma vs (min vs.length p.bSpan) true >>= pyLast) with
                | error e => rfl
                | ok Es =>
                  show Except.ok _ = Except.ok _
                  have := runsThreshold_mul k hk ET P (some Eb) (some Es)
                  simp only [Option.map_some] at this
                  simp [RunsState.rescale, this]
      · rw [if_neg hc, if_neg hc]
        show Except.ok _ = Except.ok _
        simp [RunsState.rescale]

theorem runs_foldlM_rescale (k : K) (hk : 0 < k) (p : LoopParams K) (b v : List K) (is : List ℕ)
    (s : RunsState K) :
    is.foldlM (runsStep (p.rescale k) b (v.map fun x => k * x)) (s.rescale k) =
      (is.foldlM (runsStep p b v) s).map (RunsState.rescale k) := by
  induction is generalizing s with
  | nil => rfl
  | cons i is ih =>
    rw [List.foldlM_cons, List.foldlM_cons, runsStep_rescale k hk]
    cases runsStep p b v s i with
    | error e => rfl
    | ok s' => exact ih s'

theorem computeRuns_rescale (k : K) (hk : 0 < k) (p : LoopParams K) (P : K) (Eb Es : Option K)
    (b v : List K) :
    computeRunsBarSizes (p.rescale k) ⟨P, Eb.map fun x => k * x, Es.map fun x => k * x⟩ b
        (v.map fun x => k * x) =
      (computeRunsBarSizes p ⟨P, Eb, Es⟩ b v).map fun r =>
        (r.1, r.2.1, r.2.2.1.map (fun x => k * x), r.2.2.2.map (Option.map fun x => k * x)) := by
  unfold computeRunsBarSizes
  have : runsLoop (p.rescale k) ⟨P, Eb.map fun x => k * x, Es.map fun x => k * x⟩ b
      (v.map fun x => k * x) = (runsLoop p ⟨P, Eb, Es⟩ b v).map (RunsState.rescale k) := by
    unfold runsLoop
    rw [pyGet_map]
    cases pyGet b 0 with
    | error e => rfl
    | ok x =>
      rw [py_bind_ok, py_bind_ok]
      cases pyGet v 0 with
      | error e => rfl
      | ok q =>
        have h2 : (Except.ok q : Py K).map (fun x => k * x) = .ok (k * q) := rfl
        rw [h2, py_bind_ok, py_bind_ok]
        have : runsInit (p.rescale k) ⟨P, Eb.map fun x => k * x, Es.map fun x => k * x⟩ x (k * q) =
            (runsInit p ⟨P, Eb, Es⟩ x q).rescale k := by
          have e1 : (if 0 ≤ x then k * q else 0) = k * (if 0 ≤ x then q else 0) := by
            split <;> ring
          have e2 : (if x < 0 then k * q else 0) = k * (if x < 0 then q else 0) := by
            split <;> ring
          have e7 : (p.rescale k).ETInit = p.ETInit := rfl
          simp only [runsInit, RunsState.rescale, e1, e2, e7, runsThreshold_mul k hk,
            ← mul_max_of_nonneg _ _ hk.le, List.map_cons, List.map_nil]
        rw [this, runs_foldlM_rescale k hk]
  rw [this]
  cases runsLoop p ⟨P, Eb, Es⟩ b v with
  | error e => rfl
  | ok s =>
    show (if s.start < b.length then _ else _) = Except.map _ (if s.start < b.length then _ else _)
    by_cases h : s.start < b.length
    · rw [if_pos h, if_pos h]; rfl
    · rw [if_neg h, if_neg h]; rfl

theorem tradedQty_rescale (unit : BarUnit) (a c : K) (ticks : List (Tick K)) :
    tradedQty unit (ticks.map (Tick.rescale a c)) =
      (tradedQty unit ticks).map (List.map fun x => unitFactor unit a c * x) := by
  cases unit with
  | time => rfl
  | tick =>
    show Except.ok _ = Except.ok _
    simp only [unitFactor, one_mul, List.map_id']
    rw [List.map_map]; rfl
  | volume =>
    show Except.ok _ = Except.ok _
    rw [List.map_map, List.map_map]; rfl
  | dollars =>
    show Except.ok _ = Except.ok _
    rw [List.map_map, List.map_map]
    congr 1
    apply List.map_congr_left
    intro t _
    simp only [Function.comp, Tick.rescale, unitFactor]
    ring

theorem meanNan_mul (k : K) (l : List K) :
    meanNan (l.map fun x => k * x) = (meanNan l).map fun x => k * x := by
  unfold meanNan
  by_cases h : l = []
  · rw [if_pos h, if_pos (by rw [h]; rfl)]; rfl
  · rw [if_neg h, if_neg (by rwa [List.map_eq_nil_iff]), mean_mul]; rfl

theorem headQty_mul (k : K) (b v : List K) (n : ℕ) (P : K → Prop) [DecidablePred P] :
    ((((b.take n).zip ((v.map fun x => k * x).take n)).filter fun z => P z.1).map Prod.snd) =
      ((((b.take n).zip (v.take n)).filter fun z => P z.1).map Prod.snd).map fun x => k * x := by
  rw [← List.map_take, List.zip_map_right, List.filter_map, List.map_map, List.map_map]
  rfl

/-- The end of `aggregate_runs_bars`, from the loop on. -/
theorem runs_tail (a c : K) (ha : 0 < a) (hc : 0 < c) (k : K) (hk : 0 < k) (p : LoopParams K)
    (P : K) (Eb Es : Option K) (b v : List K) (ticks : List (Tick K)) :
    (computeRunsBarSizes (p.rescale k) ⟨P, Eb.map fun x => k * x, Es.map fun x => k * x⟩ b
        (v.map fun x => k * x) >>= fun x => do
      let ids ← computeTickBarId (ticks.map (Tick.rescale a c)).length x.1
      let res ← groupTicksToBars ids (ticks.map (Tick.rescale a c))
      return (res, ids, x.2.2.1, x.2.2.2)) =
    Except.map (fun r : List (Bar K) × List ℕ × List K × List (Option K) =>
      (r.1.map (Bar.rescale a c), r.2.1, r.2.2.1.map (fun x => k * x),
        r.2.2.2.map (Option.map fun x => k * x)))
      (computeRunsBarSizes p ⟨P, Eb, Es⟩ b v >>= fun x => do
        let ids ← computeTickBarId ticks.length x.1
        let res ← groupTicksToBars ids ticks
        return (res, ids, x.2.2.1, x.2.2.2)) := by
  rw [computeRuns_rescale k hk]
  cases computeRunsBarSizes p ⟨P, Eb, Es⟩ b v with
  | error e => rfl
  | ok r =>
    show (computeTickBarId (ticks.map (Tick.rescale a c)).length r.1 >>= _) =
      Except.map _ (computeTickBarId ticks.length r.1 >>= _)
    rw [List.length_map]
    cases computeTickBarId ticks.length r.1 with
    | error e => rfl
    | ok ids =>
      simp only [py_bind_ok]
      rw [groupTicks_rescale a c ha hc]
      cases groupTicksToBars ids ticks <;> rfl

/-- C168.  Runs bars: with the sizes and the expected quantities converted to the new unit, the bar
ids are the same, the bars are the same in the new units, and so are run sizes and thresholds. -/
theorem C168_runs_bars (unit : BarUnit) (a c : K) (ha : 0 < a) (hc : 0 < c) (minSize : K)
    (maxSize : Option K) (b0 : K) (ETInit : ℕ) (P Eb Es : Option K) (TSpan bSpan : Option ℕ)
    (ticks : List (Tick K)) :
    aggregateRunsBars unit (unitFactor unit a c * minSize)
      (maxSize.map fun m => unitFactor unit a c * m) b0 ETInit P
      (Eb.map fun m => unitFactor unit a c * m) (Es.map fun m => unitFactor unit a c * m)
      TSpan bSpan (ticks.map (Tick.rescale a c)) =
    (aggregateRunsBars unit minSize maxSize b0 ETInit P Eb Es TSpan bSpan ticks).map fun r =>
      (r.1.map (Bar.rescale a c), r.2.1, r.2.2.1.map (fun x => unitFactor unit a c * x),
        r.2.2.2.map (Option.map fun x => unitFactor unit a c * x)) := by
  have hk := unitFactor_pos unit a c ha hc
  unfold aggregateRunsBars
  rw [tickRule_rescale a c ha, tradedQty_rescale unit a c]
  generalize unitFactor unit a c = k at hk
  cases tradedQty unit ticks with
  | error e => rfl
  | ok v =>
    have h2 : (Except.ok v : Py (List K)).map (List.map fun x => k * x) =
      .ok (v.map fun x => k * x) := rfl
    simp only
    rw [h2, py_bind_ok, py_bind_ok]
    generalize tickRule b0 (ticks.map Tick.price) = b
    by_cases hc0 : P = none ∧ b.take ETInit = []
    · rw [if_pos hc0, if_pos hc0]; rfl
    · rw [if_neg hc0, if_neg hc0]
      simp only [headQty_mul k b v ETInit (fun x => 0 < x), headQty_mul k b v ETInit (fun x => x < 0),
        meanNan_mul]
      generalize meanNan (List.map Prod.snd (List.filter (fun z : K × K => decide (0 < z.1))
        ((List.take ETInit b).zip (List.take ETInit v)))) = mb
      generalize meanNan (List.map Prod.snd (List.filter (fun z : K × K => decide (z.1 < 0))
        ((List.take ETInit b).zip (List.take ETInit v)))) = ms
      generalize P.getD _ = P'
      have key := fun Eb Es => runs_tail a c ha hc k hk
        { minSize := minSize, maxSize := maxSize, ETInit := (ETInit : K),
          TSpan := TSpan, bSpan := bSpan.getD (3 * ETInit) } P' Eb Es b v ticks
      unfold LoopParams.rescale at key
      simp only at key
      cases Eb with
      | none =>
        cases Es with
        | none => exact key mb ms
        | some y => exact key mb (some y)
      | some x =>
        cases Es with
        | none => exact key (some x) ms
        | some y => exact key (some x) (some y)

/-! ## A concrete case: prices in cents, volumes in hundreds -/

example : riseFall.map (Tick.rescale 100 (1 / 100)) =
    [⟨0, 100, 1 / 100⟩, ⟨1, 200, 1 / 100⟩, ⟨2, 100, 1 / 100⟩, ⟨3, 200, 1 / 100⟩] := by
  decide +kernel

example : (aggregateVolumeBars 2 riseFall).map Prod.snd = .ok [0, 1, 1, 2] := by decide +kernel

example : (aggregateVolumeBars (1 / 50) (riseFall.map (Tick.rescale 100 (1 / 100)))).map Prod.snd =
    .ok [0, 1, 1, 2] := by decide +kernel

example : debugCols (aggregateImbalanceBars .dollars 0 none 1 2 none none none riseFall) =
    .ok ([0, 0, 1, 1], [1, 3, 1, 1], [3, 3, 2, 2]) := by decide +kernel

end FinML.Bars
