import Verif.Bars.LoopProps
import Verif.Bars.EwmaProps

/-! # Property C126: buys and sells are treated alike -/

set_option linter.unusedSectionVars false

namespace FinML.Bars

variable {K : Type} [Field K] [LinearOrder K] [IsStrictOrderedRing K]

theorem ewmaAdjLoop_neg (alpha : K) (i : ℕ) (w old : K) (l : List K) :
    ewmaAdjLoop alpha i w (-old) (l.map fun x => -x) =
      (ewmaAdjLoop alpha i w old l).map (List.map fun x => -x) := by
  induction l generalizing i w old with
  | nil => rfl
  | cons x xs ih =>
    simp only [List.map_cons, ewmaAdjLoop]
    by_cases h : w + (1 - alpha) ^ i = 0
    · simp only [h, if_true]; rfl
    · simp only [h, if_false]
      have he : -old * (1 - alpha) + -x = -(old * (1 - alpha) + x) := by ring
      rw [he, ih]
      cases ewmaAdjLoop alpha (i + 1) (w + (1 - alpha) ^ i) (old * (1 - alpha) + x) xs with
      | error e => rfl
      | ok r =>
        show Except.ok _ = Except.ok _
        rw [List.map_cons, neg_div]

theorem fastEwma_neg_last (l : List K) (span : ℕ) :
    ((fastEwma (l.map fun x => -x) span true) >>= pyLast) =
      ((fastEwma l span true) >>= pyLast).map fun x => -x := by
  cases l with
  | nil => rfl
  | cons x xs =>
    simp only [List.map_cons, fastEwma, if_true]
    rw [ewmaAdjLoop_neg]
    cases ewmaAdjLoop (2 / ((span : K) + 1)) 1 1 x xs with
    | error e => rfl
    | ok r =>
      show pyLast (-x :: r.map fun x => -x) = (pyLast (x :: r)).map fun x => -x
      rw [← List.map_cons (f := fun x : K => -x)]
      unfold pyLast
      rw [List.getLast?_map]
      cases (x :: r).getLast? <;> rfl

/-- The mirrored loop state. -/
def ImbState.mirror (s : ImbState K) : ImbState K := { s with theta := -s.theta }

theorem imbStep_mirror (p : LoopParams K) (b : List K) (s : ImbState K) (i : ℕ) :
    imbStep p (b.map fun x => -x) s.mirror i = (imbStep p b s i).map ImbState.mirror := by
  unfold imbStep
  cases hb : b[i]? with
  | none =>
    have h1 : pyGet b i = .error .indexError := by unfold pyGet; rw [hb]
    have h2 : pyGet (b.map fun x => -x) i = .error .indexError := by
      unfold pyGet; rw [List.getElem?_map, hb]; rfl
    rw [h1, h2]; rfl
  | some x =>
    have h1 : pyGet b i = .ok x := by unfold pyGet; rw [hb]
    have h2 : pyGet (b.map fun x => -x) i = .ok (-x) := by
      unfold pyGet; rw [List.getElem?_map, hb]; rfl
    rw [h1, h2, py_bind_ok, py_bind_ok]
    have e0 : s.mirror = { s with theta := -s.theta } := rfl
    have e2 : -s.theta + -x = -(s.theta + x) := by ring
    simp only [e0, e2, abs_neg, ← List.map_take]
    rw [fastEwma_neg_last]
    by_cases hc : s.threshold ≤ |s.theta + x| ∨ geMax (s.size + |x|) p.maxSize = true ∨
        s.padding = true
    · rw [if_pos hc, if_pos hc]
      by_cases hm : s.size + |x| < p.minSize
      · rw [if_pos hm, if_pos hm]; rfl
      · rw [if_neg hm, if_neg hm]
        cases (fastEwma (s.Ts ++ [((i - s.start + 1 : ℕ) : K)])
          (effTSpan p.TSpan (s.Ts ++ [((i - s.start + 1 : ℕ) : K)]).length) true >>= pyLast) with
        | error e => rfl
        | ok ET =>
          cases (fastEwma (List.take i b) (min p.bSpan (i + 1)) true >>= pyLast) with
          | error e => rfl
          | ok Eb =>
            show Except.ok _ = Except.ok _
            simp [ImbState.mirror]
    · rw [if_neg hc, if_neg hc]; rfl

theorem foldlM_mirror (p : LoopParams K) (b : List K) (is : List ℕ) (s : ImbState K) :
    is.foldlM (imbStep p (b.map fun x => -x)) s.mirror =
      (is.foldlM (imbStep p b) s).map ImbState.mirror := by
  induction is generalizing s with
  | nil => rfl
  | cons i is ih =>
    rw [List.foldlM_cons, List.foldlM_cons, imbStep_mirror]
    cases imbStep p b s i with
    | error e => rfl
    | ok s' => exact ih s'

theorem computeImb_mirror (p : LoopParams K) (eb : K) (b : List K) :
    computeImbalanceBarSizes p eb (b.map fun x => -x) = computeImbalanceBarSizes p eb b := by
  unfold computeImbalanceBarSizes
  have : imbLoop p eb (b.map fun x => -x) = (imbLoop p eb b).map ImbState.mirror := by
    unfold imbLoop
    cases b with
    | nil => rfl
    | cons x xs =>
      have h1 : pyGet ((x :: xs).map fun x => -x) 0 = .ok (-x) := rfl
      have h2 : pyGet (x :: xs) 0 = .ok x := rfl
      rw [h1, h2, py_bind_ok, py_bind_ok, List.length_map]
      have : imbInit p eb (-x) = (imbInit p eb x).mirror := by
        simp [imbInit, ImbState.mirror]
      rw [this, foldlM_mirror]
  rw [this]
  cases imbLoop p eb b with
  | error e => rfl
  | ok s =>
    show (if s.start < (b.map fun x => -x).length then _ else _) = _
    rw [List.length_map]
    rfl

/-- The tick stream with prices reflected at `c`. -/
def mirrorTicks (c : K) (ticks : List (Tick K)) : List (Tick K) :=
  ticks.map fun t => { t with price := c - t.price }

/-- Ids, imbalances and thresholds of the debug frame. -/
def debugCols {B I T H : Type} (r : Py (B × I × T × H)) : Py (I × T × H) := r.map Prod.snd

/-- Every group of ticks that occurs under an id is non-empty, so grouping never fails. -/
theorem groupTicksToBars_isOk {ι : Type} [LinearOrder ι] (ids : List ι) (ticks : List (Tick K))
    (h : ids.length = ticks.length) : ∃ r, groupTicksToBars ids ticks = .ok r := by
  exact groupTicksToBars_ok ids ticks h

/-- C126, full claim for runs bars: reflecting the prices and flipping `b0` gives the same bars. -/
def RunsMirror : Prop := ∀ (ETInit : ℕ) (minSize c : ℚ) (b0 : ℚ) (ticks : List (Tick ℚ)),
  (b0 = 1 ∨ b0 = -1) → 1 ≤ ETInit →
  debugCols (aggregateRunsBars .tick minSize none (-b0) ETInit none none none none none
    (mirrorTicks c ticks)) =
  debugCols (aggregateRunsBars .tick minSize none b0 ETInit none none none none none ticks)

/-- Two buys and two sells, four ticks. -/
def riseFall : List (Tick ℚ) := [⟨0, 1, 1⟩, ⟨1, 2, 1⟩, ⟨2, 1, 1⟩, ⟨3, 2, 1⟩]

/-- C126, counterexample for runs bars: after an all-sell opening the initial threshold is NaN and
no bar is ever closed, after an all-buy opening it is a number. -/
theorem C126_runs_mirror_counterexample : ¬ RunsMirror := by
  intro h
  have := h 2 0 0 1 riseFall (Or.inl rfl) (by norm_num)
  revert this
  decide +kernel

/-- C126, what holds: imbalance bars counted in ticks or volume treat both sides alike.  Reflecting
all prices and flipping `b0` leaves bar ids, imbalance sizes and thresholds unchanged.  (Missing:
runs bars, see the counterexample.  For dollar units the flow itself changes with the price level.) -/
theorem C126_imbalance_mirror_partial (unit : BarUnit) (hu : unit = .tick ∨ unit = .volume)
    (minSize : K) (maxSize : Option K) (b0 c : K) (ETInit : ℕ) (eb : Option K)
    (TSpan bSpan : Option ℕ) (ticks : List (Tick K)) :
    debugCols (aggregateImbalanceBars unit minSize maxSize (-b0) ETInit eb TSpan bSpan
      (mirrorTicks c ticks)) =
    debugCols (aggregateImbalanceBars unit minSize maxSize b0 ETInit eb TSpan bSpan ticks) := by
  have hflow : ∃ b, signedFlow unit b0 ticks = .ok b ∧ b.length = ticks.length ∧
      signedFlow unit (-b0) (mirrorTicks c ticks) = .ok (b.map fun x => -x) := by
    have hp : (mirrorTicks c ticks).map Tick.price = (ticks.map Tick.price).map fun x => c - x := by
      simp [mirrorTicks]
    have hd : tickRule (-b0) ((mirrorTicks c ticks).map Tick.price) =
        (tickRule b0 (ticks.map Tick.price)).map fun x => -x := by
      rw [hp]
      have h1 := C58_tick_rule_negation b0 (ticks.map Tick.price)
      have h2 := C58_tick_rule_affine (-b0) 1 c one_pos ((ticks.map Tick.price).map fun x => -x)
      rw [h1] at h2
      rw [← h2]
      congr 1
      rw [List.map_map, List.map_map, List.map_map]
      apply List.map_congr_left
      intro x _
      simp only [Function.comp]
      ring
    have hv : (mirrorTicks c ticks).map Tick.volume = ticks.map Tick.volume := by
      simp [mirrorTicks]
    rcases hu with rfl | rfl
    · exact ⟨_, rfl, by rw [tickRule_length, List.length_map], by simp only [signedFlow, hd]⟩
    · refine ⟨_, rfl, by simp [tickRule_length], ?_⟩
      simp only [signedFlow, hd, hv]
      congr 1
      rw [List.zipWith_map_left, List.map_zipWith]
      congr 1
      funext x y
      ring
  obtain ⟨b, h1, hlen, h2⟩ := hflow
  unfold aggregateImbalanceBars
  rw [h1, h2, py_bind_ok, py_bind_ok]
  have hm : |mean ((b.map fun x => -x).take ETInit)| = |mean (b.take ETInit)| := by
    rw [← List.map_take]
    unfold mean
    have : ((b.take ETInit).map fun x => -x).sum = -(b.take ETInit).sum := by
      generalize b.take ETInit = l
      induction l with
      | nil => simp
      | cons x xs ih => simp [ih]; ring
    rw [this, List.length_map, neg_div, abs_neg]
  have hn : ((b.map fun x => -x).take ETInit = []) ↔ (b.take ETInit = []) := by
    rw [← List.map_take, List.map_eq_nil_iff]
  simp only [hn, hm, computeImb_mirror]
  split
  · rfl
  · simp only [py_pure]
    have hl : (mirrorTicks c ticks).length = ticks.length := by simp [mirrorTicks]
    cases computeImbalanceBarSizes _ _ b with
    | error e => rfl
    | ok r =>
      simp only [py_bind_ok]
      rw [hl]
      cases hid : computeTickBarId ticks.length r.1 with
      | error e => rfl
      | ok ids =>
        simp only [py_bind_ok]
        have hil : ids.length = ticks.length := by
          have key : ∀ (k i cur : ℕ) (ids : List ℕ), tickBarIdLoop r.1 k i cur = .ok ids →
              ids.length = k := by
            intro k
            induction k with
            | zero => intro i cur ids h; cases h; rfl
            | succ k ih =>
              intro i cur ids h
              unfold tickBarIdLoop at h
              cases hg : pyGet r.1 cur with
              | error e => rw [hg] at h; cases h
              | ok e =>
                rw [hg, py_bind_ok] at h
                simp only at h
                cases hr : tickBarIdLoop r.1 k (i + 1) (if i > e then cur + 1 else cur) with
                | error e' => rw [hr] at h; cases h
                | ok rest =>
                  rw [hr, py_bind_ok] at h
                  cases h
                  simp [ih _ _ _ hr]
          exact key _ _ _ _ hid
        obtain ⟨r1, hr1⟩ := groupTicksToBars_isOk ids ticks hil
        obtain ⟨r2, hr2⟩ := groupTicksToBars_isOk ids (mirrorTicks c ticks) (by rw [hil, hl])
        rw [hr1, hr2]
        rfl

example : debugCols (aggregateImbalanceBars .volume 0 none (-1) 2 none none none
    (mirrorTicks 5 riseFall)) = .ok ([0, 0, 1, 1], [1, 2, 1, 0], [2, 2, 2, 2]) := by decide +kernel

end FinML.Bars
