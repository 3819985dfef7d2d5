import Verif.Alloc.DivProps
import Mathlib.Algebra.Order.BigOperators.Group.List
import Mathlib.Data.Rat.Floor
import Mathlib.Tactic.IntervalCases

/-!
# Averaged, discretised and probability based sizes (C85, C86)
-/

set_option linter.unusedSectionVars false

namespace FinML.Alloc

section
variable {K : Type} [Field K] [LinearOrder K] [IsStrictOrderedRing K]

/-- The event is open at time `t`. -/
def Open (t : ℤ) (p : Position K) : Prop := p.start ≤ t ∧ ∀ e, p.stop = some e → t ≤ e

theorem isActive_iff (t : ℤ) (p : Position K) : isActive t p = true ↔ Open t p := by
  unfold isActive Open
  cases p.stop <;> simp

theorem mem_unionIndex (a b : List ℤ) (t : ℤ) : t ∈ unionIndex a b ↔ t ∈ a ∨ t ∈ b := by
  unfold unionIndex
  rw [List.mem_insertionSort, List.mem_dedup, List.mem_append]

theorem unionIndex_sorted (a b : List ℤ) : (unionIndex a b).Pairwise (· < ·) := by
  have h1 : (unionIndex a b).Pairwise (· ≤ ·) := List.pairwise_insertionSort _ _
  have h2 : (unionIndex a b).Nodup :=
    (List.perm_insertionSort _ _).nodup_iff.2 (List.nodup_dedup _)
  exact (h1.and h2).imp fun ⟨h, h'⟩ => lt_of_le_of_ne h h'

open Classical in
/-- The mean size of the events open at time `t`, zero if there is none. -/
noncomputable def meanOpen (ps : List (Position K)) (t : ℤ) : K :=
  let act := ps.filter fun p => decide (Open t p)
  (act.map Position.size).sum / (act.length : K)

theorem filter_start (ps : List (Position K)) (hnd : (ps.map Position.start).Nodup) (p : Position K)
    (hp : p ∈ ps) : (ps.filter fun q => q.start = p.start) = [p] := by
  induction ps with
  | nil => simp at hp
  | cons a ps ih =>
    rw [List.map_cons, List.nodup_cons] at hnd
    rcases List.mem_cons.1 hp with rfl | hp
    · rw [List.filter_cons]
      simp only [decide_true, if_true]
      congr 1
      rw [List.filter_eq_nil_iff]
      intro q hq
      simp only [decide_eq_true_eq]
      intro h
      exact hnd.1 (h ▸ List.mem_map_of_mem hq)
    · rw [List.filter_cons]
      have : a.start ≠ p.start := fun h => hnd.1 (h ▸ List.mem_map_of_mem hp)
      simp only [this, decide_false, Bool.false_eq_true, if_false]
      exact ih hnd.2 hp

theorem avgAt_eq (ps : List (Position K)) (hnd : (ps.map Position.start).Nodup) (t : ℤ) :
    avgAt ps t = meanOpen ps t := by
  classical
  have hfil : (ps.filter fun p => decide (Open t p)) = ps.filter (isActive t) := by
    apply List.filter_congr
    intro p _
    rw [Bool.eq_iff_iff, isActive_iff]
    simp
  unfold avgAt meanOpen
  simp only [hfil]
  have hsub : (ps.filter (isActive t)).Sublist ps := List.filter_sublist
  have hnd' : ((ps.filter (isActive t)).map Position.start).Nodup := hnd.sublist (hsub.map _)
  rw [hnd'.dedup]
  have hsel : (((ps.filter (isActive t)).map Position.start).flatMap fun s =>
      ps.filter fun p => p.start = s) = ps.filter (isActive t) := by
    rw [List.flatMap_map]
    have hgen : ∀ l : List (Position K), (∀ p ∈ l, p ∈ ps) →
        (l.flatMap fun p => ps.filter fun q => q.start = p.start) = l := by
      intro l hl
      induction l with
      | nil => rfl
      | cons p l ih =>
        rw [List.flatMap_cons, filter_start ps hnd p (hl p (by simp)), ih fun q hq => hl q (by simp [hq])]
        rfl
    exact hgen _ fun p hp => hsub.subset hp
  rw [hsel]
  split_ifs with h
  · simp [meanOf]
  · simp only [List.length_map, not_lt, Nat.le_zero_eq, List.length_eq_zero_iff] at h
    simp [h]

/-- The claim: the value at each time is the mean size of the events open then. -/
def AvgIsMean : Prop :=
  ∀ (ps : List (Position ℚ)) (t : ℤ), t ∈ positionTimes ps → avgAt ps t = meanOpen ps t

/-- C85: the claim fails when events share a start: an event that has ended is still averaged if another
event with the same start is open. -/
theorem C85_equal_starts_counterexample : ¬ AvgIsMean := by
  intro h
  have := h [⟨0, some 1, 1⟩, ⟨0, some 5, 0⟩] 5 (by decide)
  have h1 : avgAt ([⟨0, some 1, 1⟩, ⟨0, some 5, 0⟩] : List (Position ℚ)) 5 = 1 / 2 := by
    decide +kernel
  have h2 : meanOpen ([⟨0, some 1, 1⟩, ⟨0, some 5, 0⟩] : List (Position ℚ)) 5 = 0 := by
    simp [meanOpen, Open]
  rw [h1, h2] at this
  norm_num at this

/-- C85: with distinct starts the averages are given at exactly the starts and ends, in order, and each
is the mean size of the events open then.  What is missing from the full claim: events that share a
start, for which it fails (see the counterexample). -/
theorem C85_average_partial (ps : List (Position K)) (hnd : (ps.map Position.start).Nodup) :
    ((avgActivePositions ps).map Prod.fst).Pairwise (· < ·) ∧
    (∀ t, t ∈ (avgActivePositions ps).map Prod.fst ↔
      (∃ p ∈ ps, p.start = t) ∨ ∃ p ∈ ps, p.stop = some t) ∧
    ∀ q ∈ avgActivePositions ps, q.2 = meanOpen ps q.1 := by
  have hk : (avgActivePositions ps).map Prod.fst = positionTimes ps := by
    simp [avgActivePositions, Function.comp_def]
  refine ⟨hk ▸ unionIndex_sorted _ _, ?_, ?_⟩
  · intro t
    rw [hk, positionTimes, mem_unionIndex]
    simp
  · intro q hq
    simp only [avgActivePositions, List.mem_map] at hq
    obtain ⟨t, -, rfl⟩ := hq
    exact avgAt_eq ps hnd t

/-- C85: the average of sizes in `[-1, 1]` is in `[-1, 1]`, for all positions. -/
theorem C85_average_bounds (ps : List (Position K)) (h : ∀ p ∈ ps, |p.size| ≤ 1) (t : ℤ) :
    |avgAt ps t| ≤ 1 := by
  unfold avgAt
  simp only
  split_ifs with h0
  · set l := ((((ps.filter (isActive t)).map Position.start).dedup.flatMap fun s =>
      ps.filter fun p => p.start = s).map Position.size) with hl
    have hb : ∀ x ∈ l, |x| ≤ 1 := by
      intro x hx
      simp only [hl, List.mem_map, List.mem_flatMap] at hx
      obtain ⟨p, ⟨s, -, hp⟩, rfl⟩ := hx
      exact h p (List.mem_of_mem_filter hp)
    clear_value l
    unfold meanOf
    have hs : |l.sum| ≤ (l.length : K) := by
      clear hl
      induction l with
      | nil => simp
      | cons x l ih =>
        rw [List.sum_cons, List.length_cons]
        push_cast
        have h1 := hb x (by simp)
        have h2 := ih fun y hy => hb y (by simp [hy])
        linarith [abs_add_le x l.sum]
    rw [abs_div, Nat.abs_cast]
    exact div_le_one_of_le₀ hs (by positivity)
  · simp

variable [FloorRing K]

/-- The rounding of the code is the nearest integer, the even one of two equally near. -/
theorem roundHalfEven_near (x : K) : |x - roundHalfEven x| ≤ 1 / 2 ∧
    (|x - roundHalfEven x| = 1 / 2 → roundHalfEven x % 2 = 0) := by
  have h1 := Int.floor_le x
  have h2 := Int.lt_floor_add_one x
  unfold roundHalfEven
  split_ifs with ha hb hc
  · refine ⟨by rw [abs_le]; constructor <;> linarith, fun h => ?_⟩
    rw [abs_of_nonneg (by linarith)] at h
    linarith
  · push_cast
    refine ⟨by rw [abs_le]; constructor <;> linarith, fun h => ?_⟩
    rw [abs_of_nonpos (by linarith)] at h
    linarith
  · refine ⟨by rw [abs_le]; constructor <;> linarith, fun _ => hc⟩
  · push_cast
    refine ⟨by rw [abs_le]; constructor <;> linarith, fun _ => by omega⟩

theorem roundHalfEven_unique (x : K) (k : ℤ) (h1 : |x - k| ≤ 1 / 2)
    (h2 : |x - k| = 1 / 2 → k % 2 = 0) : roundHalfEven x = k := by
  obtain ⟨g1, g2⟩ := roundHalfEven_near x
  set r := roundHalfEven x
  have hd : |((r - k : ℤ) : K)| ≤ 1 := by
    push_cast
    have : (r : K) - k = (x - k) - (x - r) := by ring
    rw [this]
    refine (abs_sub _ _).trans ?_
    linarith
  have hd' : |r - k| ≤ 1 := by exact_mod_cast hd
  by_contra hne
  have hcases : r = k + 1 ∨ r = k - 1 := by
    rw [abs_le] at hd'
    omega
  rcases hcases with h | h
  · have hr : (r : K) = k + 1 := by rw [h]; push_cast; ring
    rw [hr] at g1 g2
    rw [abs_le] at g1 h1
    have hx : x = k + 1 / 2 := by linarith
    have e1 := h2 (by rw [hx]; rw [abs_of_nonneg] <;> linarith)
    have e2 := g2 (by rw [hx]; rw [abs_of_nonpos] <;> linarith)
    omega
  · have hr : (r : K) = k - 1 := by rw [h]; push_cast; ring
    rw [hr] at g1 g2
    rw [abs_le] at g1 h1
    have hx : x = k - 1 / 2 := by linarith
    have e1 := h2 (by rw [hx]; rw [abs_of_nonpos] <;> linarith)
    have e2 := g2 (by rw [hx]; rw [abs_of_nonneg] <;> linarith)
    omega

theorem roundHalfEven_neg (x : K) : roundHalfEven (-x) = -roundHalfEven x := by
  obtain ⟨g1, g2⟩ := roundHalfEven_near x
  have : -x - ((-roundHalfEven x : ℤ) : K) = -(x - roundHalfEven x) := by push_cast; ring
  refine roundHalfEven_unique _ _ ?_ ?_
  · rw [this, abs_neg]; exact g1
  · rw [this, abs_neg]
    intro h
    have := g2 h
    omega

theorem roundHalfEven_mono {x y : K} (h : x ≤ y) : roundHalfEven x ≤ roundHalfEven y := by
  rcases h.eq_or_lt with rfl | h
  · exact le_refl _
  by_contra hc
  push Not at hc
  have hc' : ((roundHalfEven y : ℤ) : K) + 1 ≤ (roundHalfEven x : ℤ) := by exact_mod_cast hc
  have g1 := (abs_le.1 (roundHalfEven_near x).1).1
  have g2 := (abs_le.1 (roundHalfEven_near y).1).2
  linarith

/-- C85: the discretised size is the mean rounded to the nearest multiple of the step (ties to the even
multiple) and clipped to `[-1, 1]`; it is in `[-1, 1]`; for means in `[-1, 1]` it is within half a
step of the mean. -/
theorem C85_discretize (step x : K) (hs : 0 < step) :
    (∃ k : ℤ, |x - k * step| ≤ step / 2 ∧ (|x - k * step| = step / 2 → k % 2 = 0) ∧
      discretize step x = max (-1) (min 1 (k * step))) ∧
    |discretize step x| ≤ 1 ∧ (|x| ≤ 1 → |discretize step x - x| ≤ step / 2) := by
  have hscale : |x - roundHalfEven (x / step) * step| = |x / step - roundHalfEven (x / step)| * step := by
    rw [← abs_of_pos hs, ← abs_mul, abs_of_pos hs]
    congr 1
    have := hs.ne'
    field_simp
  obtain ⟨g1, g2⟩ := roundHalfEven_near (x / step)
  have hdist : |x - roundHalfEven (x / step) * step| ≤ step / 2 := by
    rw [hscale]; nlinarith
  have hclip : ∀ d : K, (if (if 1 < d then 1 else d) < -1 then -1 else (if 1 < d then 1 else d)) =
      max (-1) (min 1 d) := by
    intro d
    by_cases h1 : 1 < d
    · simp only [h1, if_true]
      rw [if_neg (by linarith), min_eq_left h1.le, max_eq_right (by linarith)]
    · simp only [h1, if_false]
      rw [min_eq_right (not_lt.1 h1)]
      split_ifs with h2
      · rw [max_eq_left h2.le]
      · rw [max_eq_right (not_lt.1 h2)]
  have hd : discretize step x = max (-1) (min 1 (roundHalfEven (x / step) * step)) := hclip _
  refine ⟨⟨roundHalfEven (x / step), hdist, ?_, hd⟩, ?_, ?_⟩
  · intro h
    apply g2
    rw [hscale] at h
    have := hs.ne'
    field_simp at h ⊢
    linarith
  · rw [hd, abs_le]
    exact ⟨le_max_left _ _, max_le (by linarith) (min_le_left _ _)⟩
  · intro hx
    rw [abs_le] at hx hdist
    rw [hd, abs_le]
    rcases le_total 1 ((roundHalfEven (x / step) : K) * step) with h | h
    · rw [min_eq_left h, max_eq_right (by linarith)]
      constructor <;> linarith
    · rw [min_eq_right h]
      rcases le_total (-1) ((roundHalfEven (x / step) : K) * step) with h' | h'
      · rw [max_eq_right h']
        constructor <;> linarith
      · rw [max_eq_left h']
        constructor <;> linarith

/-- C85: rounding and clipping is monotone and odd. -/
theorem C85_monotone_odd (step : K) (hs : 0 < step) :
    Monotone (discretize step) ∧ ∀ x, discretize step (-x) = -discretize step x := by
  have hform : ∀ x, discretize step x = max (-1) (min 1 ((roundHalfEven (x / step) : K) * step)) := by
    intro x
    unfold discretize
    simp only
    generalize (roundHalfEven (x / step) : K) * step = d
    by_cases h1 : 1 < d
    · simp only [h1, if_true]
      rw [if_neg (by linarith), min_eq_left h1.le, max_eq_right (by linarith)]
    · simp only [h1, if_false]
      rw [min_eq_right (not_lt.1 h1)]
      split_ifs with h2
      · rw [max_eq_left h2.le]
      · rw [max_eq_right (not_lt.1 h2)]
  constructor
  · intro x y h
    rw [hform, hform]
    have : ((roundHalfEven (x / step) : ℤ) : K) ≤ (roundHalfEven (y / step) : ℤ) := by
      exact_mod_cast roundHalfEven_mono (div_le_div_of_nonneg_right h hs.le)
    exact max_le_max_left _ (min_le_min_left _ (mul_le_mul_of_nonneg_right this hs.le))
  · intro x
    rw [hform, hform, neg_div, roundHalfEven_neg]
    push_cast
    rw [neg_mul]
    generalize (roundHalfEven (x / step) : K) * step = d
    rcases le_total 1 d with h | h
    · rw [min_eq_left h, max_eq_right (a := -1) (b := (1 : K)) (by linarith),
        min_eq_right (a := (1 : K)) (b := -d) (by linarith), max_eq_left (by linarith)]
    · rw [min_eq_right h]
      rcases le_total (-1) d with h' | h'
      · rw [max_eq_right h', min_eq_right (by linarith), max_eq_right (by linarith)]
      · rw [max_eq_left h', min_eq_left (by linarith), max_eq_right (by linarith)]
        ring

end

example : discretize (1 / 4 : ℚ) (3 / 8) = 1 / 2 ∧ discretize (1 / 4 : ℚ) (5 / 8) = 1 / 2 ∧
    discretize (3 / 4 : ℚ) (5 / 4) = 1 := by decide +kernel

example : avgActivePositions ([⟨0, some 3, 1⟩, ⟨1, none, 0⟩] : List (Position ℚ)) =
    [(0, 1), (1, 1 / 2), (3, 1 / 2)] := by decide +kernel

/-! ## C86 -/

/-- The test statistic of the docstring. -/
noncomputable def zStat (n : ℕ) (p : ℝ) : ℝ := (p - 1 / n) / √(p * (1 - p))

theorem statCdf_eq (n : ℕ) (p : ℝ) (h0 : 0 < p) (h1 : p < 1) :
    statCdf n p = some (normCdf (zStat n p)) := by
  have : 0 < p * (1 - p) := mul_pos h0 (by linarith)
  unfold statCdf zStat
  rw [if_neg (not_lt.2 this.le), if_neg this.ne', rpow_half]

theorem zStat_split (n : ℕ) (p : ℝ) (h0 : 0 < p) (h1 : p < 1) :
    zStat n p = (1 - 1 / n) * √(p / (1 - p)) - 1 / n * √((1 - p) / p) := by
  have hq : 0 < 1 - p := by linarith
  unfold zStat
  rw [Real.sqrt_mul h0.le, Real.sqrt_div h0.le, Real.sqrt_div hq.le]
  have hp := Real.sqrt_pos.2 h0
  have hq' := Real.sqrt_pos.2 hq
  generalize (1 : ℝ) / n = a
  have e1 := Real.sq_sqrt h0.le
  have e2 := Real.sq_sqrt hq.le
  generalize √p = s at *
  generalize √(1 - p) = r at *
  field_simp
  rw [e1, e2]
  ring

theorem zStat_strictMono (n : ℕ) (hn : 2 ≤ n) (p q : ℝ) (h0 : 0 < p) (hpq : p < q) (h1 : q < 1) :
    zStat n p < zStat n q := by
  have hn' : (2 : ℝ) ≤ n := by exact_mod_cast hn
  have ha0 : (0 : ℝ) < 1 / n := by positivity
  have ha1 : (1 : ℝ) / n < 1 := by rw [div_lt_one (by linarith)]; linarith
  rw [zStat_split n p h0 (by linarith), zStat_split n q (by linarith) h1]
  have hp1 : 0 < 1 - p := by linarith
  have hq1 : 0 < 1 - q := by linarith
  have e1 : √(p / (1 - p)) < √(q / (1 - q)) := by
    apply Real.sqrt_lt_sqrt (by positivity)
    rw [div_lt_div_iff₀ hp1 hq1]; nlinarith
  have e2 : √((1 - q) / q) < √((1 - p) / p) := by
    apply Real.sqrt_lt_sqrt (div_nonneg hq1.le (by linarith))
    rw [div_lt_div_iff₀ (by linarith) h0]; nlinarith
  nlinarith

/-- The size the code gives to one event. -/
noncomputable def unitSize (n : ℕ) (p : ℝ) : ℝ := 2 * normCdf (zStat n p) - 1

theorem eventSize_eq (n : ℕ) (e : Forecast) (h0 : 0 < e.prob) (h1 : e.prob < 1) :
    eventSize n e = some (e.pred * unitSize n e.prob * e.side.getD 1) := by
  unfold eventSize unitSize
  rw [statCdf_eq n e.prob h0 h1]
  rfl

/-- C86: with at least two classes, an event has the size `pred · s(p)` (times its side) where `s` is
0 at `p = 1/num_classes`, strictly increasing on `(0, 1)`, of absolute value below 1, positive above
`1/num_classes` and negative below. -/
theorem C86_event_size (n : ℕ) (hn : 2 ≤ n) : ∃ s : ℝ → ℝ,
    (∀ e : Forecast, 0 < e.prob → e.prob < 1 →
      eventSize n e = some (e.pred * s e.prob * e.side.getD 1)) ∧
    s (1 / n) = 0 ∧ (∀ p q : ℝ, 0 < p → p < q → q < 1 → s p < s q) ∧ (∀ p : ℝ, |s p| < 1) ∧
    (∀ p : ℝ, 1 / (n : ℝ) < p → p < 1 → 0 < s p) ∧ (∀ p : ℝ, 0 < p → p < 1 / n → s p < 0) := by
  have hn' : (2 : ℝ) ≤ n := by exact_mod_cast hn
  have ha0 : (0 : ℝ) < 1 / n := by positivity
  have ha1 : (1 : ℝ) / n < 1 := by rw [div_lt_one (by linarith)]; linarith
  have h0 : unitSize n (1 / n) = 0 := by
    unfold unitSize zStat
    rw [sub_self, zero_div, normCdf_zero]
    norm_num
  have hmono : ∀ p q, 0 < p → p < q → q < 1 → unitSize n p < unitSize n q := by
    intro p q hp hpq hq
    unfold unitSize
    linarith [normCdf_strictMono (zStat_strictMono n hn p q hp hpq hq)]
  refine ⟨unitSize n, eventSize_eq n, h0, hmono, ?_, ?_, ?_⟩
  · intro p
    unfold unitSize
    rw [abs_lt]
    constructor <;> linarith [normCdf_pos (zStat n p), normCdf_lt_one (zStat n p)]
  · intro p hp hp1
    rw [← h0]
    exact hmono _ _ ha0 hp hp1
  · intro p hp hp1
    rw [← h0]
    exact hmono _ _ hp hp1 ha1

/-- C86: at the extreme probabilities 0 and 1 the sizes are full and opposite. -/
theorem C86_extremes (n : ℕ) (hn : 2 ≤ n) (e : Forecast) :
    (e.prob = 1 → eventSize n e = some (e.pred * e.side.getD 1)) ∧
    (e.prob = 0 → eventSize n e = some (-(e.pred * e.side.getD 1))) := by
  have hn' : (2 : ℝ) ≤ n := by exact_mod_cast hn
  have ha0 : (0 : ℝ) < 1 / n := by positivity
  have ha1 : (1 : ℝ) / n < 1 := by rw [div_lt_one (by linarith)]; linarith
  constructor
  · intro h
    have : statCdf n 1 = some 1 := by
      unfold statCdf
      simp only [sub_self, mul_zero, lt_irrefl, if_false, if_true]
      rw [if_pos (by linarith)]
    simp only [eventSize, h, this, Option.map_some]
    congr 1; ring
  · intro h
    have : statCdf n 0 = some 0 := by
      unfold statCdf
      simp only [zero_mul, lt_irrefl, if_false, if_true, zero_sub]
      rw [if_neg (by linarith), if_pos (by linarith)]
    simp only [eventSize, h, this, Option.map_some]
    congr 1; ring

/-- C86, degenerate inputs: without classes the call fails with a division by zero as soon as there is an event;
with one class a certain event has no size; neither has a probability outside `[0, 1]`. -/
theorem C86_degenerate :
    (∀ (events : List Forecast) (step : ℝ), events ≠ [] →
      positionSizeFromProbabilities events step 0 = .error .zeroDivision) ∧
    (∀ e : Forecast, e.prob = 1 → eventSize 1 e = none) ∧
    (∀ (n : ℕ) (e : Forecast), e.prob < 0 ∨ 1 < e.prob → eventSize n e = none) := by
  refine ⟨?_, ?_, ?_⟩
  · intro events step h
    unfold positionSizeFromProbabilities
    rw [if_neg (by simpa using h), if_pos rfl]
  · intro e h
    simp [eventSize, statCdf, h]
  · intro n e h
    unfold eventSize statCdf
    rw [if_pos]
    · rfl
    · rcases h with h | h <;> nlinarith

theorem toPosition_ok (n : ℕ) (hn : 2 ≤ n) (e : Forecast) (h0 : 0 ≤ e.prob) (h1 : e.prob ≤ 1)
    (hp : |e.pred| ≤ 1) (hs : |e.side.getD 1| ≤ 1) :
    ∃ s, toPosition n e = .ok ⟨e.start, e.stop, s⟩ ∧ |s| ≤ 1 := by
  have hprod : |e.pred * e.side.getD 1| ≤ 1 := by
    rw [abs_mul]; exact mul_le_one₀ hp (abs_nonneg _) hs
  rcases h0.eq_or_lt with h | h
  · have := (C86_extremes n hn e).2 h.symm
    exact ⟨_, by rw [toPosition, this]; rfl, by rw [abs_neg]; exact hprod⟩
  rcases h1.eq_or_lt with h' | h'
  · have := (C86_extremes n hn e).1 h'
    exact ⟨_, by rw [toPosition, this]; rfl, hprod⟩
  · obtain ⟨s, hs1, -, -, hs2, -⟩ := C86_event_size n hn
    refine ⟨_, by rw [toPosition, hs1 e h h']; rfl, ?_⟩
    have : e.pred * s e.prob * e.side.getD 1 = e.pred * e.side.getD 1 * s e.prob := by ring
    rw [this, abs_mul]
    exact mul_le_one₀ hprod (abs_nonneg _) (hs2 _).le

/-- C86: for probabilities in `[0, 1]`, predictions and sides in `[-1, 1]` and a positive step, sizes are
reported at the starts and ends of the events, in order, and all are in `[-1, 1]`. -/
theorem C86_reported (events : List Forecast) (step : ℝ) (n : ℕ) (hn : 2 ≤ n) (hstep : 0 < step)
    (h : ∀ e ∈ events, 0 ≤ e.prob ∧ e.prob ≤ 1 ∧ |e.pred| ≤ 1 ∧ |e.side.getD 1| ≤ 1) :
    ∃ res, positionSizeFromProbabilities events step n = .ok res ∧
      (res.map Prod.fst).Pairwise (· < ·) ∧
      (∀ t, t ∈ res.map Prod.fst ↔ (∃ e ∈ events, e.start = t) ∨ ∃ e ∈ events, e.stop = some t) ∧
      ∀ q ∈ res, |q.2| ≤ 1 := by
  by_cases he : events.length = 0
  · have : events = [] := List.length_eq_zero_iff.1 he
    subst this
    exact ⟨[], by simp [positionSizeFromProbabilities]⟩
  have hex : ∀ e : Forecast, ∃ s, e ∈ events → toPosition n e = .ok ⟨e.start, e.stop, s⟩ ∧ |s| ≤ 1 := by
    intro e
    by_cases hm : e ∈ events
    · obtain ⟨h0, h1, h2, h3⟩ := h e hm
      obtain ⟨s, hs⟩ := toPosition_ok n hn e h0 h1 h2 h3
      exact ⟨s, fun _ => hs⟩
    · exact ⟨0, fun hm' => absurd hm' hm⟩
  choose f hf using hex
  have hm : events.mapM (toPosition n) =
      .ok (events.map fun e => (⟨e.start, e.stop, f e⟩ : Position ℝ)) :=
    mapM_ok_of_forall _ _ _ fun e he => (hf e he).1
  set ps := events.map fun e => (⟨e.start, e.stop, f e⟩ : Position ℝ) with hps
  have hb : ∀ p ∈ ps, |p.size| ≤ 1 := by
    intro p hp
    rw [hps, List.mem_map] at hp
    obtain ⟨e, he, rfl⟩ := hp
    exact (hf e he).2
  have hkeys : ((avgActivePositions ps).map fun p => (p.1, discretize step p.2)).map Prod.fst =
      positionTimes ps := by
    simp [avgActivePositions, Function.comp_def]
  refine ⟨(avgActivePositions ps).map fun p => (p.1, discretize step p.2), ?_, ?_, ?_, ?_⟩
  · unfold positionSizeFromProbabilities
    rw [if_neg he, if_neg (by omega), if_neg hstep.ne', hm]
    rfl
  · rw [hkeys]
    exact unionIndex_sorted _ _
  · intro t
    rw [hkeys, positionTimes, mem_unionIndex, hps]
    simp [List.mem_filterMap]
  · intro q hq
    rw [List.mem_map] at hq
    obtain ⟨p, -, rfl⟩ := hq
    exact (C85_discretize step p.2 hstep).2.1

example : positionSizeFromProbabilities [⟨0, some 2, none, 1, 1⟩, ⟨1, some 3, some (-1), 1 / 2, 1⟩] (1 / 4) 2 =
    .ok [(0, 1), (1, 1 / 2), (2, 1 / 2), (3, 0)] := by
  have h1 : toPosition 2 ⟨0, some 2, none, 1, 1⟩ = .ok ⟨0, some 2, 1⟩ := by
    have := (C86_extremes 2 (le_refl _) ⟨0, some 2, none, 1, 1⟩).1 rfl
    rw [toPosition, this]
    simp
  have h2 : toPosition 2 ⟨1, some 3, some (-1), 1 / 2, 1⟩ = .ok ⟨1, some 3, 0⟩ := by
    rw [toPosition, eventSize_eq 2 _ (by norm_num) (by norm_num)]
    norm_num [unitSize, zStat, normCdf_zero]
  unfold positionSizeFromProbabilities
  rw [if_neg (by simp), if_neg (by omega), if_neg (by norm_num), mapM_cons_py, h1, mapM_cons_py, h2]
  have ht : positionTimes ([⟨0, some 2, 1⟩, ⟨1, some 3, 0⟩] : List (Position ℝ)) = [0, 1, 2, 3] := by
    simp only [positionTimes, List.map_cons, List.map_nil, List.filterMap_cons, List.filterMap_nil]
    decide
  have hr : ∀ (x : ℝ) (k : ℤ), x = k → roundHalfEven x = k := by
    rintro x k rfl
    exact roundHalfEven_unique _ _ (by simp) (by simp)
  simp [avgActivePositions, ht, avgAt, isActive, meanOf, discretize, List.filter_cons]
  have e1 : roundHalfEven (4 : ℝ) = 4 := hr _ 4 (by norm_num)
  have e2 : roundHalfEven (((1 : ℝ) + 1)⁻¹ * 4) = 2 := hr _ 2 (by norm_num)
  have e3 : roundHalfEven (0 : ℝ) = 0 := hr _ 0 (by norm_num)
  rw [e1, e2, e3]
  norm_num

end FinML.Alloc
