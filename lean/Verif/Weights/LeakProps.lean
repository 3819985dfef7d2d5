import Verif.CV.FeatureProps
import Verif.Weights.OrderProps

/-!
# Property C230: prices of the test period and the return weights of train events

Weights are computed once, from all events, and then used to fit on the train rows of a split.
-/

set_option linter.unusedSectionVars false

namespace FinML.Weights

open FinML.CV

variable {K : Type} [Field K] [LinearOrder K] [IsStrictOrderedRing K] [FloorRing K]

/-- Two price series on the same bars that differ only inside the test intervals. -/
def SamePrices (tests : List (ℤ × ℤ)) (bars bars' : Series ℝ) : Prop :=
  List.Forall₂ (fun p q : ℤ × ℝ => p.1 = q.1 ∧ ((∀ t ∈ tests, p.1 < t.1 ∨ t.2 < p.1) → p.2 = q.2)) bars bars'

/-- The weight in row `i`. -/
def weightAt (ws : Series (Option ℝ)) (i : ℕ) : Option ℝ := (ws[i]?.map Prod.snd).join

/-- C230, full claim: the weights of the train rows of PurgedKFold do not depend on prices in the test
intervals. -/
def TrainWeightsClean : Prop :=
  ∀ (events : List (ℤ × ℤ)) (counts : Series ℕ) (bars bars' : Series ℝ) (nSplits : ℤ)
    (folds : List (List ℕ × List ℕ)) (ws ws' : Series (Option ℝ)),
    (events.map Prod.fst).Pairwise (· < ·) → (∀ e ∈ events, e.1 ≤ e.2) → (∀ q ∈ counts, q.2 ≠ 0) →
    (bars.map Prod.fst).Pairwise (· < ·) → (∀ e ∈ events, e.1 ∈ bars.map Prod.fst) →
    (∀ p ∈ bars, 0 < p.2) → (∀ p ∈ bars', 0 < p.2) →
    kfoldSplit nSplits (0 : ℚ) (.series true (events.map closeEv)) = .ok folds →
    computeWeightsByReturns (closedTimes events) counts bars = .ok ws →
    computeWeightsByReturns (closedTimes events) counts bars' = .ok ws' →
    ∀ f ∈ folds, SamePrices (f.2.filterMap fun y => events[y]?) bars bars' →
      ∀ i ∈ f.1, weightAt ws i = weightAt ws' i

/-- Price per bar with a given price at bar 1. -/
def midBars (x : ℝ) : Series ℝ := [(0, 1), (1, x), (2, 1), (3, 1), (4, 2)]

/-- Four events of one bar each. -/
def fourEvents : List (ℤ × ℤ) := [(1, 1), (2, 2), (3, 3), (4, 4)]

/-- One event per bar. -/
def fourCounts : Series ℕ := [(1, 1), (2, 1), (3, 1), (4, 1)]

theorem midBars_attributed (x : ℝ) : attributed fourCounts (1, 1) (midBars x) = Real.log x ∧
    attributed fourCounts (2, 2) (midBars x) = - Real.log x ∧
    attributed fourCounts (3, 3) (midBars x) = 0 ∧
    attributed fourCounts (4, 4) (midBars x) = Real.log 2 := by
  refine ⟨?_, ?_, ?_, ?_⟩ <;> simp [attributed, midBars, fourCounts]

theorem midBars_pos (x : ℝ) (hx : 0 < x) : ∀ p ∈ midBars x, 0 < p.2 := by
  intro p hp
  simp [midBars] at hp
  rcases hp with rfl | rfl | rfl | rfl | rfl <;> simp [hx]

theorem midBars_weights (x : ℝ) (hx : 1 ≤ x) :
    ∃ ws, computeWeightsByReturns (closedTimes fourEvents) fourCounts (midBars x) = .ok ws ∧
      weightAt ws 3 = some (Real.log 2 * (4 / (2 * Real.log x + Real.log 2))) := by
  have hL : 0 < Real.log 2 := Real.log_pos (by norm_num)
  have hX : 0 ≤ Real.log x := Real.log_nonneg hx
  obtain ⟨a1, a2, a3, a4⟩ := midBars_attributed x
  obtain ⟨ws, hw1, hw2, _⟩ := C36_weights fourEvents (by decide) fourCounts (by decide) (midBars x)
    (midBars_pos x (by linarith)) ⟨(4, 4), by simp [fourEvents], by rw [a4]; exact hL.ne'⟩
  refine ⟨_, hw1, ?_⟩
  rw [hw2]
  simp only [fourEvents, List.map_cons, List.map_nil, a1, a2, a3, a4, List.sum_cons, List.sum_nil,
    List.length_cons, List.length_nil, List.zip_cons_cons, List.zip_nil_right, weightAt, abs_neg,
    abs_of_nonneg hX, abs_of_pos hL, abs_zero]
  simp
  left
  ring

/-- C230, counterexample: a price in the test period changes the weight of a train event through the common
scale. -/
theorem C230_scale_counterexample : ¬ TrainWeightsClean := by
  intro h
  obtain ⟨ws, hw, hv⟩ := midBars_weights 1 le_rfl
  obtain ⟨ws', hw', hv'⟩ := midBars_weights 2 (by norm_num)
  have hfold : kfoldSplit 2 (0 : ℚ) (.series true (fourEvents.map closeEv)) =
      .ok [([3], [0, 1]), ([0, 1], [2, 3])] := by decide +kernel
  have h1 := h fourEvents fourCounts (midBars 1) (midBars 2) 2 _ ws ws' (by decide) (by decide) (by decide)
    (by simp [midBars]) (by simp [midBars, fourEvents]) (midBars_pos 1 (by norm_num))
    (midBars_pos 2 (by norm_num)) hfold hw hw' ([3], [0, 1]) (by simp)
    (by
      refine .cons ⟨rfl, fun _ => rfl⟩ (.cons ⟨rfl, ?_⟩ (.cons ⟨rfl, fun _ => rfl⟩
        (.cons ⟨rfl, fun _ => rfl⟩ (.cons ⟨rfl, fun _ => rfl⟩ .nil))))
      intro hc
      have := hc (1, 1) (by simp [fourEvents])
      simp at this)
    3 (by simp)
  rw [hv, hv'] at h1
  have hL : 0 < Real.log 2 := Real.log_pos (by norm_num)
  have h2 := Option.some.inj h1
  rw [Real.log_one] at h2
  field_simp at h2
  linarith

theorem attributed_congr (counts : Series ℕ) (e : ℤ × ℤ) (bars bars' : Series ℝ)
    (ht : List.Forall₂ (fun p q : ℤ × ℝ => p.1 = q.1) bars bars')
    (h : ∀ i p q, bars[i]? = some p → bars'[i]? = some q →
      ((e.1 ≤ p.1 ∧ p.1 ≤ e.2) ∨ ∃ r, bars[i + 1]? = some r ∧ e.1 ≤ r.1 ∧ r.1 ≤ e.2) → p = q) :
    attributed counts e bars = attributed counts e bars' := by
  induction ht with
  | nil => rfl
  | @cons p q ps qs hpq hrest ih =>
    cases hrest with
    | nil => rfl
    | @cons p2 q2 ps qs hpq2 hrest =>
      have h1 := ih fun i a b ha hb hab => h (i + 1) a b ha hb hab
      rw [attributed, attributed, h1, ← hpq2]
      by_cases hin : e.1 ≤ p2.1 ∧ p2.1 ≤ e.2
      · obtain rfl := h 0 p q rfl rfl (Or.inr ⟨p2, rfl, hin⟩)
        obtain rfl := h 1 p2 q2 rfl rfl (Or.inl hin)
        rfl
      · rw [if_neg hin, if_neg hin]

/-- Rows whose events are apart from all tests and whose bar before the start is clear keep their weights up
to a common factor. -/
theorem relative_weights (events tests : List (ℤ × ℤ)) (hst : (events.map Prod.fst).Nodup)
    (counts : Series ℕ) (hc : ∀ q ∈ counts, q.2 ≠ 0) (bars bars' : Series ℝ)
    (hs : (bars.map Prod.fst).Pairwise (· < ·)) (hpos : ∀ p ∈ bars, 0 < p.2)
    (hpos' : ∀ p ∈ bars', 0 < p.2) (hstarts : ∀ e ∈ events, e.1 ∈ bars.map Prod.fst)
    (hnz : ∃ e ∈ events, attributed counts e bars ≠ 0) (hnz' : ∃ e ∈ events, attributed counts e bars' ≠ 0)
    (hsame : SamePrices tests bars bars') (T : List ℕ)
    (hT : ∀ i ∈ T, ∀ ev, events[i]? = some ev → (∀ t ∈ tests, ev.2 < t.1 ∨ t.2 < ev.1) ∧
      ∀ a : ℕ, (bars.map Prod.fst)[a]? = some ev.1 → WindowClear (bars.map Prod.fst) tests 1 a)
    (hTl : ∀ i ∈ T, i < events.length) :
    ∃ ws ws', computeWeightsByReturns (closedTimes events) counts bars = .ok ws ∧
      computeWeightsByReturns (closedTimes events) counts bars' = .ok ws' ∧
      ∃ c : ℝ, 0 < c ∧ ∀ i ∈ T, ∃ v, weightAt ws i = some v ∧ weightAt ws' i = some (c * v) := by
  obtain ⟨w, hw1, hw2, -, -⟩ := C36_weights events hst counts hc bars hpos hnz
  obtain ⟨w', hw1', hw2', -, -⟩ := C36_weights events hst counts hc bars' hpos' hnz'
  refine ⟨_, _, hw1, hw1', ?_⟩
  have hS : ∀ b : Series ℝ, (∃ e ∈ events, attributed counts e b ≠ 0) →
      0 < (events.map fun e => |attributed counts e b|).sum := by
    rintro b ⟨e, he, hne⟩
    have h1 : |attributed counts e b| ≤ (events.map fun e => |attributed counts e b|).sum := by
      apply List.single_le_sum
      · intro x hx
        obtain ⟨e', _, rfl⟩ := List.mem_map.1 hx
        exact abs_nonneg _
      · exact List.mem_map.2 ⟨e, he, rfl⟩
    have := abs_pos.2 hne
    linarith
  have h1 := hS bars hnz
  have h2 := hS bars' hnz'
  generalize (events.map fun e => |attributed counts e bars|).sum = S at *
  generalize (events.map fun e => |attributed counts e bars'|).sum = S' at *
  refine ⟨S / S', by positivity, ?_⟩
  intro i hi
  have hil := hTl i hi
  obtain ⟨hap, hwin⟩ := hT i hi _ (List.getElem?_eq_getElem hil)
  have hval : ∀ (u : List ℝ) (g : ℤ × ℤ → ℝ), u = events.map g →
      weightAt ((events.map Prod.fst).zip (u.map some)) i = some (g events[i]) := by
    rintro u g rfl
    unfold weightAt
    have : i < ((events.map Prod.fst).zip ((events.map g).map some)).length := by simpa using hil
    rw [List.getElem?_eq_getElem this]
    simp
  refine ⟨_, hval w _ hw2, ?_⟩
  rw [hval w' _ hw2']
  have hmem : events[i] ∈ events := List.getElem_mem hil
  have hatt : attributed counts events[i] bars = attributed counts events[i] bars' := by
    apply attributed_congr counts _ bars bars' (hsame.imp fun {_ _} h => h.1)
    intro j p q hp hq hin
    have hpq : p.1 = q.1 ∧ ((∀ t ∈ tests, p.1 < t.1 ∨ t.2 < p.1) → p.2 = q.2) := by
      obtain ⟨hj, hp'⟩ := List.getElem?_eq_some_iff.1 hp
      obtain ⟨hj', hq'⟩ := List.getElem?_eq_some_iff.1 hq
      have := (List.forall₂_iff_get.1 hsame).2 j hj hj'
      simpa [hp', hq'] using this
    have hpt : (bars.map Prod.fst)[j]? = some p.1 := by rw [List.getElem?_map, hp]; rfl
    have hclear : ∀ t ∈ tests, p.1 < t.1 ∨ t.2 < p.1 := by
      by_cases hpin : events[i].1 ≤ p.1 ∧ p.1 ≤ events[i].2
      · intro t ht
        rcases hap t ht with h | h
        · left; omega
        · right; omega
      · rcases hin with h | ⟨r, hr, hrin⟩
        · exact absurd h hpin
        · have hrt : (bars.map Prod.fst)[j + 1]? = some r.1 := by rw [List.getElem?_map, hr]; rfl
          have hlt : p.1 < r.1 := (sorted_getElem?_lt hs hpt hrt).2 (by omega)
          obtain ⟨a, ha⟩ := List.mem_iff_getElem?.1 (hstarts _ hmem)
          have hpe : p.1 < events[i].1 := by
            by_contra hcon
            exact hpin ⟨by omega, by omega⟩
          have h3 : j < a := (sorted_getElem?_lt hs hpt ha).1 hpe
          have h4 : a ≤ j + 1 := (sorted_getElem?_le hs ha hrt).1 hrin.1
          exact hwin a ha j p.1 (by omega) (by omega) hpt
    exact Prod.ext hpq.1 (hpq.2 hclear)
  rw [hatt]
  congr 1
  field_simp

/-- C230, what holds for PurgedKFold (any embargo): prices in the test intervals change the weights of the
train rows by one common factor only (missing: that factor, the scale to the number of events, depends on
them). -/
theorem C230_kfold_partial (events : List (ℤ × ℤ)) (hst : (events.map Prod.fst).Pairwise (· < ·))
    (he : ∀ e ∈ events, e.1 ≤ e.2) (counts : Series ℕ) (hc : ∀ q ∈ counts, q.2 ≠ 0)
    (bars bars' : Series ℝ) (hs : (bars.map Prod.fst).Pairwise (· < ·)) (hpos : ∀ p ∈ bars, 0 < p.2)
    (hpos' : ∀ p ∈ bars', 0 < p.2) (hstarts : ∀ e ∈ events, e.1 ∈ bars.map Prod.fst)
    (hnz : ∃ e ∈ events, attributed counts e bars ≠ 0) (hnz' : ∃ e ∈ events, attributed counts e bars' ≠ 0)
    (nSplits : ℤ) (pct : K) (hp : 0 ≤ pct) (folds : List (List ℕ × List ℕ))
    (h : kfoldSplit nSplits pct (.series true (events.map closeEv)) = .ok folds)
    (f : List ℕ × List ℕ) (hf : f ∈ folds)
    (hsame : SamePrices (f.2.filterMap fun y => events[y]?) bars bars') :
    ∃ ws ws', computeWeightsByReturns (closedTimes events) counts bars = .ok ws ∧
      computeWeightsByReturns (closedTimes events) counts bars' = .ok ws' ∧
      ∃ c : ℝ, 0 < c ∧ ∀ i ∈ f.1, ∃ v, weightAt ws i = some v ∧ weightAt ws' i = some (c * v) := by
  have hno := (C42_no_leak events (hst.imp le_of_lt) he nSplits pct hp folds h f hf).1
  apply relative_weights events _ (hst.imp fun {a b} h => h.ne) counts hc bars bars' hs hpos hpos' hstarts
    hnz hnz' hsame
  · intro i hi ev hev
    refine ⟨?_, fun a ha => C229_kfold_window events hst he _ hs hstarts nSplits pct hp folds h f hf 1 ?_ i hi
      ev hev a ha⟩
    · intro t ht
      obtain ⟨y, hy, hyt⟩ := List.mem_filterMap.1 ht
      obtain ⟨ev', hev', hcase⟩ := hno i hi
      rw [hev] at hev'
      obtain rfl := Option.some.inj hev'
      rcases hcase with h1 | ⟨h1, -⟩
      · exact Or.inl (h1 y hy t hyt)
      · exact Or.inr (h1 y hy t hyt)
    · have : 0 ≤ ⌊(events.length : K) * pct⌋ := Int.floor_nonneg.2 (by positivity)
      push_cast
      omega
  · intro i hi
    obtain ⟨ev, hev, -⟩ := hno i hi
    exact (List.getElem?_eq_some_iff.1 hev).1

/-- Two folds of two one-bar events: the price of bar 1 changes the weight of event 3 in the first fold. -/
example : ∃ ws ws', computeWeightsByReturns (closedTimes fourEvents) fourCounts (midBars 1) = .ok ws ∧
    computeWeightsByReturns (closedTimes fourEvents) fourCounts (midBars 2) = .ok ws' ∧
    ∃ c : ℝ, 0 < c ∧ ∀ i ∈ [3], ∃ v, weightAt ws i = some v ∧ weightAt ws' i = some (c * v) := by
  have hL : 0 < Real.log 2 := Real.log_pos (by norm_num)
  refine C230_kfold_partial fourEvents (by decide) (by decide) fourCounts (by decide) (midBars 1) (midBars 2)
    (by simp [midBars]) (midBars_pos 1 (by norm_num)) (midBars_pos 2 (by norm_num))
    (by simp [midBars, fourEvents])
    ⟨(4, 4), by simp [fourEvents], by rw [(midBars_attributed 1).2.2.2]; exact hL.ne'⟩
    ⟨(4, 4), by simp [fourEvents], by rw [(midBars_attributed 2).2.2.2]; exact hL.ne'⟩ 2 (0 : ℚ) le_rfl
    [([3], [0, 1]), ([0, 1], [2, 3])] (by decide +kernel) ([3], [0, 1]) (by simp) ?_
  refine .cons ⟨rfl, fun _ => rfl⟩ (.cons ⟨rfl, ?_⟩ (.cons ⟨rfl, fun _ => rfl⟩
    (.cons ⟨rfl, fun _ => rfl⟩ (.cons ⟨rfl, fun _ => rfl⟩ .nil))))
  intro hc
  have := hc (1, 1) (by simp [fourEvents])
  simp at this

/-- C230, full claim for purging of given tests: the weights of train rows relative to each other do not
depend on prices in the test intervals. -/
def RelativeWeightsClean : Prop :=
  ∀ (events tests : List (ℤ × ℤ)) (counts : Series ℕ) (bars bars' : Series ℝ)
    (train : List ℕ) (ws ws' : Series (Option ℝ)),
    (events.map Prod.fst).Pairwise (· < ·) → (∀ e ∈ events, e.1 ≤ e.2) → (∀ t ∈ tests, t ∈ events) →
    (∀ q ∈ counts, q.2 ≠ 0) →
    (bars.map Prod.fst).Pairwise (· < ·) → (∀ e ∈ events, e.1 ∈ bars.map Prod.fst) →
    (∀ p ∈ bars, 0 < p.2) → (∀ p ∈ bars', 0 < p.2) →
    applyPurging (events.map closeEv) (tests.map closeEv) (some (bars.map Prod.fst)) (0 : ℚ) = .ok train →
    computeWeightsByReturns (closedTimes events) counts bars = .ok ws →
    computeWeightsByReturns (closedTimes events) counts bars' = .ok ws' →
    SamePrices tests bars bars' →
    ∃ c : ℝ, ∀ i ∈ train, (weightAt ws i).map (c * ·) = weightAt ws' i

/-- Price per bar with a given price at bar 2. -/
def lastBars (x : ℝ) : Series ℝ := [(0, 1), (1, 2), (2, x), (3, 2)]

/-- Three events of one bar each. -/
def threeEvents : List (ℤ × ℤ) := [(1, 1), (2, 2), (3, 3)]

theorem lastBars_weights (x : ℝ) (hx : 0 < x) (hx2 : x < 2) :
    ∃ (ws : Series (Option ℝ)) (s : ℝ),
      computeWeightsByReturns (closedTimes threeEvents) fourCounts (lastBars x) = .ok ws ∧
      0 < s ∧ weightAt ws 0 = some (Real.log 2 * s) ∧ weightAt ws 2 = some (Real.log (2 / x) * s) := by
  have hL : 0 < Real.log 2 := Real.log_pos (by norm_num)
  have hX : 0 < Real.log (2 / x) := Real.log_pos (by rw [lt_div_iff₀ hx]; linarith)
  have a1 : attributed fourCounts (1, 1) (lastBars x) = Real.log 2 := by
    simp [attributed, lastBars, fourCounts]
  have a2 : attributed fourCounts (2, 2) (lastBars x) = Real.log (x / 2) := by
    simp [attributed, lastBars, fourCounts]
  have a3 : attributed fourCounts (3, 3) (lastBars x) = Real.log (2 / x) := by
    simp [attributed, lastBars, fourCounts]
  obtain ⟨ws, hw1, hw2, _⟩ := C36_weights threeEvents (by decide) fourCounts (by decide) (lastBars x)
    (by
      intro p hp
      simp [lastBars] at hp
      rcases hp with rfl | rfl | rfl | rfl <;> simp [hx])
    ⟨(1, 1), by simp [threeEvents], by rw [a1]; exact hL.ne'⟩
  refine ⟨_, 3 / (Real.log 2 + (|Real.log (x / 2)| + Real.log (2 / x))), hw1, by positivity, ?_, ?_⟩ <;>
  · rw [hw2]
    simp only [threeEvents, List.map_cons, List.map_nil, a1, a2, a3, List.sum_cons, List.sum_nil,
      List.length_cons, List.length_nil, List.zip_cons_cons, List.zip_nil_right, weightAt,
      abs_of_pos hX, abs_of_pos hL, add_zero]
    simp

/-- C230, counterexample for purging without embargo: the first return of an event that starts at the bar
after a test is measured from the last price of the test. -/
theorem C230_bar_after_counterexample : ¬ RelativeWeightsClean := by
  intro h
  obtain ⟨ws, s, hw, hs, h0, h2⟩ := lastBars_weights 1 (by norm_num) (by norm_num)
  obtain ⟨ws', s', hw', hs', h0', h2'⟩ := lastBars_weights (1 / 2) (by norm_num) (by norm_num)
  obtain ⟨c, hc⟩ := h threeEvents [(2, 2)] fourCounts (lastBars 1) (lastBars (1 / 2)) [0, 2] ws ws' (by decide)
    (by decide) (by simp [threeEvents]) (by decide) (by simp [lastBars]) (by simp [lastBars, threeEvents])
    (by
      intro p hp
      simp [lastBars] at hp
      rcases hp with rfl | rfl | rfl | rfl <;> norm_num)
    (by
      intro p hp
      simp [lastBars] at hp
      rcases hp with rfl | rfl | rfl | rfl <;> norm_num)
    (by decide +kernel) hw hw'
    (by
      refine .cons ⟨rfl, fun _ => rfl⟩ (.cons ⟨rfl, fun _ => rfl⟩ (.cons ⟨rfl, ?_⟩
        (.cons ⟨rfl, fun _ => rfl⟩ .nil)))
      intro hc
      have := hc (2, 2) (by simp)
      simp at this)
  have e0 := hc 0 (by simp)
  have e2 := hc 2 (by simp)
  rw [h0, h0'] at e0
  rw [h2, h2'] at e2
  have f0 := Option.some.inj e0
  have f2 := Option.some.inj e2
  have hL : 0 < Real.log 2 := Real.log_pos (by norm_num)
  have g1 : Real.log (2 / 1) = Real.log 2 := by norm_num
  have g2 : Real.log (2 / (1 / 2)) = 2 * Real.log 2 := by
    rw [show (2 : ℝ) / (1 / 2) = 2 ^ 2 by norm_num, Real.log_pow]
    norm_num
  rw [g1, g2] at f2
  have : Real.log 2 * s' = 0 := by linarith
  exact absurd this (by positivity)

/-- C230, what holds for purging of given tests: with an embargo of at least one bar, prices in the test
intervals change the weights of train rows by one common factor only (missing: without embargo they do
not). -/
theorem C230_purging_partial (events tests : List (ℤ × ℤ)) (hst : (events.map Prod.fst).Nodup)
    (he : ∀ e ∈ events, e.1 ≤ e.2) (ht : ∀ t ∈ tests, t.1 ≤ t.2) (counts : Series ℕ)
    (hc : ∀ q ∈ counts, q.2 ≠ 0) (bars bars' : Series ℝ) (hs : (bars.map Prod.fst).Pairwise (· < ·))
    (hpos : ∀ p ∈ bars, 0 < p.2) (hpos' : ∀ p ∈ bars', 0 < p.2)
    (hstarts : ∀ e ∈ events, e.1 ∈ bars.map Prod.fst) (hends : ∀ t ∈ tests, t.2 ∈ bars.map Prod.fst)
    (hnz : ∃ e ∈ events, attributed counts e bars ≠ 0) (hnz' : ∃ e ∈ events, attributed counts e bars' ≠ 0)
    (pct : K) (hp : 1 ≤ (bars.length : K) * pct) (train : List ℕ)
    (h : applyPurging (events.map closeEv) (tests.map closeEv) (some (bars.map Prod.fst)) pct = .ok train)
    (hsame : SamePrices tests bars bars') :
    ∃ ws ws', computeWeightsByReturns (closedTimes events) counts bars = .ok ws ∧
      computeWeightsByReturns (closedTimes events) counts bars' = .ok ws' ∧
      ∃ c : ℝ, 0 < c ∧ ∀ i ∈ train, ∃ v, weightAt ws i = some v ∧ weightAt ws' i = some (c * v) := by
  have hb : bars.map Prod.fst ≠ [] := by
    intro hcon
    obtain ⟨e, hee, -⟩ := hnz
    have := hstarts e hee
    rw [hcon] at this
    simp at this
  have hfl : (1 : ℤ) ≤ ⌊(bars.length : K) * pct⌋ := by
    rw [Int.le_floor]
    simpa using hp
  have hint : pyInt (((bars.map Prod.fst).length : K) * pct) =
      ((⌊(bars.length : K) * pct⌋.toNat : ℕ) : ℤ) := by
    rw [List.length_map]
    unfold pyInt
    rw [if_pos (by linarith), Int.toNat_of_nonneg (by omega)]
  obtain ⟨ext, hext, _, hok⟩ := C40_embargo events tests he ht _ hs hends hb pct _ hint
  have htr := Except.ok.inj (hok.symm.trans h)
  have hmem : ∀ i ∈ train, ∃ ev, events[i]? = some ev ∧ ∀ t ∈ ext, Apart ev t := by
    intro i hi
    rw [← htr] at hi
    exact (mem_admissible _ _ _).1 hi
  apply relative_weights events tests hst counts hc bars bars' hs hpos hpos' hstarts hnz hnz' hsame
  · intro i hi ev hev
    refine ⟨?_, fun a ha => C229_embargo_window events tests he ht _ hs hends hb pct _ hint train h 1
      (by omega) i hi ev hev a ha⟩
    intro t htt
    obtain ⟨a, ha⟩ := List.mem_iff_getElem?.1 (hstarts ev (List.mem_of_getElem? hev))
    have hw := C229_embargo_window events tests he ht _ hs hends hb pct _ hint train h 1 (by omega) i hi ev hev a ha
    obtain ⟨ev', hev', hap⟩ := hmem i hi
    rw [hev] at hev'
    obtain rfl := Option.some.inj hev'
    obtain ⟨k, hk⟩ := List.mem_iff_getElem?.1 htt
    obtain ⟨hk1, hk2⟩ := List.getElem?_eq_some_iff.1 hk
    have hl := hext.length_eq
    have hrel := (List.forall₂_iff_get.1 hext).2 k hk1 (hl ▸ hk1)
    simp only [List.get_eq_getElem, hk2] at hrel
    have hap' := hap _ (List.getElem_mem (hl ▸ hk1))
    obtain ⟨h1, p, hp1, hp2⟩ := hrel
    rcases hap' with h3 | h3
    · left; rw [← h1]; exact h3
    · rcases hw a ev.1 le_rfl (by omega) ha t htt with h4 | h4
      · have : t.1 ≤ ev.1 := by
          by_contra hcon
          have hle := ht t htt
          have hmono : t.2 ≤ ext[k].2 := by
            have hlen := (List.getElem?_eq_some_iff.1 hp1).1
            exact (sorted_getElem?_le hs hp1 hp2).2 (by omega)
          omega
        omega
      · exact Or.inr h4
  · intro i hi
    obtain ⟨ev, hev, -⟩ := hmem i hi
    exact (List.getElem?_eq_some_iff.1 hev).1

end FinML.Weights
