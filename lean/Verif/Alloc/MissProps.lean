import Verif.Alloc.MissModel
import Verif.Alloc.ProbProps

/-! # Property C301: events without a forecast in position_size_from_probabilities -/

namespace FinML.Alloc

/-- An event is open at time `t`. -/
def OpenAt (t : ℤ) (e : MissForecast) : Prop := e.start ≤ t ∧ ∀ s, e.stop = some s → t ≤ s

/-- An event without a missing entry; without a side column the side is 1. -/
def Complete (hasSide : Bool) (e : MissForecast) (f : Forecast) : Prop :=
  f.start = e.start ∧ f.stop = e.stop ∧ e.prob = some f.prob ∧ e.pred = some f.pred ∧
    (hasSide = true → ∃ s, e.side = some s ∧ f.side = some s) ∧ (hasSide = false → f.side = none)

open Classical in
/-- The sizes of the open events that have one. -/
noncomputable def knownSizes (hasSide : Bool) (n : ℕ) (events : List MissForecast) (t : ℤ) : List ℝ :=
  (events.filter fun e => decide (OpenAt t e)).filterMap (missSize hasSide n)

/-- C301, the full claim: at every reported time the size is a number, the discretised mean size of the open events
that have a forecast, 0 if there are none. -/
def MissingIgnored : Prop :=
  ∀ (hasSide : Bool) (events : List MissForecast) (step : ℝ) (n : ℕ) (out : List (ℤ × Option ℝ)), 0 < step →
    (events.map MissForecast.start).Nodup → missPositionSizes hasSide events step n = .ok out →
    ∀ q ∈ out, q.2 = some (discretize step ((knownSizes hasSide n events q.1).sum /
      ((knownSizes hasSide n events q.1).length : ℝ)))

theorem isActive_iff' {K : Type} (t : ℤ) (p : Position K) :
    isActive t p = true ↔ p.start ≤ t ∧ ∀ e, p.stop = some e → t ≤ e := by
  unfold isActive
  cases p.stop <;> simp

theorem filter_start' {K : Type} (ps : List (Position K)) (hnd : (ps.map Position.start).Nodup) (p : Position K)
    (hp : p ∈ ps) : (ps.filter fun q => q.start = p.start) = [p] := by
  induction ps with
  | nil => simp at hp
  | cons a ps ih =>
    rw [List.map_cons, List.nodup_cons] at hnd
    rcases List.mem_cons.1 hp with rfl | hp
    · rw [List.filter_cons]
      simp only [decide_true, if_true]
      congr 1
      rw [List.filter_eq_nil_iff]
      intro q hq
      simp only [decide_eq_true_eq]
      intro h
      exact hnd.1 (h ▸ List.mem_map_of_mem hq)
    · rw [List.filter_cons]
      have : a.start ≠ p.start := fun h => hnd.1 (h ▸ List.mem_map_of_mem hp)
      simp only [this, decide_false, Bool.false_eq_true, if_false]
      exact ih hnd.2 hp

theorem select_active {K : Type} (ps : List (Position K)) (hnd : (ps.map Position.start).Nodup) (t : ℤ) :
    ((((ps.filter (isActive t)).map Position.start).dedup).flatMap fun s => ps.filter fun p => p.start = s) =
      ps.filter (isActive t) := by
  have hsub : (ps.filter (isActive t)).Sublist ps := List.filter_sublist
  have hnd' : ((ps.filter (isActive t)).map Position.start).Nodup := hnd.sublist (hsub.map _)
  rw [hnd'.dedup, List.flatMap_map]
  have hgen : ∀ l : List (Position K), (∀ p ∈ l, p ∈ ps) →
      (l.flatMap fun p => ps.filter fun q => q.start = p.start) = l := by
    intro l hl
    induction l with
    | nil => rfl
    | cons p l ih =>
      rw [List.flatMap_cons, filter_start' ps hnd p (hl p (by simp)), ih fun q hq => hl q (by simp [hq])]
      rfl
  exact hgen _ fun p hp => hsub.subset hp

theorem active_map (hasSide : Bool) (n : ℕ) (events : List MissForecast) (t : ℤ) :
    (((events.map (missPosition hasSide n)).filter (isActive t)).map Position.size).filterMap id =
      knownSizes hasSide n events t := by
  classical
  unfold knownSizes
  rw [List.filter_map, List.map_map, List.filterMap_map]
  congr 1
  apply List.filter_congr
  intro e _
  rw [Bool.eq_iff_iff, decide_eq_true_iff]
  exact isActive_iff' t (missPosition hasSide n e)

theorem active_ne (hasSide : Bool) (n : ℕ) (events : List MissForecast) (t : ℤ) :
    0 < ((((events.map (missPosition hasSide n)).filter (isActive t)).map Position.start).dedup).length ↔
      ∃ e ∈ events, OpenAt t e := by
  rw [List.length_pos_iff_exists_mem]
  constructor
  · rintro ⟨s, hs⟩
    rw [List.mem_dedup] at hs
    obtain ⟨p, hp, -⟩ := List.mem_map.1 hs
    rw [List.mem_filter] at hp
    obtain ⟨e, he, rfl⟩ := List.mem_map.1 hp.1
    exact ⟨e, he, (isActive_iff' _ _).1 hp.2⟩
  · rintro ⟨e, he, ho⟩
    refine ⟨e.start, ?_⟩
    rw [List.mem_dedup, List.mem_map]
    exact ⟨missPosition hasSide n e, List.mem_filter.2 ⟨List.mem_map_of_mem he, (isActive_iff' _ _).2 ho⟩, rfl⟩

theorem missAvgAt_eq (hasSide : Bool) (n : ℕ) (events : List MissForecast)
    (hnd : (events.map MissForecast.start).Nodup) (t : ℤ) (hopen : ∃ e ∈ events, OpenAt t e) :
    missAvgAt (events.map (missPosition hasSide n)) t =
      if knownSizes hasSide n events t = [] then none
      else some ((knownSizes hasSide n events t).sum / ((knownSizes hasSide n events t).length : ℝ)) := by
  have hnd' : ((events.map (missPosition hasSide n)).map Position.start).Nodup := by
    rw [List.map_map]
    exact hnd
  unfold missAvgAt
  simp only
  rw [if_pos ((active_ne hasSide n events t).2 hopen), select_active _ hnd']
  unfold skipMean
  simp only
  rw [active_map]
  by_cases h : knownSizes hasSide n events t = []
  · rw [if_pos (by rw [h]; rfl), if_pos h]
  · rw [if_neg (by rwa [List.length_eq_zero_iff]), if_neg h]
    rfl

/-- C301. What is missing: times at which no open event has a forecast; there the size is NaN.  At the other reported
times it is the discretised mean size of the open events with a forecast, from -1 to 1.  The reported times are all
starts and ends, also those of events without a forecast. -/
theorem C301_missing_partial (hasSide : Bool) (events : List MissForecast) (step : ℝ) (hstep : 0 < step) (n : ℕ)
    (hnd : (events.map MissForecast.start).Nodup) (hends : ∀ e ∈ events, ∀ s, e.stop = some s → e.start ≤ s)
    (out : List (ℤ × Option ℝ)) (h : missPositionSizes hasSide events step n = .ok out) :
    (∀ t, t ∈ out.map Prod.fst ↔ (∃ e ∈ events, e.start = t) ∨ ∃ e ∈ events, e.stop = some t) ∧
    ∀ q ∈ out, (knownSizes hasSide n events q.1 = [] → q.2 = none) ∧
      (knownSizes hasSide n events q.1 ≠ [] → ∃ x, q.2 = some x ∧
        x = discretize step ((knownSizes hasSide n events q.1).sum /
          ((knownSizes hasSide n events q.1).length : ℝ)) ∧ |x| ≤ 1) := by
  unfold missPositionSizes at h
  by_cases h0 : events.length = 0
  · rw [if_pos h0] at h
    cases h
    rw [List.length_eq_zero_iff] at h0
    subst h0
    simp
  rw [if_neg h0] at h
  by_cases hn : n = 0
  · rw [if_pos hn] at h; cases h
  rw [if_neg hn] at h
  cases h
  have hmem : ∀ t, t ∈ positionTimes (events.map (missPosition hasSide n)) ↔
      (∃ e ∈ events, e.start = t) ∨ ∃ e ∈ events, e.stop = some t := by
    intro t
    unfold positionTimes
    rw [mem_unionIndex]
    simp [missPosition]
  refine ⟨fun t => ?_, fun q hq => ?_⟩
  · rw [List.map_map]
    have e : (Prod.fst ∘ fun t : ℤ => (t, missDiscretize step (missAvgAt (events.map (missPosition hasSide n)) t))) = id := rfl
    rw [e, List.map_id]
    exact hmem t
  · obtain ⟨t, ht, rfl⟩ := List.mem_map.1 hq
    have hopen : ∃ e ∈ events, OpenAt t e := by
      rcases (hmem t).1 ht with ⟨e, he, rfl⟩ | ⟨e, he, hs⟩
      · exact ⟨e, he, le_refl _, hends e he⟩
      · refine ⟨e, he, hends e he t hs, fun s hs' => ?_⟩
        rw [hs] at hs'
        cases hs'
        exact le_refl _
    simp only
    unfold missDiscretize
    rw [if_neg hstep.ne', missAvgAt_eq hasSide n events hnd t hopen]
    constructor
    · intro hk
      rw [if_pos hk]
      rfl
    · intro hk
      rw [if_neg hk]
      refine ⟨_, rfl, rfl, ?_⟩
      unfold discretize
      simp only
      rw [abs_le]
      split_ifs <;> constructor <;> linarith

/-- C301. An event with its forecast has the size it has in C86. -/
theorem C301_known (hasSide : Bool) (n : ℕ) (e : MissForecast) (f : Forecast) (h : Complete hasSide e f) :
    missSize hasSide n e = eventSize n f := by
  obtain ⟨-, -, hp, hd, hs, hns⟩ := h
  unfold missSize eventSize
  rw [hp, hd]
  cases hc : statCdf n f.prob with
  | none => simp [hc]
  | some c =>
    cases hasSide with
    | true =>
      obtain ⟨s, h1, h2⟩ := hs rfl
      simp [hc, h1, h2]
    | false =>
      simp [hc, hns rfl]

/-- C301. A missing probability, class or side, or a probability outside [0, 1], leaves an event without size. -/
theorem C301_unknown (hasSide : Bool) (n : ℕ) (e : MissForecast)
    (h : e.prob = none ∨ e.pred = none ∨ (hasSide = true ∧ e.side = none) ∨ ∃ p, e.prob = some p ∧ (p < 0 ∨ 1 < p)) :
    missSize hasSide n e = none := by
  unfold missSize
  rcases h with h | h | ⟨rfl, h⟩ | ⟨p, h, hp⟩
  · rw [h]; rfl
  · rw [h]
    cases e.prob with
    | none => rfl
    | some p => cases statCdf n p <;> simp
  · rw [h]
    cases e.prob with
    | none => rfl
    | some p => cases statCdf n p <;> cases e.pred <;> simp
  · rw [h]
    have hneg : p * (1 - p) < 0 := by
      rcases hp with hp | hp
      · exact mul_neg_of_neg_of_pos hp (by linarith)
      · exact mul_neg_of_pos_of_neg (by linarith) (by linarith)
    have : statCdf n p = none := by
      unfold statCdf
      rw [if_pos hneg]
    simp [this]

/-- C301. With `step_size = 0` no size is a number. -/
theorem C301_no_step (hasSide : Bool) (events : List MissForecast) (n : ℕ) (out : List (ℤ × Option ℝ))
    (h : missPositionSizes hasSide events 0 n = .ok out) : ∀ q ∈ out, q.2 = none := by
  unfold missPositionSizes at h
  by_cases h0 : events.length = 0
  · rw [if_pos h0] at h
    cases h
    simp
  rw [if_neg h0] at h
  by_cases hn : n = 0
  · rw [if_pos hn] at h; cases h
  rw [if_neg hn] at h
  cases h
  intro q hq
  obtain ⟨t, -, rfl⟩ := List.mem_map.1 hq
  exact if_pos rfl

/-- One event without probability and one with, open from 0 to 1 and from 2 to 3. -/
def missEvents : List MissForecast := [⟨0, some 1, none, none, some 1⟩, ⟨2, some 3, none, some 1, some 1⟩]

theorem missEvents_sizes : missPositionSizes false missEvents 1 2 =
    .ok [(0, none), (1, none), (2, some 1), (3, some 1)] := by
  have ht : positionTimes (missEvents.map (missPosition false 2)) = [0, 1, 2, 3] := by
    unfold positionTimes missEvents missPosition
    simp only [List.map_cons, List.map_nil, List.filterMap_cons, List.filterMap_nil]
    decide
  have hs : missSize false 2 ⟨2, some 3, none, some 1, some 1⟩ = some 1 := by
    unfold missSize statCdf
    norm_num
  have hn : missSize false 2 ⟨0, some 1, none, none, some 1⟩ = none := rfl
  have hnd : (missEvents.map MissForecast.start).Nodup := by decide
  classical
  have k : ∀ t, knownSizes false 2 missEvents t = if 2 ≤ t ∧ t ≤ 3 then [1] else [] := by
    intro t
    unfold knownSizes missEvents
    rw [List.filter_cons, List.filter_cons, List.filter_nil]
    by_cases h1 : OpenAt t ⟨0, some 1, none, none, some 1⟩ <;>
      by_cases h2 : OpenAt t ⟨2, some 3, none, some 1, some 1⟩ <;>
      simp only [h1, h2, decide_true, decide_false, if_true, if_false, Bool.false_eq_true,
        List.filterMap_cons, List.filterMap_nil, hs, hn] <;>
      simp [OpenAt] at h1 h2 ⊢ <;> omega
  have hd : discretize (1 : ℝ) 1 = 1 := by
    unfold discretize roundHalfEven
    norm_num
  have o1 : ∀ t, 0 ≤ t → t ≤ 1 → ∃ e ∈ missEvents, OpenAt t e := fun t h0 h1 =>
    ⟨⟨0, some 1, none, none, some 1⟩, by simp [missEvents], h0, fun s hs => by cases hs; exact h1⟩
  have o2 : ∀ t, 2 ≤ t → t ≤ 3 → ∃ e ∈ missEvents, OpenAt t e := fun t h0 h1 =>
    ⟨⟨2, some 3, none, some 1, some 1⟩, by simp [missEvents], h0, fun s hs => by cases hs; exact h1⟩
  unfold missPositionSizes
  rw [if_neg (by simp [missEvents]), if_neg (by norm_num)]
  simp only [ht, List.map_cons, List.map_nil]
  rw [missAvgAt_eq _ _ _ hnd _ (o1 0 (by norm_num) (by norm_num)), missAvgAt_eq _ _ _ hnd _ (o1 1 (by norm_num) (by norm_num)),
    missAvgAt_eq _ _ _ hnd _ (o2 2 (by norm_num) (by norm_num)), missAvgAt_eq _ _ _ hnd _ (o2 3 (by norm_num) (by norm_num))]
  simp only [k]
  norm_num [missDiscretize, hd]

/-- C301. At the start of an event without a forecast the size is NaN, not 0. -/
theorem C301_missing_counterexample : ¬ MissingIgnored := by
  intro hall
  have := hall false missEvents 1 2 _ one_pos (by decide) missEvents_sizes (0, none) (by simp)
  simp at this

end FinML.Alloc
