import Verif.Weights.Lemmas
import Mathlib.Data.Rat.Defs
import Mathlib.Algebra.Order.Field.Rat
import Mathlib.Tactic.NormNum

/-! # Properties C32-C34 and C131: concurrency and uniqueness -/

set_option linter.unusedSectionVars false

namespace FinML.Weights

variable {K : Type} [Field K] [LinearOrder K] [IsStrictOrderedRing K]

/-! ## C32 -/

/-- C32.  With the open ends replaced by the last bar, and events ordered by start: the counts are
given for the bars from the first start up to the first bar at or after the last end, in order; each
count is the number of events running; bars that are not listed have no running event. -/
theorem C32_counts (bars : List ℤ) (hs : bars.Pairwise (· < ·)) (last : ℤ)
    (hlast : bars.getLast? = some last) (eventTimes : Series (Option ℤ)) (first : ℤ × Option ℤ)
    (hfirst : eventTimes.head? = some first) (hord : (eventTimes.map Prod.fst).Pairwise (· ≤ ·))
    (maxEnd : ℤ) (hmax : IsGreatest {x | ∃ e ∈ eventTimes, e.2.getD last = x} maxEnd) :
    ∃ res, countEventsPerBar bars eventTimes = .ok res ∧
      (res.map Prod.fst).Sublist bars ∧
      (∀ t ∈ bars, t ∈ res.map Prod.fst ↔ first.1 ≤ t ∧ ∀ b ∈ bars, b < t → b < maxEnd) ∧
      (∀ p ∈ res, p.2 = running (eventTimes.map fun e => (e.1, e.2.getD last)) p.1) ∧
      (∀ t ∈ bars, t ∉ res.map Prod.fst →
        running (eventTimes.map fun e => (e.1, e.2.getD last)) t = 0) := by
  have hget : pyGet (eventTimes.map fun e => (e.1, e.2.getD last)) 0 =
      .ok (first.1, first.2.getD last) := by
    rw [pyGet_eq_ok_iff]
    cases eventTimes with
    | nil => simp at hfirst
    | cons a l => simp at hfirst; subst hfirst; simp
  have hmaxok : npMax ((eventTimes.map fun e => (e.1, e.2.getD last)).map Prod.snd) = .ok maxEnd := by
    rw [npMax_eq_ok_iff]
    have : {y | y ∈ (eventTimes.map fun e => (e.1, e.2.getD last)).map Prod.snd} =
        {x | ∃ e ∈ eventTimes, e.2.getD last = x} := by
      ext y
      simp
    rw [this]
    exact hmax
  have hkeys : ∀ (f : ℤ → ℕ) (l : List ℤ), (l.map fun t => (t, f t)).map Prod.fst = l := by
    intro f l
    rw [List.map_map]
    conv_rhs => rw [← List.map_id l]
    rfl
  have hform : countEventsPerBar bars eventTimes = .ok
      (((bars.take (searchLeft bars maxEnd + 1)).drop (searchLeft bars first.1)).map fun t =>
        (t, running (eventTimes.map fun e => (e.1, e.2.getD last)) t)) := by
    unfold countEventsPerBar
    rw [(pyLast_eq_ok_iff _ _).2 hlast, py_bind_ok]
    simp only
    rw [hget, py_bind_ok, hmaxok, py_bind_ok, bump_fold, List.map_map]
    simp [Function.comp_def]
  have hstart : ∀ e ∈ eventTimes, first.1 ≤ e.1 := by
    intro e he
    cases eventTimes with
    | nil => cases he
    | cons a l =>
      simp at hfirst
      subst hfirst
      rcases List.mem_cons.1 he with rfl | he
      · exact le_refl _
      · exact (List.pairwise_cons.1 hord).1 _ (List.mem_map.2 ⟨e, he, rfl⟩)
  refine ⟨_, hform, ?_, ?_, ?_, ?_⟩
  · rw [hkeys]
    exact (List.drop_sublist _ _).trans (List.take_sublist _ _)
  · intro t ht
    rw [hkeys]
    exact mem_keys bars hs first.1 maxEnd t ht
  · intro p hp
    obtain ⟨t, _, rfl⟩ := List.mem_map.1 hp
    rfl
  · intro t ht hnot
    rw [hkeys, mem_keys bars hs first.1 maxEnd t ht] at hnot
    apply running_eq_zero
    intro e he hr
    obtain ⟨e0, he0, rfl⟩ := List.mem_map.1 he
    apply hnot
    refine ⟨(hstart e0 he0).trans hr.1, fun b _ hbt => ?_⟩
    exact lt_of_lt_of_le hbt (hr.2.trans (hmax.2 ⟨e0, he0, rfl⟩))

/-- C32.  No bars or no events: IndexError. -/
theorem C32_empty (bars : List ℤ) (eventTimes : Series (Option ℤ))
    (h : bars = [] ∨ eventTimes = []) : countEventsPerBar bars eventTimes = .error .indexError := by
  unfold countEventsPerBar
  by_cases hb : bars = []
  · subst hb; rfl
  · rcases h with h | rfl
    · exact absurd h hb
    · rw [(pyLast_eq_ok_iff _ _).2 (List.getLast?_eq_some_getLast hb)]
      rfl

example : countEventsPerBar [0, 1, 2, 3, 4, 5] [(1, some 3), (2, none)] =
    .ok [(1, 1), (2, 2), (3, 2), (4, 1), (5, 1)] := by decide

/-! ## C33 -/

/-- Events with closed ends, as the columns of the code. -/
def closedTimes (events : List (ℤ × ℤ)) : Series (Option ℤ) := events.map fun e => (e.1, some e.2)

theorem closedEvents_closedTimes (events : List (ℤ × ℤ)) :
    closedEvents (closedTimes events) = .ok events := by
  unfold closedEvents closedTimes
  induction events with
  | nil => rfl
  | cons e es ih =>
    rw [List.map_cons, mapM_cons_py, ih]
    rfl

/-- The counts of all bars, after reindexing. -/
theorem reindex_counts (bars : List ℤ) (hs : bars.Pairwise (· < ·)) (hne : bars ≠ [])
    (events : List (ℤ × ℤ)) (hev : events ≠ []) (hord : (events.map Prod.fst).Pairwise (· < ·)) :
    ∃ counts, countEventsPerBar bars (closedTimes events) = .ok counts ∧
      reindex counts bars = bars.map fun t => (t, running events t) := by
  have hlast := List.getLast?_eq_some_getLast hne
  obtain ⟨e0, es, rfl⟩ := List.exists_cons_of_ne_nil hev
  have hfilled : ((closedTimes (e0 :: es)).map fun e => (e.1, e.2.getD (bars.getLast hne))) =
      e0 :: es := by
    unfold closedTimes
    rw [List.map_map]
    conv_rhs => rw [← List.map_id (e0 :: es)]
    rfl
  have hne2 : (closedTimes (e0 :: es)).map (fun e => e.2.getD (bars.getLast hne)) ≠ [] := by
    simp [closedTimes]
  obtain ⟨maxEnd, hmax⟩ : ∃ m, IsGreatest
      {x | ∃ e ∈ closedTimes (e0 :: es), e.2.getD (bars.getLast hne) = x} m := by
    obtain ⟨y, ys, hys⟩ := List.exists_cons_of_ne_nil hne2
    have h1 := foldl_max_isGreatest y ys
    refine ⟨ys.foldl max y, ?_⟩
    have : {x | ∃ e ∈ closedTimes (e0 :: es), e.2.getD (bars.getLast hne) = x} =
        {x | x ∈ y :: ys} := by
      ext x
      rw [← hys]
      simp
    rw [this]
    exact h1
  obtain ⟨res, hok, hsub, hkeys, hval, hzero⟩ := C32_counts bars hs _ hlast (closedTimes (e0 :: es))
    (e0.1, some e0.2) rfl (by
      have : (closedTimes (e0 :: es)).map Prod.fst = (e0 :: es).map Prod.fst := by
        unfold closedTimes; rw [List.map_map]; rfl
      rw [this]; exact hord.imp le_of_lt) maxEnd hmax
  rw [hfilled] at hval hzero
  refine ⟨res, hok, ?_⟩
  unfold reindex
  apply List.map_congr_left
  intro t ht
  cases hf : res.find? (fun p => p.1 = t) with
  | none =>
    rw [List.find?_eq_none] at hf
    rw [hzero t ht (by
      intro hm
      obtain ⟨q, hq, hqt⟩ := List.mem_map.1 hm
      exact absurd hqt (by simpa using hf q hq))]
    rfl
  | some q =>
    have hqt : q.1 = t := by simpa using List.find?_some hf
    have := hval q (List.mem_of_find?_eq_some hf)
    simp only [Option.map_some, Option.getD_some]
    rw [this, hqt]

theorem sliceUniqueness_eq (bars : List ℤ) (events : List (ℤ × ℤ)) (e : ℤ × ℤ) (he : e ∈ events) :
    sliceUniqueness (K := K) (bars.map fun t => (t, running events t)) e =
      if barsOf bars e = [] then none else some (avgUniq K bars events e) := by
  unfold sliceUniqueness slice avgUniq
  rw [List.filter_map, List.map_map]
  have h1 : (bars.filter ((fun p : ℤ × ℕ => decide (e.1 ≤ p.1 ∧ p.1 ≤ e.2)) ∘
      fun t => (t, running events t))) = barsOf bars e := rfl
  rw [h1]
  have h2 : (barsOf bars e).map ((fun p : ℤ × ℕ => fdiv (1 : K) (p.2 : K)) ∘
      fun t => (t, running events t)) = (barsOf bars e).map fun t =>
        some (1 / (running events t : K)) := by
    apply List.map_congr_left
    intro t ht
    unfold barsOf at ht
    rw [List.mem_filter] at ht
    have hpos := running_pos events t e he (by simpa using ht.2)
    simp only [Function.comp, fdiv]
    rw [if_neg (by exact_mod_cast hpos.ne')]
  rw [h2, meanOpt_map_some]

theorem labelAvgUniqueness_eq (bars : List ℤ) (hs : bars.Pairwise (· < ·)) (hne : bars ≠ [])
    (events : List (ℤ × ℤ)) (hev : events ≠ []) (hord : (events.map Prod.fst).Pairwise (· < ·)) :
    labelAvgUniqueness bars (closedTimes events) = .ok (events.map fun e =>
      (e.1, if barsOf bars e = [] then none else some (avgUniq K bars events e))) := by
  obtain ⟨counts, hc, hre⟩ := reindex_counts bars hs hne events hev hord
  unfold labelAvgUniqueness
  rw [hc, py_bind_ok, closedEvents_closedTimes]
  simp only [py_bind_ok, py_pure]
  congr 1
  rw [hre]
  rw [setLabel_fold (fun e : ℤ × ℤ => e.1)
    (fun e => sliceUniqueness (bars.map fun t => (t, running events t)) e) events (fun _ => none)
    (hord.imp ne_of_lt)]
  apply List.map_congr_left
  intro e he
  rw [sliceUniqueness_eq bars events e he]

/-- C33.  With events ordered by distinct starts: every event is listed with the mean over its bars
of one over the number of events running (none if it has no bar); that value is in (0,1], and it is 1
exactly if no other event runs on one of its bars. -/
theorem C33_uniqueness (bars : List ℤ) (hs : bars.Pairwise (· < ·)) (hne : bars ≠ [])
    (events : List (ℤ × ℤ)) (hev : events ≠ []) (hord : (events.map Prod.fst).Pairwise (· < ·)) :
    ∃ res : Series (Option K), labelAvgUniqueness bars (closedTimes events) = .ok res ∧
      List.Forall₂ (fun (e : ℤ × ℤ) r => r.1 = e.1 ∧
        ((∀ t ∈ bars, ¬ (e.1 ≤ t ∧ t ≤ e.2)) → r.2 = none) ∧
        ((∃ t ∈ bars, e.1 ≤ t ∧ t ≤ e.2) → ∃ u, r.2 = some u ∧ u = avgUniq K bars events e ∧
          0 < u ∧ u ≤ 1 ∧
          (u = 1 ↔ ∀ e' ∈ events, e' ≠ e → ∀ t ∈ bars, e.1 ≤ t → t ≤ e.2 →
            ¬ (e'.1 ≤ t ∧ t ≤ e'.2)))) events res := by
  refine ⟨_, labelAvgUniqueness_eq bars hs hne events hev hord, ?_⟩
  rw [List.forall₂_map_right_iff, List.forall₂_same]
  intro e he
  have hnd : events.Nodup := (List.Nodup.of_map Prod.fst (hord.imp ne_of_lt))
  refine ⟨rfl, ?_, ?_⟩
  · intro h
    have : barsOf bars e = [] := by
      unfold barsOf
      rw [List.filter_eq_nil_iff]
      intro t ht
      simpa using h t ht
    rw [if_pos this]
  · rintro ⟨t0, ht0, h0⟩
    have hb : barsOf bars e ≠ [] :=
      List.ne_nil_of_mem (List.mem_filter.2 ⟨ht0, by simpa using h0⟩ : t0 ∈ barsOf bars e)
    simp only
    rw [if_neg hb]
    have hmem : ∀ t ∈ barsOf bars e, t ∈ bars ∧ e.1 ≤ t ∧ t ≤ e.2 := by
      intro t ht
      unfold barsOf at ht
      rw [List.mem_filter] at ht
      exact ⟨ht.1, by simpa using ht.2⟩
    have hpos : ∀ t ∈ barsOf bars e, (1 : K) ≤ (running events t : K) := by
      intro t ht
      have := running_pos events t e he (hmem t ht).2
      exact_mod_cast this
    obtain ⟨h1, h2, h3⟩ := mean_pos_le_one (barsOf bars e) hb
      (fun t => 1 / (running events t : K)) (by
        intro t ht
        have := hpos t ht
        have h0 : (0 : K) < (running events t : K) := by linarith
        exact ⟨by positivity, (div_le_one h0).2 this⟩)
    refine ⟨_, rfl, rfl, h1, h2, ?_⟩
    unfold avgUniq
    rw [h3]
    constructor
    · intro h e' he' hne' t ht h4 h5
      have htm : t ∈ barsOf bars e := List.mem_filter.2 ⟨ht, by simp [h4, h5]⟩
      have h6 := h t htm
      have h7 : (running events t : K) = 1 := by
        have h0 : (running events t : K) ≠ 0 := by
          have := hpos t htm
          intro h; rw [h] at this; linarith
        field_simp at h6
        exact h6.symm
      have h8 : running events t = 1 := by exact_mod_cast h7
      exact (running_eq_one_iff events hnd t e he ⟨h4, h5⟩).1 h8 e' he' hne'
    · intro h t ht
      obtain ⟨h4, h5⟩ := hmem t ht
      have := (running_eq_one_iff events hnd t e he h5).2
        (fun e' he' hne' => h e' he' hne' t h4 h5.1 h5.2)
      rw [this]
      simp

/-- C33.  The uniqueness times the number of bars, summed over the events, is the number of bars on
which some event runs. -/
theorem C33_total (bars : List ℤ) (events : List (ℤ × ℤ)) :
    (events.map fun e => avgUniq K bars events e * ((barsOf bars e).length : K)).sum =
      ((bars.filter fun t => events.any fun e => e.1 ≤ t ∧ t ≤ e.2).length : K) := by
  have h1 : ∀ e ∈ events, avgUniq K bars events e * ((barsOf bars e).length : K) =
      (bars.map fun t => if e.1 ≤ t ∧ t ≤ e.2 then 1 / (running events t : K) else 0).sum := by
    intro e _
    rw [← sum_filter_ite]
    unfold avgUniq
    by_cases hb : barsOf bars e = []
    · rw [hb]
      have : (bars.filter fun t => decide (e.1 ≤ t ∧ t ≤ e.2)) = [] := hb
      rw [this]
      simp
    · have hlen : ((barsOf bars e).length : K) ≠ 0 := by
        have := List.length_pos_iff.2 hb
        exact_mod_cast this.ne'
      rw [div_mul_cancel₀ _ hlen]
      rfl
  rw [List.map_congr_left h1, list_sum_comm]
  have h2 : ∀ t ∈ bars, (events.map fun e => if e.1 ≤ t ∧ t ≤ e.2 then
      1 / (running events t : K) else 0).sum =
      if (events.any fun e => decide (e.1 ≤ t ∧ t ≤ e.2)) = true then 1 else 0 := by
    intro t _
    rw [← sum_filter_ite events (fun e => e.1 ≤ t ∧ t ≤ e.2) (fun _ => 1 / (running events t : K))]
    have hlen : (events.filter fun e => decide (e.1 ≤ t ∧ t ≤ e.2)).length = running events t := by
      unfold running; rw [List.countP_eq_length_filter]
    rw [List.map_const', List.sum_replicate, hlen, nsmul_eq_mul]
    by_cases ha : (events.any fun e => decide (e.1 ≤ t ∧ t ≤ e.2)) = true
    · rw [if_pos ha]
      obtain ⟨e, he, hr⟩ := List.any_eq_true.1 ha
      have := running_pos events t e he (by simpa using hr)
      have hne : (running events t : K) ≠ 0 := by exact_mod_cast this.ne'
      field_simp
    · rw [if_neg ha]
      have : running events t = 0 := by
        apply running_eq_zero
        intro e he hr
        exact ha (List.any_eq_true.2 ⟨e, he, by simpa using hr⟩)
      rw [this]; simp
  rw [List.map_congr_left h2]
  rw [← sum_filter_ite bars (fun t => (events.any fun e => decide (e.1 ≤ t ∧ t ≤ e.2)) = true)
    (fun _ => (1 : K))]
  simp

example : labelAvgUniqueness (K := ℚ) [0, 1, 2, 3, 4, 5] (closedTimes [(0, 2), (2, 3), (4, 5)]) =
    .ok [(0, some (5 / 6)), (2, some (3 / 4)), (4, some 1)] := by decide +kernel

/-! ## C34 -/

theorem getD_map_zero (bars : List ℤ) (f : ℤ → ℕ) (b : ℕ) (hb : b < bars.length) :
    (bars.map f).getD b 0 = f (bars.getD b 0) := by
  rw [List.getD_eq_getElem _ _ (by simpa using hb), List.getD_eq_getElem _ _ hb, List.getElem_map]

theorem sum_map_ite_count (events : List (ℤ × ℤ)) (t : ℤ) :
    (events.map fun e => if e.1 ≤ t ∧ t ≤ e.2 then 1 else 0).sum = running events t := by
  induction events with
  | nil => rfl
  | cons e es ih =>
    unfold running at ih ⊢
    rw [List.map_cons, List.sum_cons, ih, List.countP_cons]
    by_cases h : e.1 ≤ t ∧ t ≤ e.2
    · simp [h, add_comm]
    · simp only [if_neg h]; simp [h]

theorem range_map_getD {α : Type} (bars : List ℤ) (f : ℤ → α) :
    ((List.range bars.length).map fun b : ℕ => f (bars.getD b 0)) = bars.map f := by
  apply List.ext_getElem
  · simp
  · intro i h1 h2
    rw [List.getElem_map, List.getElem_map, List.getElem_range]
    rw [List.getD_eq_getElem _ _ (by simpa using h2)]

/-- C34.  The indicator matrix has one column per event, one row per bar; an entry is 1 if the event
runs at the bar and 0 otherwise; the row sums are the numbers of running events, and the average
uniqueness computed from the matrix is that of `label_avg_uniqueness`. -/
theorem C34_indicators (bars : List ℤ) (hs : bars.Pairwise (· < ·)) (hne : bars ≠ [])
    (events : List (ℤ × ℤ)) (hev : events ≠ []) (hord : (events.map Prod.fst).Pairwise (· < ·)) :
    ∃ cols, getEventIndicators bars (closedTimes events) = .ok cols ∧
      List.Forall₂ (fun (e : ℤ × ℤ) c => List.Forall₂ (fun t x =>
        ((e.1 ≤ t ∧ t ≤ e.2) → x = 1) ∧ (¬ (e.1 ≤ t ∧ t ≤ e.2) → x = 0)) bars c) events cols ∧
      (∀ b (hb : b < bars.length), concurrency cols b = running events bars[b]) ∧
      ∃ res : Series (Option K), labelAvgUniqueness bars (closedTimes events) = .ok res ∧
        getAvgUniqueness cols = res.map Prod.snd := by
  have hform : getEventIndicators bars (closedTimes events) = .ok
      (events.map fun e => bars.map fun t => if e.1 ≤ t ∧ t ≤ e.2 then 1 else 0) := by
    unfold getEventIndicators
    rw [closedEvents_closedTimes]
    rfl
  have hconc : ∀ b, b < bars.length → concurrency
      (events.map fun e => bars.map fun t => if e.1 ≤ t ∧ t ≤ e.2 then 1 else 0) b =
      running events (bars.getD b 0) := by
    intro b hb
    unfold concurrency
    rw [List.map_map, ← sum_map_ite_count]
    congr 1
    apply List.map_congr_left
    intro e _
    simp only [Function.comp]
    rw [getD_map_zero _ _ _ hb]
  refine ⟨_, hform, ?_, ?_, _, labelAvgUniqueness_eq bars hs hne events hev hord, ?_⟩
  · rw [List.forall₂_map_right_iff, List.forall₂_same]
    intro e _
    rw [List.forall₂_map_right_iff, List.forall₂_same]
    intro t _
    exact ⟨fun h => if_pos h, fun h => if_neg h⟩
  · intro b hb
    rw [hconc b hb, List.getD_eq_getElem _ _ hb]
  · unfold getAvgUniqueness
    rw [List.map_map, List.map_map]
    apply List.map_congr_left
    intro e he
    simp only [Function.comp]
    have hcol : uniquenessCol (K := K)
        (events.map fun e => bars.map fun t => if e.1 ≤ t ∧ t ≤ e.2 then 1 else 0)
        (bars.map fun t => if e.1 ≤ t ∧ t ≤ e.2 then 1 else 0) =
        bars.map fun t => fdiv (((if e.1 ≤ t ∧ t ≤ e.2 then 1 else 0 : ℕ) : K))
          (running events t : K) := by
      unfold uniquenessCol
      rw [List.length_map, ← range_map_getD bars (fun t =>
        fdiv (((if e.1 ≤ t ∧ t ≤ e.2 then 1 else 0 : ℕ) : K)) (running events t : K))]
      apply List.map_congr_left
      intro b hb
      rw [List.mem_range] at hb
      rw [hconc b hb, getD_map_zero _ _ _ hb]
    rw [hcol]
    unfold meanPositive
    rw [List.filter_map]
    have hfil : bars.filter (isPos ∘ fun t => fdiv (((if e.1 ≤ t ∧ t ≤ e.2 then 1 else 0 : ℕ) : K))
          (running events t : K)) = barsOf bars e := by
      unfold barsOf
      apply List.filter_congr
      intro t _
      simp only [Function.comp]
      by_cases h : e.1 ≤ t ∧ t ≤ e.2
      · have hr := running_pos events t e he h
        have hr' : (0 : K) < (running events t : K) := by exact_mod_cast hr
        rw [if_pos h]
        unfold fdiv
        rw [if_neg hr'.ne']
        simp [isPos, h, hr']
      · rw [if_neg h]
        unfold fdiv
        by_cases h0 : (running events t : K) = 0
        · rw [if_pos h0]; simp [isPos, h]
        · rw [if_neg h0]; simp [isPos, h]
    rw [hfil]
    have hval : (barsOf bars e).map (fun t => fdiv (((if e.1 ≤ t ∧ t ≤ e.2 then 1 else 0 : ℕ) : K))
          (running events t : K)) = (barsOf bars e).map fun t => some (1 / (running events t : K)) := by
      apply List.map_congr_left
      intro t ht
      unfold barsOf at ht
      rw [List.mem_filter] at ht
      have h : e.1 ≤ t ∧ t ≤ e.2 := by simpa using ht.2
      have hr := running_pos events t e he h
      rw [if_pos h]
      unfold fdiv
      rw [if_neg (by exact_mod_cast hr.ne')]
      simp
    rw [hval, meanOpt_map_some]
    rfl

example : getEventIndicators [0, 1, 2, 3] (closedTimes [(0, 2), (2, 3)]) =
    .ok [[1, 1, 1, 0], [0, 0, 1, 1]] := by decide

/-! ## C131 -/

/-- C131, full claim: every event is given its own average uniqueness. -/
def OwnUniqueness : Prop := ∀ (bars : List ℤ) (events : List (ℤ × ℤ)), bars.Pairwise (· < ·) →
  bars ≠ [] → events ≠ [] → (events.map Prod.fst).Pairwise (· ≤ ·) →
  (∀ e ∈ events, ∃ t ∈ bars, e.1 ≤ t ∧ t ≤ e.2) →
  labelAvgUniqueness bars (closedTimes events) =
    .ok (events.map fun e => (e.1, some (avgUniq ℚ bars events e)))

/-- C131, counterexample: of two events with the same start, both get the value of the second. -/
theorem C131_equal_starts_counterexample : ¬ OwnUniqueness := by
  intro h
  have h1 := h [0, 1] [(0, 0), (0, 1)] (by decide) (by decide) (by decide) (by decide) (by decide)
  have h2 : labelAvgUniqueness (K := ℚ) [0, 1] (closedTimes [(0, 0), (0, 1)]) =
      .ok [(0, some (3 / 4)), (0, some (3 / 4))] := by decide +kernel
  rw [h2] at h1
  revert h1
  decide +kernel

/-- C131, what holds: with distinct starts every event is given its own uniqueness (missing: events
that share a start). -/
theorem C131_own_uniqueness_partial (bars : List ℤ) (hs : bars.Pairwise (· < ·)) (hne : bars ≠ [])
    (events : List (ℤ × ℤ)) (hev : events ≠ []) (hord : (events.map Prod.fst).Pairwise (· < ·))
    (hb : ∀ e ∈ events, ∃ t ∈ bars, e.1 ≤ t ∧ t ≤ e.2) :
    labelAvgUniqueness bars (closedTimes events) =
      .ok (events.map fun e => (e.1, some (avgUniq K bars events e))) := by
  rw [labelAvgUniqueness_eq bars hs hne events hev hord]
  congr 1
  apply List.map_congr_left
  intro e he
  obtain ⟨t, ht, h⟩ := hb e he
  have hm : barsOf bars e ≠ [] :=
    List.ne_nil_of_mem (List.mem_filter.2 ⟨ht, by simpa using h⟩ : t ∈ barsOf bars e)
  rw [if_neg hm]

end FinML.Weights
