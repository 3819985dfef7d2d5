import Verif.Weights.Props
import Verif.Weights.DecayProps
import Mathlib.Tactic.Positivity

/-!
# Properties C187-C189: order of the events, decay below -1, prices behind the return weights
-/

set_option linter.unusedSectionVars false

namespace FinML.Weights

variable {K : Type} [Field K] [LinearOrder K] [IsStrictOrderedRing K]

/-! ## C187 -/

/-- C187, full claim: every bar on which an event runs is listed with the number of events running,
whatever the order of the events. -/
def CountsCoverEvents : Prop := ∀ (bars : List ℤ) (events : List (ℤ × ℤ)), bars.Pairwise (· < ·) →
  bars ≠ [] → events ≠ [] →
  ∃ res, countEventsPerBar bars (closedTimes events) = .ok res ∧
    ∀ t ∈ bars, 0 < running events t → (t, running events t) ∈ res

/-- C187, counterexample: the event from 0 to 0, listed after the one from 1 to 2, is not counted; its
average uniqueness is then not finite. -/
theorem C187_unsorted_events_counterexample : ¬ CountsCoverEvents ∧
    labelAvgUniqueness (K := ℚ) [0, 1, 2] (closedTimes [(1, 2), (0, 0)]) =
      .ok [(1, some 1), (0, none)] := by
  constructor
  · intro h
    obtain ⟨res, h1, h2⟩ := h [0, 1, 2] [(1, 2), (0, 0)] (by decide) (by decide) (by decide)
    have h3 : countEventsPerBar [0, 1, 2] (closedTimes [(1, 2), (0, 0)]) = .ok [(1, 1), (2, 1)] := by
      decide
    rw [h3] at h1
    cases h1
    have h4 := h2 0 (by decide) (by decide)
    revert h4
    decide
  · decide +kernel

/-- C187, what holds: in any order of the events, every count listed is the number of events running
at its bar, and a bar with a running event is listed unless it lies before the start of the event
listed first (missing: those bars). -/
theorem C187_counts_partial (bars : List ℤ) (hs : bars.Pairwise (· < ·)) (hne : bars ≠ [])
    (first : ℤ × ℤ) (events : List (ℤ × ℤ)) :
    ∃ res, countEventsPerBar bars (closedTimes (first :: events)) = .ok res ∧
      (res.map Prod.fst).Sublist bars ∧
      (∀ p ∈ res, p.2 = running (first :: events) p.1) ∧
      ∀ t ∈ bars, 0 < running (first :: events) t →
        ((t, running (first :: events) t) ∈ res ↔ first.1 ≤ t) := by
  obtain ⟨last, hlast⟩ : ∃ last, bars.getLast? = some last := ⟨_, List.getLast?_eq_some_getLast hne⟩
  have hfill : (closedTimes (first :: events)).map (fun e => (e.1, e.2.getD last)) =
      first :: events := by
    unfold closedTimes
    rw [List.map_map]
    conv_rhs => rw [← List.map_id (first :: events)]
    rfl
  obtain ⟨maxEnd, hmax⟩ : ∃ x, npMax ((first :: events).map Prod.snd) = .ok x := ⟨_, rfl⟩
  have hform : countEventsPerBar bars (closedTimes (first :: events)) = .ok
      (((bars.take (searchLeft bars maxEnd + 1)).drop (searchLeft bars first.1)).map fun t =>
        (t, running (first :: events) t)) := by
    unfold countEventsPerBar
    rw [(pyLast_eq_ok_iff _ _).2 hlast, py_bind_ok]
    simp only
    rw [hfill]
    have hget : pyGet (first :: events) 0 = .ok first := rfl
    rw [hget, py_bind_ok, hmax, py_bind_ok, bump_fold, List.map_map]
    simp [Function.comp_def]
  have hkeys : ∀ (f : ℤ → ℕ) (l : List ℤ), (l.map fun t => (t, f t)).map Prod.fst = l := by
    intro f l
    rw [List.map_map]
    conv_rhs => rw [← List.map_id l]
    rfl
  refine ⟨_, hform, ?_, ?_, ?_⟩
  · rw [hkeys]
    exact (List.drop_sublist _ _).trans (List.take_sublist _ _)
  · intro p hp
    obtain ⟨t, _, rfl⟩ := List.mem_map.1 hp
    rfl
  · intro t ht hrun
    have hiff := mem_keys bars hs first.1 maxEnd t ht
    constructor
    · intro h
      obtain ⟨u, hu, heq⟩ := List.mem_map.1 h
      have : u = t := congrArg Prod.fst heq
      subst this
      exact (hiff.1 hu).1
    · intro h
      refine List.mem_map.2 ⟨t, hiff.2 ⟨h, fun b _ hb => ?_⟩, rfl⟩
      unfold running at hrun
      obtain ⟨e, he, hr⟩ := List.countP_pos_iff.1 hrun
      simp only [decide_eq_true_eq] at hr
      have h1 := (npMax_eq_ok_iff _ _).1 hmax
      have h2 : e.2 ≤ maxEnd := h1.2 (List.mem_map.2 ⟨e, he, rfl⟩)
      omega

/-! ## C188 -/

/-- C188, full claim: a negative `oldest_weight` never gives an observation more weight than the
newest one. -/
def NeverAboveNewest : Prop := ∀ (obs : Series ℚ) (c : ℚ) (res : Series ℚ), obs ≠ [] →
  (∀ p ∈ obs, 0 < p.2) → (obs.map Prod.fst).Nodup → c < 0 → applyTimeDecay obs c = .ok res →
  ∀ p ∈ res, p.2 ≤ 1

/-- C188, counterexample: with `oldest_weight = -2` the older of two observations weighs 3/2. -/
theorem C188_below_minus_one_counterexample : ¬ NeverAboveNewest := by
  intro h
  have h1 : applyTimeDecay ([(0, 1), (1, 1)] : Series ℚ) (-2) = .ok [(0, 3 / 2), (1, 1)] := by
    decide +kernel
  have h2 := h _ _ _ (by decide) (by decide) (by decide) (by norm_num) h1 (0, 3 / 2) (by simp)
  revert h2
  decide +kernel

/-- C188, what holds: for `-1 < c < 0` all weights are in [0,1] and grow with time; for `c < -1` they
are at least 1 and fall with time: the older an observation, the more it weighs (missing: `c < -1`
should give no weight to old observations). -/
theorem C188_negative_partial (obs : Series K) (hne : obs ≠ []) (hpos : ∀ p ∈ obs, 0 < p.2)
    (hn : (obs.map Prod.fst).Nodup) (c : K) :
    (-1 < c → c < 0 → ∃ res, applyTimeDecay obs c = .ok res ∧ (∀ p ∈ res, 0 ≤ p.2 ∧ p.2 ≤ 1) ∧
      (res.map Prod.fst).Pairwise (· < ·) ∧ (res.map Prod.snd).Pairwise (· ≤ ·)) ∧
    (c < -1 → ∃ res, applyTimeDecay obs c = .ok res ∧
      (∀ p ∈ res, p.2 = (-c - uniqUpTo obs p.1 / (obs.map Prod.snd).sum) / (-c - 1)) ∧
      (∀ p ∈ res, 1 ≤ p.2) ∧
      (res.map Prod.fst).Perm (obs.map Prod.fst) ∧
      (res.map Prod.fst).Pairwise (· < ·) ∧ (res.map Prod.snd).Pairwise (· ≥ ·)) := by
  constructor
  · intro h1 h2
    obtain ⟨res, h3, _, h5, h6, h7, _⟩ :=
      C37_time_decay obs hne hpos hn c h1 (h2.le.trans zero_le_one)
    exact ⟨res, h3, h7, h5, h6⟩
  · intro hc
    have hT : 0 < (obs.map Prod.snd).sum := by
      cases obs with
      | nil => exact absurd rfl hne
      | cons a l =>
        rw [List.map_cons, List.sum_cons]
        have h1 := hpos a (by simp)
        have h2 : 0 ≤ (l.map Prod.snd).sum := by
          apply List.sum_nonneg
          intro x hx
          obtain ⟨p, hp, rfl⟩ := List.mem_map.1 hx
          exact (hpos p (by simp [hp])).le
        linarith
    have hneg : ¬ 0 ≤ c := by linarith
    have hc1 : 0 < -c - 1 := by linarith
    have hslope : decaySlope c (obs.map Prod.snd).sum =
        some (1 / ((c + 1) * (obs.map Prod.snd).sum)) := by
      unfold decaySlope fdiv
      rw [if_neg hneg, if_neg (mul_ne_zero (by linarith) hT.ne')]
    have hval : ∀ t, (let w := 1 - 1 / ((c + 1) * (obs.map Prod.snd).sum) * (obs.map Prod.snd).sum +
          1 / ((c + 1) * (obs.map Prod.snd).sum) * uniqUpTo obs t
        if w < 0 then 0 else w) =
        (-c - uniqUpTo obs t / (obs.map Prod.snd).sum) / (-c - 1) := by
      intro t
      have h3 : c + 1 ≠ 0 := by linarith
      have heq : 1 - 1 / ((c + 1) * (obs.map Prod.snd).sum) * (obs.map Prod.snd).sum +
          1 / ((c + 1) * (obs.map Prod.snd).sum) * uniqUpTo obs t =
          (-c - uniqUpTo obs t / (obs.map Prod.snd).sum) / (-c - 1) := by
        rw [show -c - 1 = -(c + 1) by ring]
        field_simp
        ring
      simp only
      rw [heq, if_neg]
      rw [not_lt]
      apply div_nonneg _ hc1.le
      have := (div_le_one hT).2 (uniqUpTo_le obs hpos t).1
      linarith
    have hperm : (sortIndex obs).Perm obs := List.perm_insertionSort _ _
    have hle : (sortIndex obs).Pairwise fun a b => a.1 ≤ b.1 := by
      unfold sortIndex
      exact List.pairwise_insertionSort (fun a b : ℤ × K => a.1 ≤ b.1) obs
    refine ⟨_, applyTimeDecay_slope obs hne hn c _ hslope, ?_, ?_, ?_, ?_, ?_⟩
    · intro p hp
      obtain ⟨q, _, rfl⟩ := List.mem_map.1 hp
      exact hval q.1
    · intro p hp
      obtain ⟨q, _, rfl⟩ := List.mem_map.1 hp
      show 1 ≤ _
      rw [hval q.1, le_div_iff₀ hc1]
      have := (div_le_one hT).2 (uniqUpTo_le obs hpos q.1).1
      linarith
    · rw [List.map_map]
      exact hperm.map _
    · rw [List.map_map]
      have h2 : ((sortIndex obs).map Prod.fst).Nodup := (hperm.map Prod.fst).nodup_iff.2 hn
      rw [List.nodup_iff_pairwise_ne, List.pairwise_map] at h2
      rw [List.pairwise_map]
      exact hle.and h2 |>.imp fun {a b} h => lt_of_le_of_ne h.1 h.2
    · rw [List.map_map, List.pairwise_map]
      refine hle.imp fun {a b} hab => ?_
      show _ ≤ _
      simp only [Function.comp]
      rw [hval a.1, hval b.1]
      apply div_le_div_of_nonneg_right _ hc1.le
      have := div_le_div_of_nonneg_right (uniqUpTo_mono obs hpos hab) hT.le
      linarith

example : ((([(0, 1), (1, 1)] : Series ℚ).map Prod.fst).Nodup) ∧
    (∀ p ∈ ([(0, 1), (1, 1)] : Series ℚ), 0 < p.2) := by decide

/-! ## C189 -/

/-- The bar at `t` is one of the bars of an event. -/
def InEvent (events : List (ℤ × ℤ)) (t : ℤ) : Prop := ∃ e ∈ events, e.1 ≤ t ∧ t ≤ e.2

/-- C189, full claim: the weights depend on the prices during the events only. -/
def OnlyEventPrices : Prop := ∀ (events : List (ℤ × ℤ)) (counts : Series ℕ) (bars bars' : Series ℝ),
  (∀ p ∈ bars, 0 < p.2) → (∀ p ∈ bars', 0 < p.2) → (bars.map Prod.fst).Pairwise (· < ·) →
  List.Forall₂ (fun p q => p.1 = q.1 ∧ (InEvent events p.1 → p = q)) bars bars' →
  computeWeightsByReturns (closedTimes events) counts bars =
    computeWeightsByReturns (closedTimes events) counts bars'

/-- Price per bar with a given first price; the events are the single bars 1 and 3. -/
def preBars (x : ℝ) : Series ℝ := [(0, x), (1, 2), (2, 1), (3, 2)]

theorem preBars_attributed (x : ℝ) : attributed [(1, 1), (3, 1)] (1, 1) (preBars x) = Real.log (2 / x) ∧
    attributed [(1, 1), (3, 1)] (3, 3) (preBars x) = Real.log 2 := by
  constructor <;> simp [attributed, preBars]

/-- C189, counterexample: the price of the bar before the first event changes the weights. -/
theorem C189_bar_before_counterexample : ¬ OnlyEventPrices := by
  intro h
  have hL : 0 < Real.log 2 := Real.log_pos (by norm_num)
  have h1 := h [(1, 1), (3, 3)] [(1, 1), (3, 1)] (preBars 1) (preBars (1 / 2))
    (by intro p hp; simp [preBars] at hp; rcases hp with rfl | rfl | rfl | rfl <;> norm_num)
    (by intro p hp; simp [preBars] at hp; rcases hp with rfl | rfl | rfl | rfl <;> norm_num)
    (by simp [preBars])
    (by
      refine List.Forall₂.cons ⟨rfl, ?_⟩ (List.Forall₂.cons ⟨rfl, fun _ => rfl⟩
        (List.Forall₂.cons ⟨rfl, fun _ => rfl⟩ (List.Forall₂.cons ⟨rfl, fun _ => rfl⟩ .nil)))
      rintro ⟨e, he, h1, h2⟩
      simp only [List.mem_cons, List.not_mem_nil, or_false] at he
      rcases he with rfl | rfl <;> simp at h1)
  obtain ⟨ws, hw1, hw2, _⟩ := C36_weights [(1, 1), (3, 3)] (by decide) [(1, 1), (3, 1)] (by decide)
    (preBars 1)
    (by intro p hp; simp [preBars] at hp; rcases hp with rfl | rfl | rfl | rfl <;> norm_num)
    ⟨(3, 3), by simp, by rw [(preBars_attributed 1).2]; exact hL.ne'⟩
  obtain ⟨ws', hw1', hw2', _⟩ := C36_weights [(1, 1), (3, 3)] (by decide) [(1, 1), (3, 1)] (by decide)
    (preBars (1 / 2))
    (by intro p hp; simp [preBars] at hp; rcases hp with rfl | rfl | rfl | rfl <;> norm_num)
    ⟨(3, 3), by simp, by rw [(preBars_attributed (1 / 2)).2]; exact hL.ne'⟩
  have e1 : Real.log (2 / 1) = Real.log 2 := by norm_num
  have e2 : Real.log (2 / (1 / 2)) = 2 * Real.log 2 := by
    rw [show (2 : ℝ) / (1 / 2) = 2 ^ 2 by norm_num, Real.log_pow]
    norm_num
  simp only [List.map_cons, List.map_nil, (preBars_attributed 1).1, (preBars_attributed 1).2, e1,
    List.sum_cons, List.sum_nil, List.length_cons, List.length_nil] at hw2
  simp only [List.map_cons, List.map_nil, (preBars_attributed (1 / 2)).1,
    (preBars_attributed (1 / 2)).2, e2,
    List.sum_cons, List.sum_nil, List.length_cons, List.length_nil] at hw2'
  unfold closedTimes at h1
  rw [hw1, hw1', hw2, hw2'] at h1
  have h2 := Except.ok.inj h1
  simp only [List.map_cons, List.map_nil, List.zip_cons_cons, List.cons.injEq, Prod.mk.injEq,
    Option.some.injEq, true_and] at h2
  have h3 := h2.1
  rw [abs_of_pos hL, abs_of_pos (by positivity)] at h3
  field_simp at h3
  norm_num at h3
  linarith

theorem slice_logReturns (e : ℤ × ℤ) (bars bars' : Series ℝ)
    (hagree : List.Forall₂ (fun p q => p.1 = q.1) bars bars')
    (h : ∀ i p q, bars[i]? = some p → bars'[i]? = some q →
      ((e.1 ≤ p.1 ∧ p.1 ≤ e.2) ∨ ∃ r, bars[i + 1]? = some r ∧ e.1 ≤ r.1 ∧ r.1 ≤ e.2) → p = q)
    (prev prev' : Option ℝ)
    (hprev : ∀ p, bars.head? = some p → e.1 ≤ p.1 ∧ p.1 ≤ e.2 → prev = prev') :
    slice (logReturns prev bars) e.1 e.2 = slice (logReturns prev' bars') e.1 e.2 := by
  induction hagree generalizing prev prev' with
  | nil => rfl
  | @cons p q ps qs hpq _ ih =>
    have htail := ih (fun i a b ha hb hab => h (i + 1) a b ha hb hab) (some p.2) (some q.2) (by
      intro r hr hrun
      have : p = q := h 0 p q rfl rfl (Or.inr ⟨r, by
        show ps[0]? = some r
        rw [← List.head?_eq_getElem?]; exact hr, hrun⟩)
      rw [this])
    have h1 : logReturns prev (p :: ps) =
        (p.1, prev.map fun x => Real.log p.2 - Real.log x) :: logReturns (some p.2) ps := rfl
    have h2 : logReturns prev' (q :: qs) =
        (q.1, prev'.map fun x => Real.log q.2 - Real.log x) :: logReturns (some q.2) qs := rfl
    rw [h1, h2]
    unfold slice at htail ⊢
    by_cases hrun : e.1 ≤ p.1 ∧ p.1 ≤ e.2
    · have hpe : p = q := h 0 p q rfl rfl (Or.inl hrun)
      subst hpe
      rw [List.filter_cons_of_pos (by simpa using hrun), List.filter_cons_of_pos (by simpa using hrun),
        htail, hprev p rfl hrun]
    · have hrun' : ¬ (e.1 ≤ q.1 ∧ q.1 ≤ e.2) := by rw [← hpq]; exact hrun
      rw [List.filter_cons_of_neg (by simpa using hrun), List.filter_cons_of_neg (by simpa using hrun'),
        htail]

/-- C189, what holds: the weights depend on the prices during the events and on the price of the bar
before each of them, on no other (missing: the bar before the start should not matter). -/
theorem C189_event_prices_partial (events : List (ℤ × ℤ)) (counts : Series ℕ) (bars bars' : Series ℝ)
    (hpos : ∀ p ∈ bars, 0 < p.2) (hpos' : ∀ p ∈ bars', 0 < p.2)
    (htimes : List.Forall₂ (fun p q => p.1 = q.1) bars bars')
    (hagree : ∀ i p q, bars[i]? = some p → bars'[i]? = some q →
      (InEvent events p.1 ∨ ∃ r, bars[i + 1]? = some r ∧ InEvent events r.1) → p = q) :
    computeWeightsByReturns (closedTimes events) counts bars =
      computeWeightsByReturns (closedTimes events) counts bars' := by
  classical
  have hsl : ∀ e ∈ events, attribution (logReturns none bars) counts e =
      attribution (logReturns none bars') counts e := by
    intro e he
    rw [attribution_eq, attribution_eq, slice_logReturns e bars bars' htimes (by
      intro i p q hp hq h
      apply hagree i p q hp hq
      rcases h with h | ⟨r, hr, h⟩
      · exact Or.inl ⟨e, he, h⟩
      · exact Or.inr ⟨r, hr, e, he, h⟩) none none (fun _ _ _ => rfl)]
  have hraw : returnAttributions events counts (logReturns none bars) =
      returnAttributions events counts (logReturns none bars') := by
    unfold returnAttributions
    have : (events.mapM fun e => do
        let v ← attribution (logReturns none bars) counts e
        return (e, v)) = events.mapM fun e => do
        let v ← attribution (logReturns none bars') counts e
        return (e, v) := by
      clear hagree
      induction events with
      | nil => rfl
      | cons e es ih =>
        rw [mapM_cons_py, mapM_cons_py, hsl e (by simp), ih (fun e' he' => hsl e' (by simp [he']))]
    rw [this]
  unfold computeWeightsByReturns
  rw [if_neg (not_not.2 hpos), if_neg (not_not.2 hpos'), closedEvents_closedTimes, py_bind_ok,
    py_bind_ok, hraw]

/-- Bars 0 to 4, an event on bars 2 to 3: the prices of bars 0 and 4 are free. -/
example : ∀ i p q, ([(0, 1), (1, 2), (2, 3), (3, 4), (4, 5)] : Series ℕ)[i]? = some p →
    ([(0, 9), (1, 2), (2, 3), (3, 4), (4, 7)] : Series ℕ)[i]? = some q →
    (InEvent [(2, 3)] p.1 ∨ ∃ r, ([(0, 1), (1, 2), (2, 3), (3, 4), (4, 5)] : Series ℕ)[i + 1]? = some r ∧
      InEvent [(2, 3)] r.1) → p = q := by
  intro i p q hp hq h
  simp only [InEvent, List.mem_singleton, exists_eq_left] at h
  rcases i with _ | _ | _ | _ | _ | i
  · simp at hp hq
    subst hp; subst hq
    simp at h
  · simp at hp hq; subst hp; subst hq; rfl
  · simp at hp hq; subst hp; subst hq; rfl
  · simp at hp hq; subst hp; subst hq; rfl
  · simp at hp hq
    subst hp; subst hq
    simp at h
  · simp at hp

end FinML.Weights
