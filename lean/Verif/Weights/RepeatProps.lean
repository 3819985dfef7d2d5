import Verif.Weights.BootProps

/-! # Drawing an event again (C217) -/

namespace FinML.Weights

set_option linter.unusedSectionVars false

variable {K : Type} [Field K] [LinearOrder K] [IsStrictOrderedRing K]

/-- C217, full claim: once an event is drawn, drawing it again is no more probable than before. -/
def DrawnNoMoreProbable (K : Type) [Field K] [LinearOrder K] : Prop :=
  ∀ (cols : List (List ℕ)) (m : ℕ), Indicator cols m → ∀ (samples : List ℕ) (i : ℕ) (p q : List K) (x y : K),
    trialProbs cols samples = .ok p → trialProbs cols (samples ++ [i]) = .ok q →
    p[i]? = some x → q[i]? = some y → y ≤ x

/-- Events `{1}`, `{1,2}`, `{2}`, `{2}`, the first one drawn: drawing the second raises its own
probability from 3/13 to 5/21, as the last two lose more. -/
theorem C217_again_counterexample : ¬ DrawnNoMoreProbable ℚ := by
  intro h
  have h1 : trialProbs (K := ℚ) [[1, 0], [1, 1], [0, 1], [0, 1]] [0] =
      .ok [2 / 13, 3 / 13, 4 / 13, 4 / 13] := by decide +kernel
  have h2 : trialProbs (K := ℚ) [[1, 0], [1, 1], [0, 1], [0, 1]] ([0] ++ [1]) =
      .ok [4 / 21, 5 / 21, 6 / 21, 6 / 21] := by decide +kernel
  have := h [[1, 0], [1, 1], [0, 1], [0, 1]] 2 ⟨by decide, by decide, by decide⟩ [0] 1 _ _ (3 / 13) (5 / 21)
    h1 h2 rfl rfl
  norm_num at this

theorem rows_ne_nil (cols : List (List ℕ)) (m : ℕ) (hI : Indicator cols m) (i : ℕ) (hi : i < cols.length) :
    ((List.range m).filter fun b => On cols i b) ≠ [] := by
  have hcm : cols[i] ∈ cols := List.getElem_mem hi
  have hlen := hI.len _ hcm
  obtain ⟨b, hb, hb1⟩ := List.getElem_of_mem (hI.nonempty _ hcm)
  refine List.ne_nil_of_mem (a := b) (List.mem_filter.2 ⟨List.mem_range.2 (by omega), ?_⟩)
  simp only [decide_eq_true_iff]
  exact ⟨_, List.getElem?_eq_getElem hi, by rw [List.getElem?_eq_getElem hb, hb1]⟩

theorem sum_map_le (l : List ℕ) (f g : ℕ → K) (h : ∀ b ∈ l, f b ≤ g b) : (l.map f).sum ≤ (l.map g).sum := by
  induction l with
  | nil => simp
  | cons b l ih =>
    rw [List.map_cons, List.map_cons, List.sum_cons, List.sum_cons]
    exact add_le_add (h b (by simp)) (ih fun c hc => h c (by simp [hc]))

theorem sum_map_lt (l : List ℕ) (f g : ℕ → K) (h : ∀ b ∈ l, f b < g b) (hl : l ≠ []) :
    (l.map f).sum < (l.map g).sum := by
  obtain ⟨b, r, rfl⟩ := List.exists_cons_of_ne_nil hl
  rw [List.map_cons, List.map_cons, List.sum_cons, List.sum_cons]
  exact add_lt_add_of_lt_of_le (h b (by simp)) (sum_map_le r f g fun c hc => (h c (by simp [hc])).le)

/-- C217, what holds: drawing an event lowers its own uniqueness strictly, and raises that of no event
(missing: the probability, which is the uniqueness divided by a sum that falls as well). -/
theorem C217_uniqueness_partial (cols : List (List ℕ)) (m : ℕ) (hI : Indicator cols m) (samples : List ℕ)
    (i j : ℕ) (hi : i < cols.length) (hj : j < cols.length) :
    ∃ u v u' v' : K, trialUniqueness cols samples i = some u ∧ trialUniqueness cols samples j = some v ∧
      trialUniqueness cols (samples ++ [i]) i = some u' ∧ trialUniqueness cols (samples ++ [i]) j = some v' ∧
      u' < u ∧ v' ≤ v := by
  refine ⟨_, _, _, _, trialUniqueness_eq cols m hI samples i hi, trialUniqueness_eq cols m hI samples j hj,
    trialUniqueness_eq cols m hI _ i hi, trialUniqueness_eq cols m hI _ j hj, ?_, ?_⟩
  · unfold newUniq
    have hne := rows_ne_nil cols m hI i hi
    refine div_lt_div_of_pos_right ?_ (by exact_mod_cast List.length_pos_iff.2 hne)
    apply sum_map_lt _ _ _ _ hne
    intro b hb
    have hb' : On cols i b := by simpa using (List.mem_filter.1 hb).2
    have h0 : (0 : K) ≤ ((samples.countP fun s => On cols s b : ℕ) : K) := Nat.cast_nonneg _
    apply one_div_lt_one_div_of_lt (by linarith)
    rw [List.countP_append]
    simp [hb']
  · unfold newUniq
    refine div_le_div_of_nonneg_right ?_ (Nat.cast_nonneg _)
    apply sum_map_le
    intro b hb
    have h0 : (0 : K) ≤ ((samples.countP fun s => On cols s b : ℕ) : K) := Nat.cast_nonneg _
    apply one_div_le_one_div_of_le (by linarith)
    rw [List.countP_append]
    push_cast
    have : (0 : K) ≤ (([i].countP fun s => On cols s b : ℕ) : K) := Nat.cast_nonneg _
    linarith

/-- C217, what holds: all events are equally probable for the first draw, and after it the event drawn is
no more probable than any other, so its own probability has not grown (missing: later draws). -/
theorem C217_first_partial (cols : List (List ℕ)) (m : ℕ) (hI : Indicator cols m) (i : ℕ) (hi : i < cols.length) :
    ∃ p q : List K, trialProbs cols [] = .ok p ∧ trialProbs cols [i] = .ok q ∧
      p = List.replicate cols.length (1 / (cols.length : K)) ∧
      ∃ y, q[i]? = some y ∧ (∀ z ∈ q, y ≤ z) ∧ y ≤ 1 / (cols.length : K) := by
  have hne : cols ≠ [] := by rintro rfl; simp at hi
  obtain ⟨p, hp, hpl, -, hps, hpi, -⟩ := C35_probabilities (K := K) cols m hI hne []
  obtain ⟨q, hq, hql, hq0, hqs, hqi, -⟩ := C35_probabilities (K := K) cols m hI hne [i]
  have hn : (0 : K) < cols.length := by exact_mod_cast (by omega : 0 < cols.length)
  refine ⟨p, q, hp, hq, ?_, _, hqi i hi, ?_, ?_⟩
  · have h1 : ∀ j, j < cols.length → newUniq K cols m [] j = 1 := by
      intro j hj
      exact (newUniq_bounds (K := K) cols m hI [] j hj).2.2.2 (by simp)
    have h2 : ((List.range cols.length).map fun j : ℕ => newUniq K cols m [] j).sum = (cols.length : K) := by
      rw [List.map_congr_left (g := fun _ => (1 : K)) fun j hj => h1 j (List.mem_range.1 hj)]
      simp
    rw [List.eq_replicate_iff]
    refine ⟨hpl, ?_⟩
    intro x hx
    obtain ⟨j, hj, rfl⟩ := List.mem_iff_getElem.1 hx
    have := hpi j (hpl ▸ hj)
    rw [List.getElem?_eq_getElem hj, h1 j (hpl ▸ hj), h2] at this
    exact Option.some.inj this
  all_goals
    have hhalf : newUniq K cols m [i] i = 1 / 2 := by
      unfold newUniq
      have hne := rows_ne_nil cols m hI i hi
      have hpos : (0 : K) < (((List.range m).filter fun b => On cols i b).length : K) := by
        exact_mod_cast List.length_pos_iff.2 hne
      rw [List.map_congr_left (g := fun _ => (1 / 2 : K))]
      · rw [List.map_const', List.sum_replicate, nsmul_eq_mul]
        field_simp
      · intro b hb
        have hb' : On cols i b := by simpa using (List.mem_filter.1 hb).2
        simp [hb']
        norm_num
    have hge : ∀ j, j < cols.length → 1 / 2 ≤ newUniq K cols m [i] j := by
      intro j hj
      unfold newUniq
      have hne := rows_ne_nil cols m hI j hj
      have hpos : (0 : K) < (((List.range m).filter fun b => On cols j b).length : K) := by
        exact_mod_cast List.length_pos_iff.2 hne
      rw [le_div_iff₀ hpos]
      have := sum_map_le ((List.range m).filter fun b => On cols j b) (fun _ => (1 / 2 : K))
        (fun b : ℕ => 1 / (1 + (([i].countP fun s => On cols s b : ℕ) : K))) (by
          intro b _
          have h0 : (0 : K) ≤ (([i].countP fun s => On cols s b : ℕ) : K) := Nat.cast_nonneg _
          apply one_div_le_one_div_of_le (by linarith)
          have : [i].countP (fun s => On cols s b) ≤ 1 := List.countP_le_length
          have : (([i].countP fun s => On cols s b : ℕ) : K) ≤ 1 := by exact_mod_cast this
          linarith)
      rw [List.map_const', List.sum_replicate, nsmul_eq_mul] at this
      linarith
    have hS : 0 < ((List.range cols.length).map fun j : ℕ => newUniq K cols m [i] j).sum := by
      have := hq0 _ (List.mem_of_getElem? (hqi i hi))
      rw [hhalf] at this
      by_contra hc
      exact absurd this (not_lt.2 (div_nonpos_of_nonneg_of_nonpos (by norm_num) (not_lt.1 hc)))
  · intro z hz
    obtain ⟨j, hj, rfl⟩ := List.mem_iff_getElem.1 hz
    have := hqi j (hql ▸ hj)
    rw [List.getElem?_eq_getElem hj] at this
    rw [Option.some.inj this, hhalf]
    exact div_le_div_of_nonneg_right (hge j (hql ▸ hj)) hS.le
  · rw [hhalf, div_le_div_iff₀ hS hn]
    have := sum_map_le (List.range cols.length) (fun _ => (1 / 2 : K)) (fun j : ℕ => newUniq K cols m [i] j)
      fun j hj => hge j (List.mem_range.1 hj)
    rw [List.map_const', List.sum_replicate, nsmul_eq_mul, List.length_range] at this
    linarith

end FinML.Weights
