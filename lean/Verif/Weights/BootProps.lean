import Verif.Weights.Lemmas
import Mathlib.Data.Rat.Defs
import Mathlib.Algebra.Order.Field.Rat
import Mathlib.Tactic.NormNum

/-! # Property C35: sequential bootstrap -/

set_option linter.unusedSectionVars false

namespace FinML.Weights

variable {K : Type} [Field K] [LinearOrder K] [IsStrictOrderedRing K]

theorem entry_eq (cols : List (List ℕ)) (m : ℕ) (hI : Indicator cols m) (j b : ℕ) :
    (cols.getD j []).getD b 0 = if On cols j b then 1 else 0 := by
  have e : cols.getD j [] = cols[j]?.getD [] := List.getD_eq_getElem?_getD
  rw [e]
  by_cases h : On cols j b
  · rw [if_pos h]
    obtain ⟨c, hc, hb⟩ := h
    rw [hc, Option.getD_some, List.getD_eq_getElem?_getD, hb]
    rfl
  · rw [if_neg h]
    cases hc : cols[j]? with
    | none => simp
    | some c =>
      rw [Option.getD_some, List.getD_eq_getElem?_getD]
      cases hb : c[b]? with
      | none => rfl
      | some x =>
        rcases hI.entry c (List.mem_of_getElem? hc) x (List.mem_of_getElem? hb) with rfl | rfl
        · rfl
        · exact absurd ⟨c, hc, hb⟩ h

theorem concurrency_select (cols : List (List ℕ)) (m : ℕ) (hI : Indicator cols m)
    (samples : List ℕ) (b : ℕ) :
    concurrency (selectCols cols samples) b = samples.countP fun s => On cols s b := by
  unfold concurrency selectCols
  rw [List.map_map]
  induction samples with
  | nil => rfl
  | cons s ss ih =>
    rw [List.map_cons, List.sum_cons, ih, List.countP_cons]
    simp only [Function.comp]
    rw [entry_eq cols m hI]
    by_cases h : On cols s b
    · simp [h, add_comm]
    · simp [h]

theorem trialUniqueness_eq (cols : List (List ℕ)) (m : ℕ) (hI : Indicator cols m)
    (samples : List ℕ) (i : ℕ) (hi : i < cols.length) :
    trialUniqueness (K := K) cols samples i = some (newUniq K cols m samples i) := by
  have hlast : (getAvgUniqueness (K := K) (selectCols cols (samples ++ [i]))).getLast? =
      some (meanPositive (uniquenessCol (selectCols cols (samples ++ [i])) (cols.getD i []))) := by
    have h1 : selectCols cols (samples ++ [i]) = selectCols cols samples ++ [cols.getD i []] := by
      unfold selectCols; simp
    unfold getAvgUniqueness
    conv_lhs => rw [h1, List.map_append, List.map_singleton, ← h1]
    simp
  unfold trialUniqueness
  rw [hlast, Option.join_some]
  have hcm : cols.getD i [] ∈ cols := by
    rw [List.getD_eq_getElem _ _ hi]; exact List.getElem_mem hi
  have hcol : uniquenessCol (K := K) (selectCols cols (samples ++ [i])) (cols.getD i []) =
      (List.range m).map fun b : ℕ => fdiv (((if On cols i b then 1 else 0 : ℕ)) : K)
        (((samples ++ [i]).countP fun s => On cols s b : ℕ) : K) := by
    unfold uniquenessCol
    rw [hI.len _ hcm]
    apply List.map_congr_left
    intro b _
    rw [entry_eq cols m hI, concurrency_select cols m hI]
  have hcount : ∀ b, On cols i b → ((((samples ++ [i]).countP fun s => On cols s b : ℕ)) : K) =
      1 + ((samples.countP fun s => On cols s b : ℕ) : K) := by
    intro b hb
    rw [List.countP_append]
    simp [hb, add_comm]
  rw [hcol]
  unfold meanPositive newUniq
  rw [List.filter_map]
  have hfil : (List.range m).filter (isPos ∘ fun b : ℕ =>
      fdiv (((if On cols i b then 1 else 0 : ℕ)) : K)
        (((samples ++ [i]).countP fun s => On cols s b : ℕ) : K)) =
      (List.range m).filter fun b => On cols i b := by
    apply List.filter_congr
    intro b _
    simp only [Function.comp]
    by_cases h : On cols i b
    · rw [if_pos h, hcount b h]
      have : (0 : K) < 1 + ((samples.countP fun s => On cols s b : ℕ) : K) := by positivity
      unfold fdiv
      rw [if_neg this.ne']
      simp [isPos, h, this]
    · rw [if_neg h]
      unfold fdiv
      by_cases h0 : (((samples ++ [i]).countP fun s => On cols s b : ℕ) : K) = 0
      · rw [if_pos h0]; simp [isPos, h]
      · rw [if_neg h0]; simp [isPos, h]
  rw [hfil]
  have hval : ((List.range m).filter fun b => On cols i b).map (fun b : ℕ =>
      fdiv (((if On cols i b then 1 else 0 : ℕ)) : K)
        (((samples ++ [i]).countP fun s => On cols s b : ℕ) : K)) =
      ((List.range m).filter fun b => On cols i b).map fun b : ℕ =>
        some (1 / (1 + ((samples.countP fun s => On cols s b : ℕ) : K))) := by
    apply List.map_congr_left
    intro b hb
    have h : On cols i b := by simpa using (List.mem_filter.1 hb).2
    rw [if_pos h, hcount b h]
    have : (0 : K) < 1 + ((samples.countP fun s => On cols s b : ℕ) : K) := by positivity
    unfold fdiv
    rw [if_neg this.ne']
    simp
  rw [hval, meanOpt_map_some, if_neg]
  -- the column has a row
  have h1 := hI.nonempty _ hcm
  obtain ⟨b, hb, hb1⟩ := List.getElem_of_mem h1
  have hlen := hI.len _ hcm
  refine List.ne_nil_of_mem (a := b) (List.mem_filter.2 ⟨List.mem_range.2 (by omega), ?_⟩)
  have hget : cols[i]? = some (cols.getD i []) := by
    rw [List.getD_eq_getElem _ _ hi, List.getElem?_eq_getElem hi]
  simp only [decide_eq_true_iff]
  exact ⟨_, hget, by rw [List.getElem?_eq_getElem hb, hb1]⟩

theorem newUniq_bounds (cols : List (List ℕ)) (m : ℕ) (hI : Indicator cols m) (samples : List ℕ)
    (i : ℕ) (hi : i < cols.length) :
    0 < newUniq K cols m samples i ∧ newUniq K cols m samples i ≤ 1 ∧
      (newUniq K cols m samples i = 1 ↔ ∀ b, On cols i b → ∀ s ∈ samples, ¬ On cols s b) := by
  have hcm : cols.getD i [] ∈ cols := by
    rw [List.getD_eq_getElem _ _ hi]; exact List.getElem_mem hi
  have hget : cols[i]? = some (cols.getD i []) := by
    rw [List.getD_eq_getElem _ _ hi, List.getElem?_eq_getElem hi]
  have hlen := hI.len _ hcm
  have hne : ((List.range m).filter fun b => On cols i b) ≠ [] := by
    obtain ⟨b, hb, hb1⟩ := List.getElem_of_mem (hI.nonempty _ hcm)
    refine List.ne_nil_of_mem (a := b) (List.mem_filter.2 ⟨List.mem_range.2 (by omega), ?_⟩)
    simp only [decide_eq_true_iff]
    exact ⟨_, hget, by rw [List.getElem?_eq_getElem hb, hb1]⟩
  obtain ⟨h1, h2, h3⟩ := mean_pos_le_one _ hne (fun b : ℕ =>
      (1 : K) / (1 + ((samples.countP fun s => On cols s b : ℕ) : K))) (by
    intro b _
    have h0 : (0 : K) ≤ ((samples.countP fun s => On cols s b : ℕ) : K) := Nat.cast_nonneg _
    exact ⟨by positivity, (div_le_one (by linarith)).2 (by linarith)⟩)
  refine ⟨h1, h2, ?_⟩
  unfold newUniq
  rw [h3]
  constructor
  · intro h b hb s hs hs'
    have hbm : b < m := by
      obtain ⟨c, hc, hb'⟩ := hb
      rw [hget] at hc
      cases hc
      rw [← hlen]
      exact (List.getElem?_eq_some_iff.1 hb').1
    have h4 := h b (List.mem_filter.2 ⟨List.mem_range.2 hbm, by simpa using hb⟩)
    have h5 : 0 < samples.countP fun s => On cols s b := List.countP_pos_iff.2 ⟨s, hs, by simpa using hs'⟩
    have h6 : (0 : K) < ((samples.countP fun s => On cols s b : ℕ) : K) := by exact_mod_cast h5
    rw [div_eq_one_iff_eq (by linarith)] at h4
    linarith
  · intro h b hb
    have hb' : On cols i b := by simpa using (List.mem_filter.1 hb).2
    have : samples.countP (fun s => On cols s b) = 0 := by
      rw [List.countP_eq_zero]
      intro s hs
      simpa using h b hb' s hs
    rw [this]
    simp

/-- C35.  After any draws, the probabilities of the next draw are the uniquenesses the events would
have, normalised; they are positive and sum to 1, and an event that overlaps none of the draws is at
least as probable as any other. -/
theorem C35_probabilities (cols : List (List ℕ)) (m : ℕ) (hI : Indicator cols m) (hne : cols ≠ [])
    (samples : List ℕ) :
    ∃ probs : List K, trialProbs cols samples = .ok probs ∧ probs.length = cols.length ∧
      (∀ p ∈ probs, 0 < p) ∧ probs.sum = 1 ∧
      (∀ i, i < cols.length → probs[i]? = some (newUniq K cols m samples i /
        ((List.range cols.length).map fun j : ℕ => newUniq K cols m samples j).sum)) ∧
      (∀ i p, probs[i]? = some p → (∀ b, On cols i b → ∀ s ∈ samples, ¬ On cols s b) →
        ∀ q ∈ probs, q ≤ p) := by
  have hus : ((List.range cols.length).map fun i : ℕ =>
      trialUniqueness (K := K) cols samples i).mapM id =
      some ((List.range cols.length).map fun i : ℕ => newUniq K cols m samples i) := by
    have : ((List.range cols.length).map fun i : ℕ => trialUniqueness (K := K) cols samples i) =
        (List.range cols.length).map fun i : ℕ => some (newUniq K cols m samples i) := by
      apply List.map_congr_left
      intro i hi
      exact trialUniqueness_eq cols m hI samples i (List.mem_range.1 hi)
    rw [this]
    generalize List.range cols.length = l
    induction l with
    | nil => rfl
    | cons a l ih => rw [List.map_cons, List.mapM_cons, ih]; rfl
  have hpos : ∀ i, i < cols.length → 0 < newUniq K cols m samples i := fun i hi =>
    (newUniq_bounds cols m hI samples i hi).1
  have hsum : 0 < ((List.range cols.length).map fun j : ℕ => newUniq K cols m samples j).sum := by
    have hlen : 0 < cols.length := List.length_pos_iff.2 hne
    obtain ⟨n, hn⟩ : ∃ n, cols.length = n + 1 := ⟨cols.length - 1, by omega⟩
    rw [hn, List.range_succ, List.map_append, List.sum_append]
    have h1 : 0 ≤ ((List.range n).map fun j : ℕ => newUniq K cols m samples j).sum := by
      apply List.sum_nonneg
      intro x hx
      obtain ⟨j, hj, rfl⟩ := List.mem_map.1 hx
      rw [List.mem_range] at hj
      exact (hpos j (by omega)).le
    have h2 := hpos n (by omega)
    simp only [List.map_cons, List.map_nil, List.sum_cons, List.sum_nil, add_zero]
    linarith
  generalize hS : ((List.range cols.length).map fun j : ℕ => newUniq K cols m samples j).sum = S at hsum
  have hform : trialProbs cols samples = .ok
      (((List.range cols.length).map fun i : ℕ => newUniq K cols m samples i).map fun u => u / S) := by
    unfold trialProbs
    rw [hus]
    simp only
    rw [hS, if_neg hsum.ne']
  have hget : ∀ i, i < cols.length → ((((List.range cols.length).map fun i : ℕ =>
      newUniq K cols m samples i).map fun u => u / S))[i]? = some (newUniq K cols m samples i / S) := by
    intro i hi
    rw [List.getElem?_map, List.getElem?_map, List.getElem?_range hi]
    rfl
  refine ⟨_, hform, by simp, ?_, ?_, hget, ?_⟩
  · intro p hp
    obtain ⟨u, hu, rfl⟩ := List.mem_map.1 hp
    obtain ⟨i, hi, rfl⟩ := List.mem_map.1 hu
    exact div_pos (hpos i (List.mem_range.1 hi)) hsum
  · have : ((((List.range cols.length).map fun i : ℕ => newUniq K cols m samples i).map
        fun u => u / S)).sum =
        ((List.range cols.length).map fun j : ℕ => newUniq K cols m samples j).sum / S := by
      generalize (List.range cols.length).map (fun j : ℕ => newUniq K cols m samples j) = l
      induction l with
      | nil => simp
      | cons a l ih => rw [List.map_cons, List.sum_cons, ih, List.sum_cons, add_div]
    rw [this, hS, div_self hsum.ne']
  · intro i p hp hno q hq
    have hi : i < cols.length := by
      have := (List.getElem?_eq_some_iff.1 hp).1
      simpa using this
    rw [hget i hi] at hp
    cases hp
    obtain ⟨u, hu, rfl⟩ := List.mem_map.1 hq
    obtain ⟨j, hj, rfl⟩ := List.mem_map.1 hu
    rw [(newUniq_bounds (K := K) cols m hI samples i hi).2.2.2 hno]
    exact div_le_div_of_nonneg_right (newUniq_bounds cols m hI samples j (List.mem_range.1 hj)).2.1
      hsum.le

/-- C35.  For every random source the call makes exactly the requested number of draws (by default
one per event), every draw is an event, and each is drawn from the distribution of
`C35_probabilities` given the draws before. -/
theorem C35_draws (choice : List ℕ → List K → ℕ)
    (hchoice : ∀ s probs, probs ≠ [] → choice s probs < probs.length)
    (cols : List (List ℕ)) (m : ℕ) (hI : Indicator cols m) (hne : cols ≠ []) (size : Option ℕ) :
    ∃ out, sampleSequentialBootstrap choice cols size = .ok out ∧
      out.length = size.getD cols.length ∧ (∀ i ∈ out, i < cols.length) ∧
      ∀ k, k < out.length → ∃ probs, trialProbs (K := K) cols (out.take k) = .ok probs ∧
        out[k]? = some (choice (out.take k) probs) := by
  have gen : ∀ n (samples : List ℕ), (∀ i ∈ samples, i < cols.length) →
      ∃ out, bootstrapLoop choice cols n samples = .ok out ∧ out.length = samples.length + n ∧
        (∀ i ∈ out, i < cols.length) ∧ samples <+: out ∧
        ∀ k, samples.length ≤ k → k < out.length →
          ∃ probs, trialProbs (K := K) cols (out.take k) = .ok probs ∧
            out[k]? = some (choice (out.take k) probs) := by
    intro n
    induction n with
    | zero =>
      intro samples hs
      exact ⟨samples, rfl, by simp, hs, List.prefix_rfl, fun k h1 h2 => absurd h1 (by omega)⟩
    | succ n ih =>
      intro samples hs
      obtain ⟨probs, hp, hlen, _⟩ := C35_probabilities (K := K) cols m hI hne samples
      have hpne : probs ≠ [] := by
        rw [← List.length_pos_iff, hlen]; exact List.length_pos_iff.2 hne
      obtain ⟨out, h1, h2, h3, h4, h5⟩ := ih (samples ++ [choice samples probs]) (by
        intro i hi
        rcases List.mem_append.1 hi with hi | hi
        · exact hs i hi
        · rw [List.mem_singleton] at hi
          rw [hi, ← hlen]
          exact hchoice samples probs hpne)
      refine ⟨out, ?_, ?_, h3, (List.prefix_append _ _).trans h4, ?_⟩
      · unfold bootstrapLoop
        rw [hp, py_bind_ok, h1]
      · rw [h2]; simp; omega
      · intro k hk hk'
        by_cases hkeq : k = samples.length
        · subst hkeq
          obtain ⟨tl, rfl⟩ := h4
          have htake : ((samples ++ [choice samples probs]) ++ tl).take samples.length = samples := by
            rw [List.append_assoc, List.take_left]
          refine ⟨probs, by rw [htake]; exact hp, ?_⟩
          rw [htake, List.append_assoc, List.getElem?_append_right (le_refl _)]
          simp
        · exact h5 k (by simp; omega) hk'
  obtain ⟨out, h1, h2, h3, _, h5⟩ := gen (size.getD cols.length) [] (by simp)
  exact ⟨out, h1, by simpa using h2, h3, fun k hk => h5 k (by simp) hk⟩

example : Indicator [[1, 1, 1, 0, 0, 0], [0, 0, 1, 1, 0, 0], [0, 0, 0, 0, 1, 1]] 6 :=
  ⟨by decide, by decide, by decide⟩

example : trialProbs (K := ℚ) [[1, 1, 1, 0, 0, 0], [0, 0, 1, 1, 0, 0], [0, 0, 0, 0, 1, 1]] [1] =
    .ok [5 / 14, 3 / 14, 6 / 14] := by decide +kernel

end FinML.Weights
