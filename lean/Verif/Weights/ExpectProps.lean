import Verif.Weights.BootProps
import Mathlib.Algebra.BigOperators.Field
import Mathlib.Algebra.Order.BigOperators.Ring.Finset

/-! # What the sequential bootstrap is for (C246) -/

namespace FinML.Weights

set_option linter.unusedSectionVars false

variable {K : Type} [Field K] [LinearOrder K] [IsStrictOrderedRing K]

theorem sum_range_list (n : ℕ) (f : ℕ → K) :
    ((List.range n).map f).sum = ∑ j ∈ Finset.range n, f j := rfl

/-- C246.  Whatever has been drawn, the uniqueness expected of the next event drawn is at least the plain
mean of the uniquenesses, which is what a draw with equal probabilities would give; the two agree only if
all events have the same uniqueness. -/
theorem C246_expected (cols : List (List ℕ)) (m : ℕ) (hI : Indicator cols m) (hne : cols ≠ [])
    (samples : List ℕ) :
    ∃ probs : List K, trialProbs cols samples = .ok probs ∧
      ((List.range cols.length).map fun j : ℕ => newUniq K cols m samples j).sum / (cols.length : K) ≤
        ((List.range cols.length).map fun j : ℕ => probs.getD j 0 * newUniq K cols m samples j).sum ∧
      (((List.range cols.length).map fun j : ℕ => newUniq K cols m samples j).sum / (cols.length : K) =
        ((List.range cols.length).map fun j : ℕ => probs.getD j 0 * newUniq K cols m samples j).sum ↔
        ∀ i j, i < cols.length → j < cols.length →
          newUniq K cols m samples i = newUniq K cols m samples j) := by
  obtain ⟨probs, hp, -, -, -, hget, -⟩ := C35_probabilities (K := K) cols m hI hne samples
  refine ⟨probs, hp, ?_⟩
  obtain ⟨u, hu⟩ : ∃ u : ℕ → K, u = newUniq K cols m samples := ⟨_, rfl⟩
  have hpos : ∀ j, j < cols.length → 0 < u j := fun j hj => by
    rw [hu]; exact (newUniq_bounds cols m hI samples j hj).1
  rw [← hu] at hget ⊢
  obtain ⟨n, hn⟩ : ∃ n, n = cols.length := ⟨_, rfl⟩
  have hn1 : 0 < n := by rw [hn]; exact List.length_pos_iff.2 hne
  rw [← hn] at hpos hget ⊢
  rw [sum_range_list, sum_range_list]
  rw [sum_range_list] at hget
  obtain ⟨S, hS⟩ : ∃ S, S = ∑ j ∈ Finset.range n, u j := ⟨_, rfl⟩
  rw [← hS] at hget ⊢
  have hn0 : (0 : K) < n := by exact_mod_cast hn1
  have hS0 : 0 < S := by
    rw [hS]
    exact Finset.sum_pos (fun j hj => hpos j (Finset.mem_range.1 hj)) ⟨0, Finset.mem_range.2 hn1⟩
  have hexp : ∑ j ∈ Finset.range n, probs.getD j 0 * u j = (∑ j ∈ Finset.range n, u j ^ 2) / S := by
    rw [Finset.sum_div]
    refine Finset.sum_congr rfl fun j hj => ?_
    rw [List.getD_eq_getElem?_getD, hget j (Finset.mem_range.1 hj)]
    simp only [Option.getD_some]
    ring
  have hvar : ∑ j ∈ Finset.range n, (u j - S / n) ^ 2 = (∑ j ∈ Finset.range n, u j ^ 2) - S ^ 2 / n := by
    have : ∀ j ∈ Finset.range n, (u j - S / n) ^ 2 = u j ^ 2 - 2 * (S / n) * u j + (S / n) ^ 2 := by
      intro j _; ring
    rw [Finset.sum_congr rfl this, Finset.sum_add_distrib, Finset.sum_sub_distrib, ← Finset.mul_sum, ← hS,
      Finset.sum_const, Finset.card_range, nsmul_eq_mul]
    field_simp
    ring
  have hdiff : (∑ j ∈ Finset.range n, u j ^ 2) / S - S / n =
      (∑ j ∈ Finset.range n, (u j - S / n) ^ 2) / S := by
    rw [hvar]
    field_simp
  have hnn : 0 ≤ ∑ j ∈ Finset.range n, (u j - S / n) ^ 2 := Finset.sum_nonneg fun j _ => sq_nonneg _
  rw [hexp]
  constructor
  · have := div_nonneg hnn hS0.le
    linarith
  · constructor
    · intro h
      rw [← h, sub_self, eq_comm, div_eq_zero_iff, or_iff_left hS0.ne',
        Finset.sum_eq_zero_iff_of_nonneg fun j _ => sq_nonneg _] at hdiff
      intro i j hi hj
      have h1 := pow_eq_zero_iff (two_ne_zero) |>.1 (hdiff i (Finset.mem_range.2 hi))
      have h2 := pow_eq_zero_iff (two_ne_zero) |>.1 (hdiff j (Finset.mem_range.2 hj))
      linarith
    · intro h
      have hS' : S = n * u 0 := by
        rw [hS, Finset.sum_congr rfl fun j hj => h j 0 (Finset.mem_range.1 hj) hn1, Finset.sum_const,
          Finset.card_range, nsmul_eq_mul]
      have : ∑ j ∈ Finset.range n, (u j - S / n) ^ 2 = 0 := by
        refine Finset.sum_eq_zero fun j hj => ?_
        rw [hS', h j 0 (Finset.mem_range.1 hj) hn1]
        field_simp
        simp
      rw [this, zero_div] at hdiff
      linarith

/-- C246.  Drawing event `d` raises the uniqueness of no event, and lowers it for exactly the events that
share a bar with `d`. -/
theorem C246_local (cols : List (List ℕ)) (m : ℕ) (hI : Indicator cols m) (samples : List ℕ) (d i : ℕ)
    (hi : i < cols.length) :
    ∃ u v : K, trialUniqueness cols samples i = some u ∧ trialUniqueness cols (samples ++ [d]) i = some v ∧
      v ≤ u ∧ (v = u ↔ ∀ b, On cols i b → ¬ On cols d b) := by
  refine ⟨_, _, trialUniqueness_eq cols m hI samples i hi, trialUniqueness_eq cols m hI _ i hi, ?_⟩
  have hcm : cols.getD i [] ∈ cols := by
    rw [List.getD_eq_getElem _ _ hi]; exact List.getElem_mem hi
  have hget : cols[i]? = some (cols.getD i []) := by
    rw [List.getD_eq_getElem _ _ hi, List.getElem?_eq_getElem hi]
  have hlen := hI.len _ hcm
  have hlt : ∀ b, On cols i b → b < m := by
    rintro b ⟨c, hc, hb'⟩
    rw [hget] at hc
    cases hc
    rw [← hlen]
    exact (List.getElem?_eq_some_iff.1 hb').1
  unfold newUniq
  obtain ⟨rows, hrows⟩ : ∃ rows, rows = (List.range m).filter fun b => On cols i b := ⟨_, rfl⟩
  have hmem : ∀ b, b ∈ rows ↔ On cols i b := by
    intro b
    rw [hrows, List.mem_filter, List.mem_range]
    simp only [decide_eq_true_iff]
    exact ⟨fun h => h.2, fun h => ⟨hlt b h, h⟩⟩
  have hrne : rows ≠ [] := by
    obtain ⟨b, hb, hb1⟩ := List.getElem_of_mem (hI.nonempty _ hcm)
    exact List.ne_nil_of_mem (a := b) ((hmem b).2 ⟨_, hget, by rw [List.getElem?_eq_getElem hb, hb1]⟩)
  rw [← hrows]
  have hL : (0 : K) < (rows.length : K) := by exact_mod_cast List.length_pos_iff.2 hrne
  rw [div_le_div_iff_of_pos_right hL, div_left_inj' hL.ne']
  have hterm : ∀ b, (1 : K) / (1 + (((samples ++ [d]).countP fun s => On cols s b : ℕ) : K)) ≤
      1 / (1 + ((samples.countP fun s => On cols s b : ℕ) : K)) ∧
      ((1 : K) / (1 + (((samples ++ [d]).countP fun s => On cols s b : ℕ) : K)) =
      1 / (1 + ((samples.countP fun s => On cols s b : ℕ) : K)) ↔ ¬ On cols d b) := by
    intro b
    have h0 : (0 : K) ≤ ((samples.countP fun s => On cols s b : ℕ) : K) := Nat.cast_nonneg _
    rw [List.countP_append]
    by_cases hd : On cols d b
    · have h1 : [d].countP (fun s => On cols s b) = 1 := by simp [hd]
      rw [h1]
      push_cast
      have hlt : (1 : K) / (1 + (((samples.countP fun s => On cols s b : ℕ) : K) + 1)) <
          1 / (1 + ((samples.countP fun s => On cols s b : ℕ) : K)) :=
        one_div_lt_one_div_of_lt (by linarith) (by linarith)
      exact ⟨hlt.le, ⟨fun h => absurd h hlt.ne, fun h => absurd hd h⟩⟩
    · have h1 : [d].countP (fun s => On cols s b) = 0 := by simp [hd]
      rw [h1, Nat.add_zero]
      exact ⟨le_rfl, ⟨fun _ => hd, fun _ => rfl⟩⟩
  have key : ∀ l : List ℕ,
      (l.map fun b : ℕ => (1 : K) / (1 + (((samples ++ [d]).countP fun s => On cols s b : ℕ) : K))).sum ≤
        (l.map fun b : ℕ => (1 : K) / (1 + ((samples.countP fun s => On cols s b : ℕ) : K))).sum ∧
      ((l.map fun b : ℕ => (1 : K) / (1 + (((samples ++ [d]).countP fun s => On cols s b : ℕ) : K))).sum =
        (l.map fun b : ℕ => (1 : K) / (1 + ((samples.countP fun s => On cols s b : ℕ) : K))).sum ↔
        ∀ b ∈ l, ¬ On cols d b) := by
    intro l
    induction l with
    | nil => simp
    | cons b l ih =>
      obtain ⟨h1, h2⟩ := hterm b
      obtain ⟨h3, h4⟩ := ih
      simp only [List.map_cons, List.sum_cons, List.forall_mem_cons]
      refine ⟨add_le_add h1 h3, ?_⟩
      rw [← h2, ← h4]
      constructor
      · intro h
        exact ⟨by linarith, by linarith⟩
      · rintro ⟨h5, h6⟩
        rw [h5, h6]
  refine ⟨(key rows).1, (key rows).2.trans ?_⟩
  exact ⟨fun h b hb => h b ((hmem b).2 hb), fun h b hb => h b ((hmem b).1 hb)⟩

/-- Three events, the first drawn: the next draw is expected to have uniqueness 29/36, more than 3/4. -/
example : trialProbs (K := ℚ) [[1, 1, 0], [0, 1, 1], [0, 0, 1]] [0] = .ok [2 / 9, 3 / 9, 4 / 9] ∧
    (2 / 9 * (1 / 2) + 3 / 9 * (3 / 4) + 4 / 9 * 1 : ℚ) = 29 / 36 ∧
    ((1 / 2 + 3 / 4 + 1) / 3 : ℚ) = 3 / 4 := by decide +kernel

end FinML.Weights
