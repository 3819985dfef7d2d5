import Verif.FracDiff.Spec
import Verif.Py.Lemmas
import Verif.Py.Rolling
import Mathlib.Data.List.GetD
import Mathlib.Algebra.BigOperators.NatAntidiagonal
import Mathlib.Algebra.Order.BigOperators.Group.Finset
import Mathlib.Algebra.BigOperators.Ring.Finset
import Mathlib.Tactic.FieldSimp
import Mathlib.Tactic.Ring
import Mathlib.Tactic.LinearCombination
import Mathlib.Tactic.Linarith

/-! # Lemmas on fractional differencing -/

set_option linter.unusedSectionVars false

namespace FinML.FracDiff

variable {K : Type} [Field K] [LinearOrder K] [IsStrictOrderedRing K]

theorem lagWeight_zero (d : K) : lagWeight d 0 = 1 := by simp [lagWeight, gbinom]

theorem lagWeight_succ (d : K) (k : ℕ) :
    lagWeight d (k + 1) = -(lagWeight d k) * (d - (k + 1 : ℕ) + 1) / (k + 1 : ℕ) := by
  have h1 : ((k.factorial : ℕ) : K) ≠ 0 := by exact_mod_cast k.factorial_ne_zero
  have h2 : ((k : K) + 1) ≠ 0 := by exact_mod_cast k.succ_ne_zero
  unfold lagWeight gbinom
  rw [Finset.prod_range_succ, Nat.factorial_succ]
  push_cast
  field_simp
  ring

theorem foldl_weights (d : K) (m : ℕ) :
    (List.range' 1 m).foldl (fun ws k => ws ++ [nextW d ws k]) [1] =
      (List.range (m + 1)).map (lagWeight d) := by
  induction m with
  | zero => simp [lagWeight_zero]
  | succ m ih =>
    rw [List.range'_1_concat, List.foldl_append, ih, List.range_succ (n := m + 1), List.map_append]
    simp only [List.foldl_cons, List.foldl_nil, List.map_cons, List.map_nil]
    congr 2
    rw [Nat.add_comm 1 m, lagWeight_succ]
    unfold nextW
    rw [List.range_succ, List.map_append]
    simp

theorem getWeights_eq (d : K) (n : ℕ) :
    getWeights d n = ((List.range (max 1 n)).map (lagWeight d)).reverse := by
  unfold getWeights
  rw [foldl_weights]
  congr 3
  omega

theorem fixedLoop_spec (d thr : K) (fuel k : ℕ) :
    ∃ w, fixedLoop d thr fuel (k + 1) ((List.range (k + 1)).map (lagWeight d)) =
      (List.range (w + 1)).map (lagWeight d) ∧ k ≤ w ∧ w ≤ k + fuel ∧
      (∀ j, k < j → j ≤ w → thr ≤ |lagWeight d j|) ∧ (w < k + fuel → |lagWeight d (w + 1)| < thr) := by
  induction fuel generalizing k with
  | zero => exact ⟨k, rfl, le_rfl, le_rfl, by omega, by omega⟩
  | succ fuel ih =>
    have hn : nextW d ((List.range (k + 1)).map (lagWeight d)) (k + 1) = lagWeight d (k + 1) := by
      rw [lagWeight_succ]
      unfold nextW
      rw [List.range_succ, List.map_append]
      simp
    unfold fixedLoop
    rw [hn]
    by_cases h : |lagWeight d (k + 1)| < thr
    · rw [if_pos h]
      exact ⟨k, rfl, le_rfl, by omega, by omega, fun _ => h⟩
    · rw [if_neg h]
      have e : (List.range (k + 1)).map (lagWeight d) ++ [lagWeight d (k + 1)] =
          (List.range (k + 1 + 1)).map (lagWeight d) := by
        rw [List.range_succ (n := k + 1), List.map_append]; rfl
      rw [e]
      obtain ⟨w, h1, h2, h3, h4, h5⟩ := ih (k + 1)
      refine ⟨w, h1, by omega, by omega, ?_, fun hw => h5 (by omega)⟩
      intro j hj hjw
      rcases Nat.eq_or_lt_of_le (Nat.succ_le_of_lt hj) with rfl | hj'
      · exact not_lt.1 h
      · exact h4 j hj' hjw

theorem getWeightsFixed_eq (d thr : K) (n : ℕ) :
    ∃ w, IsWidth d thr n w ∧ getWeightsFixed d thr n = ((List.range (w + 1)).map (lagWeight d)).reverse := by
  obtain ⟨w, h1, -, h3, h4, h5⟩ := fixedLoop_spec d thr (n - 1) 0
  refine ⟨w, ⟨by omega, fun k hk hkw => h4 k hk hkw, fun h => h5 (by omega)⟩, ?_⟩
  unfold getWeightsFixed
  rw [← h1]
  simp [lagWeight_zero]

theorem isWidth_unique (d thr : K) (n w w' : ℕ) (h : IsWidth d thr n w) (h' : IsWidth d thr n w') :
    w = w' := by
  by_contra hne
  rcases Nat.lt_or_gt_of_ne hne with hlt | hlt
  · have a := h.2.2 (by have := h'.1; omega)
    have b := h'.2.1 (w + 1) (by omega) hlt
    exact absurd a (not_lt.2 b)
  · have a := h'.2.2 (by have := h.1; omega)
    have b := h.2.1 (w' + 1) (by omega) hlt
    exact absurd a (not_lt.2 b)

/-- The generalised Vandermonde identity. -/
theorem vandermonde (a b : K) (m : ℕ) :
    ∑ p ∈ Finset.antidiagonal m, lagWeight a p.1 * lagWeight b p.2 = lagWeight (a + b) m := by
  induction m with
  | zero => simp [lagWeight_zero]
  | succ m ih =>
    have hm : ((m : K) + 1) ≠ 0 := by exact_mod_cast m.succ_ne_zero
    have hrec : ∀ (d : K) (k : ℕ), ((k : K) + 1) * lagWeight d (k + 1) = (k - d) * lagWeight d k := by
      intro d k
      have hk : ((k : K) + 1) ≠ 0 := by exact_mod_cast k.succ_ne_zero
      rw [lagWeight_succ]
      push_cast
      field_simp
      ring
    apply mul_left_cancel₀ hm
    rw [hrec, ← ih, Finset.mul_sum, Finset.mul_sum]
    have hsplit : ∑ p ∈ Finset.antidiagonal (m + 1), ((m : K) + 1) * (lagWeight a p.1 * lagWeight b p.2) =
        ∑ p ∈ Finset.antidiagonal (m + 1), ((p.1 : K) * lagWeight a p.1) * lagWeight b p.2 +
        ∑ p ∈ Finset.antidiagonal (m + 1), lagWeight a p.1 * ((p.2 : K) * lagWeight b p.2) := by
      rw [← Finset.sum_add_distrib]
      refine Finset.sum_congr rfl ?_
      intro p hp
      have : ((p.1 : K) + p.2) = m + 1 := by
        have := Finset.mem_antidiagonal.1 hp
        exact_mod_cast this
      linear_combination (-(lagWeight a p.1 * lagWeight b p.2)) * this
    rw [hsplit, Finset.Nat.sum_antidiagonal_succ, Finset.Nat.sum_antidiagonal_succ' (n := m)]
    simp only [Nat.cast_zero, zero_mul, mul_zero, zero_add, Nat.cast_add, Nat.cast_one, hrec]
    rw [← Finset.sum_add_distrib]
    refine Finset.sum_congr rfl ?_
    intro p hp
    have : ((p.1 : K) + p.2) = m := by
      have := Finset.mem_antidiagonal.1 hp
      exact_mod_cast this
    linear_combination (lagWeight a p.1 * lagWeight b p.2) * this

/-! ## Slices of a sorted column -/

theorem filter_le_eq_take (cs : List (ℤ × K)) (h : (cs.map Prod.fst).Pairwise (· < ·)) (i : ℕ)
    (hi : i < cs.length) : cs.filter (fun q => q.1 ≤ cs[i].1) = cs.take (i + 1) := by
  induction cs generalizing i with
  | nil => simp at hi
  | cons c cs ih =>
    rw [List.map_cons, List.pairwise_cons] at h
    cases i with
    | zero =>
      rw [List.filter_cons]
      simp only [List.getElem_cons_zero, le_refl, decide_true, if_true, Nat.zero_add, List.take_succ_cons,
        List.take_zero, List.cons.injEq, true_and, List.filter_eq_nil_iff]
      intro a ha
      have := h.1 a.1 (List.mem_map.2 ⟨a, ha, rfl⟩)
      simp; exact this
    | succ i =>
      simp only [List.length_cons, Nat.add_lt_add_iff_right] at hi
      rw [List.filter_cons]
      have hc : c.1 ≤ (c :: cs)[i + 1].1 := by
        rw [List.getElem_cons_succ]
        exact (h.1 _ (List.mem_map.2 ⟨cs[i], List.getElem_mem _, rfl⟩)).le
      simp only [hc, decide_true, if_true, List.take_succ_cons, List.cons.injEq, true_and]
      simpa using ih h.2 i hi

theorem filter_ge_eq_drop (cs : List (ℤ × K)) (h : (cs.map Prod.fst).Pairwise (· < ·)) (i : ℕ)
    (hi : i < cs.length) : cs.filter (fun q => cs[i].1 ≤ q.1) = cs.drop i := by
  induction cs generalizing i with
  | nil => simp at hi
  | cons c cs ih =>
    rw [List.map_cons, List.pairwise_cons] at h
    cases i with
    | zero =>
      simp only [List.getElem_cons_zero, List.drop_zero]
      rw [List.filter_eq_self]
      intro a ha
      rcases List.mem_cons.1 ha with rfl | ha
      · simp
      · simpa using (h.1 a.1 (List.mem_map.2 ⟨a, ha, rfl⟩)).le
    | succ i =>
      simp only [List.length_cons, Nat.add_lt_add_iff_right] at hi
      rw [List.filter_cons]
      have hc : ¬ (c :: cs)[i + 1].1 ≤ c.1 := by
        rw [List.getElem_cons_succ, not_le]
        exact h.1 _ (List.mem_map.2 ⟨cs[i], List.getElem_mem _, rfl⟩)
      simp only [hc, decide_false, List.drop_succ_cons]
      simpa using ih h.2 i hi

theorem zipWith_reverse_sum (f : ℕ → K) (x : List K) (m i : ℕ) (hm : m ≤ i + 1) (hi : i < x.length) :
    (List.zipWith (· * ·) ((List.range m).map f).reverse ((x.take (i + 1)).drop (i + 1 - m))).sum =
      ∑ k ∈ Finset.range m, f k * x.getD (i - k) 0 := by
  have hlen : ((x.take (i + 1)).drop (i + 1 - m)).length = m := by
    rw [List.length_drop, List.length_take]; omega
  have hz : List.zipWith (· * ·) ((List.range m).map f).reverse ((x.take (i + 1)).drop (i + 1 - m)) =
      (List.range m).map fun j : ℕ => f (m - 1 - j) * x.getD (i + 1 - m + j) 0 := by
    apply List.ext_getElem
    · simp [hlen]
    · intro j h1 h2
      have hj : j < m := by simpa using h2
      rw [List.getElem_zipWith, List.getElem_map, List.getElem_reverse]
      simp only [List.length_map, List.length_range, List.getElem_map, List.getElem_range,
        List.getElem_drop, List.getElem_take]
      rw [List.getD_eq_getElem _ _ (by omega)]
  rw [hz, list_range_map_sum, ← Finset.sum_range_reflect]
  refine Finset.sum_congr rfl ?_
  intro j hj
  rw [Finset.mem_range] at hj
  congr 2
  · omega
  · omega

end FinML.FracDiff
