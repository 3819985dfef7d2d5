import Verif.Bars.EwmaSpec
import Verif.Py.Lemmas
import Mathlib.Algebra.BigOperators.Ring.Finset
import Mathlib.Data.List.GetD
import Mathlib.Algebra.Order.BigOperators.Group.Finset
import Mathlib.Tactic.FieldSimp
import Mathlib.Tactic.Positivity

/-! # Lemmas about `fast_ewma` -/

set_option linter.unusedSectionVars false

namespace FinML.Bars

variable {K : Type} [Field K] [LinearOrder K] [IsStrictOrderedRing K]

/-- Numerator of `ewMean`. -/
def ewNum (q : K) (l : List K) : K :=
  ∑ k ∈ Finset.range l.length, q ^ k * l.getD (l.length - 1 - k) 0

/-- Denominator of `ewMean`. -/
def ewDen (q : K) (n : ℕ) : K := ∑ k ∈ Finset.range n, q ^ k

theorem ewNum_snoc (q : K) (l : List K) (x : K) : ewNum q (l ++ [x]) = ewNum q l * q + x := by
  unfold ewNum
  rw [List.length_append, List.length_singleton, Finset.sum_range_succ', Finset.sum_mul]
  congr 1
  · apply Finset.sum_congr rfl
    intro k hk
    rw [Finset.mem_range] at hk
    have : (l ++ [x]).getD (l.length + 1 - 1 - (k + 1)) 0 = l.getD (l.length - 1 - k) 0 := by
      rw [show l.length + 1 - 1 - (k + 1) = l.length - 1 - k by omega, List.getD_eq_getElem?_getD,
        List.getD_eq_getElem?_getD, List.getElem?_append_left (by omega)]
    rw [this, pow_succ]; ring
  · simp

theorem ewDen_succ (q : K) (n : ℕ) : ewDen q (n + 1) = ewDen q n + q ^ n := by
  unfold ewDen; rw [Finset.sum_range_succ]

theorem decay_nonneg (span : ℕ) (h : 1 ≤ span) : (0 : K) ≤ decay K span := by
  unfold decay
  have h1 : (1 : K) ≤ span := by exact_mod_cast h
  rw [sub_nonneg, div_le_one (by linarith)]
  linarith

theorem decay_lt_one (span : ℕ) : decay K span < 1 := by
  unfold decay
  have h1 : (0 : K) ≤ span := Nat.cast_nonneg _
  have : (0 : K) < 2 / ((span : K) + 1) := by positivity
  linarith

theorem ewDen_pos (q : K) (hq : 0 ≤ q) (n : ℕ) (hn : 0 < n) : 0 < ewDen q n := by
  obtain ⟨m, rfl⟩ : ∃ m, n = m + 1 := ⟨n - 1, by omega⟩
  clear hn
  induction m with
  | zero => simp [ewDen]
  | succ m ih => rw [ewDen_succ]; have := pow_nonneg hq (m + 1); linarith

theorem ewmaAdjLoop_spec (alpha : K) (hq : 0 ≤ 1 - alpha) (pre xs : List K) (hpre : pre ≠ []) :
    ∃ r, ewmaAdjLoop alpha pre.length (ewDen (1 - alpha) pre.length) (ewNum (1 - alpha) pre) xs
        = .ok r ∧ r.length = xs.length ∧
      ∀ i, i < xs.length → r[i]? = some (ewMean (1 - alpha) (pre ++ xs.take (i + 1))) := by
  induction xs generalizing pre with
  | nil => exact ⟨[], rfl, rfl, by simp⟩
  | cons x xs ih =>
    obtain ⟨r, h1, h2, h3⟩ := ih (pre ++ [x]) (by simp)
    have hw : ewDen (1 - alpha) pre.length + (1 - alpha) ^ pre.length =
        ewDen (1 - alpha) (pre ++ [x]).length := by
      rw [List.length_append, List.length_singleton, ewDen_succ]
    have hn : ewNum (1 - alpha) pre * (1 - alpha) + x = ewNum (1 - alpha) (pre ++ [x]) :=
      (ewNum_snoc _ _ _).symm
    have hpos := ewDen_pos (1 - alpha) hq (pre ++ [x]).length (by simp)
    refine ⟨ewNum (1 - alpha) (pre ++ [x]) / ewDen (1 - alpha) (pre ++ [x]).length :: r, ?_, ?_, ?_⟩
    · unfold ewmaAdjLoop
      simp only [hw, hn, if_neg hpos.ne']
      rw [List.length_append, List.length_singleton] at h1 ⊢
      simp only [h1, py_bind_ok, py_pure]
    · simp [h2]
    · intro i hi
      cases i with
      | zero => simp [ewMean, ewNum, ewDen]
      | succ i =>
        rw [List.getElem?_cons_succ, h3 i (by simpa using hi)]
        simp

theorem fastEwma_adj (l : List K) (span : ℕ) (hs : 1 ≤ span) :
    ∃ r, fastEwma l span true = .ok r ∧ r.length = l.length ∧
      ∀ i, i < l.length → r[i]? = some (ewMean (decay K span) (l.take (i + 1))) := by
  cases l with
  | nil => exact ⟨[], rfl, rfl, by simp⟩
  | cons x xs =>
    have hq := decay_nonneg (K := K) span hs
    obtain ⟨r, h1, h2, h3⟩ := ewmaAdjLoop_spec (2 / ((span : K) + 1)) hq [x] xs (by simp)
    refine ⟨x :: r, ?_, by simp [h2], ?_⟩
    · unfold fastEwma
      have e1 : ewDen (1 - 2 / ((span : K) + 1)) [x].length = 1 := by simp [ewDen]
      have e2 : ewNum (1 - 2 / ((span : K) + 1)) [x] = x := by simp [ewNum]
      rw [e1, e2] at h1
      simp only [List.length_singleton] at h1
      simp only [if_true, h1, py_bind_ok, py_pure]
    · intro i hi
      cases i with
      | zero => simp [ewMean]
      | succ i =>
        rw [List.getElem?_cons_succ, h3 i (by simpa using hi)]
        rfl

theorem fastEwma_last (l : List K) (span : ℕ) (hs : 1 ≤ span) (hl : l ≠ []) :
    (fastEwma l span true >>= pyLast) = .ok (ewMean (decay K span) l) := by
  obtain ⟨r, h1, h2, h3⟩ := fastEwma_adj l span hs
  have hpos : 0 < l.length := List.length_pos_iff.2 hl
  rw [h1, py_bind_ok, pyLast_eq_ok_iff, List.getLast?_eq_getElem?, h2, h3 _ (by omega)]
  rw [show l.length - 1 + 1 = l.length by omega, List.take_length]

theorem ewNum_bounds (q : K) (hq : 0 ≤ q) (l : List K) (lo hi : K) (h : ∀ x ∈ l, lo ≤ x ∧ x ≤ hi) :
    lo * ewDen q l.length ≤ ewNum q l ∧ ewNum q l ≤ hi * ewDen q l.length := by
  unfold ewNum ewDen
  rw [Finset.mul_sum, Finset.mul_sum]
  constructor
  · apply Finset.sum_le_sum
    intro k hk
    rw [Finset.mem_range] at hk
    rw [mul_comm]
    apply mul_le_mul_of_nonneg_left _ (pow_nonneg hq k)
    have hlt : l.length - 1 - k < l.length := by omega
    rw [List.getD_eq_getElem _ _ hlt]
    exact (h _ (List.getElem_mem _)).1
  · apply Finset.sum_le_sum
    intro k hk
    rw [Finset.mem_range] at hk
    rw [mul_comm hi]
    apply mul_le_mul_of_nonneg_left _ (pow_nonneg hq k)
    have hlt : l.length - 1 - k < l.length := by omega
    rw [List.getD_eq_getElem _ _ hlt]
    exact (h _ (List.getElem_mem _)).2

theorem ewMean_bounds (q : K) (hq : 0 ≤ q) (l : List K) (hl : l ≠ []) (lo hi : K)
    (h : ∀ x ∈ l, lo ≤ x ∧ x ≤ hi) : lo ≤ ewMean q l ∧ ewMean q l ≤ hi := by
  have hpos := ewDen_pos q hq l.length (List.length_pos_iff.2 hl)
  obtain ⟨h1, h2⟩ := ewNum_bounds q hq l lo hi h
  exact ⟨(le_div_iff₀ hpos).2 h1, (div_le_iff₀ hpos).2 h2⟩

end FinML.Bars
