import Verif.Breaks.CusumProps
import Mathlib.Algebra.Order.Chebyshev

/-!
# C241: how large the level CUSUM statistic can be
-/

namespace FinML.Breaks

open Finset
open FinML.Options (FExt)

theorem level_sum (y : List ℝ) (n k : ℕ) :
    y.getD (n + k) 0 - y.getD n 0 = ∑ i ∈ range k, (y.getD (n + i + 1) 0 - y.getD (n + i) 0) := by
  induction k with
  | zero => simp
  | succ k ih =>
    rw [sum_range_succ, ← ih]
    rw [show n + (k + 1) = n + k + 1 by omega]
    ring

theorem level_sq (y : List ℝ) (n k : ℕ) (hk : 0 < k) :
    (y.getD (n + k) 0 - y.getD n 0) ^ 2 ≤ k * ((n + k : ℕ) * meanSqChange y (n + k)) := by
  have h1 : (y.getD (n + k) 0 - y.getD n 0) ^ 2 ≤
      k * ∑ i ∈ range k, (y.getD (n + i + 1) 0 - y.getD (n + i) 0) ^ 2 := by
    rw [level_sum]
    have := sq_sum_le_card_mul_sum_sq (s := range k)
      (f := fun i => y.getD (n + i + 1) 0 - y.getD (n + i) 0)
    simpa using this
  have h2 : ((n + k : ℕ) : ℝ) * meanSqChange y (n + k) =
      ∑ i ∈ range (n + k), (y.getD (i + 1) 0 - y.getD i 0) ^ 2 := by
    unfold meanSqChange
    have : ((n + k : ℕ) : ℝ) ≠ 0 := by positivity
    field_simp
  rw [h2]
  refine h1.trans (mul_le_mul_of_nonneg_left ?_ (by positivity))
  rw [sum_range_add]
  have : 0 ≤ ∑ i ∈ range n, (y.getD (i + 1) 0 - y.getD i 0) ^ 2 := sum_nonneg fun i _ => sq_nonneg _
  linarith

/-- C241.  The statistic at time `t` is never larger than `√t` in size, however strong the trend; so its
p-value is at least the normal tail there. -/
theorem C241_bound (y : List ℝ) (n : ℕ) (h2 : 2 ≤ y.length) (hn : n < y.length) (res : List FExt)
    (pv : List (Option ℝ)) (h : levelsCusumStats y n = .ok (some (res, pv))) (t : ℕ) (ht : n < t)
    (ht' : t < y.length) (x : ℝ) (hx : res[t - n - 1]? = some (.fin x)) :
    |x| ≤ √t ∧ ∃ p, pv[t - n - 1]? = some (some p) ∧ normCdf (-√t) ≤ p := by
  have hb : |x| ≤ √t := by
    obtain ⟨r, v, h3, -, -, h4⟩ := C118_formula y n h2 hn
    rw [h3] at h
    cases h
    obtain ⟨h5, h6⟩ := h4 t ht ht'
    obtain ⟨k, rfl⟩ : ∃ k, t = n + k := ⟨t - n, by omega⟩
    have hk : 0 < k := by omega
    by_cases h0 : meanSqChange y (n + k) = 0
    · rw [h6 h0] at hx; cases hx
    · rw [h5 h0] at hx
      simp only [Option.some.injEq, FExt.fin.injEq] at hx
      have hm : 0 < meanSqChange y (n + k) := by
        refine lt_of_le_of_ne ?_ (Ne.symm h0)
        unfold meanSqChange
        exact div_nonneg (sum_nonneg fun i _ => sq_nonneg _) (by positivity)
      have hkk : (((n + k : ℕ) : ℝ) - n) = k := by push_cast; ring
      rw [hkk] at hx
      have hkp : (0 : ℝ) < k := by exact_mod_cast hk
      rw [← hx]
      apply Real.abs_le_sqrt
      rw [div_pow, mul_pow, Real.sq_sqrt hm.le, Real.sq_sqrt hkp.le, div_le_iff₀ (by positivity)]
      have := level_sq y n k hk
      nlinarith
  refine ⟨hb, normCdf (-|x|), (C118_pvalues y n res pv h).2.1 _ x hx, ?_⟩
  exact normCdf_strictMono.monotone (by linarith)

/-- C241.  The bound is reached: on a straight line with non-zero slope the statistic from the first value on is
`√t` (with the sign of the slope). -/
theorem C241_reached (a b : ℝ) (hb : b ≠ 0) (m t : ℕ) (ht : 0 < t) (htm : t < m) (res : List FExt)
    (pv : List (Option ℝ))
    (h : levelsCusumStats ((List.range m).map fun i : ℕ => a + b * (i : ℝ)) 0 = .ok (some (res, pv))) :
    res[t - 1]? = some (.fin (b / |b| * √t)) := by
  obtain ⟨r, v, h3, -, -, h4⟩ := C118_formula ((List.range m).map fun i : ℕ => a + b * (i : ℝ)) 0
    (by simp; omega) (by simp; omega)
  rw [h3] at h
  cases h
  obtain ⟨h5, -⟩ := h4 t ht (by simpa using htm)
  have hget : ∀ i, i < m → ((List.range m).map fun i : ℕ => a + b * (i : ℝ)).getD i 0 = a + b * i := by
    intro i hi
    rw [List.getD_eq_getElem _ _ (by simpa using hi)]
    simp
  have htp : (0 : ℝ) < t := by exact_mod_cast ht
  have hms : meanSqChange ((List.range m).map fun i : ℕ => a + b * (i : ℝ)) t = b ^ 2 := by
    unfold meanSqChange
    rw [sum_congr rfl (g := fun _ => b ^ 2)]
    · rw [sum_const, card_range, nsmul_eq_mul]
      field_simp
    · intro i hi
      rw [mem_range] at hi
      rw [hget _ (by omega), hget _ (by omega)]
      push_cast
      ring
  rw [hms] at h5
  have := h5 (by positivity)
  rw [hget t htm, hget 0 (by omega), Real.sqrt_sq_eq_abs] at this
  simp only [Nat.cast_zero, sub_zero, mul_zero, add_zero, Nat.sub_zero] at this
  rw [this]
  congr 2
  have hs : √(t : ℝ) ≠ 0 := (Real.sqrt_pos.2 htp).ne'
  have hss : √(t : ℝ) * √(t : ℝ) = t := Real.mul_self_sqrt htp.le
  have hb' : |b| ≠ 0 := abs_ne_zero.2 hb
  rw [div_eq_iff (mul_ne_zero hb' hs)]
  have e : b / |b| * |b| = b := div_mul_cancel₀ _ hb'
  linear_combination (-b) * hss - (√(t : ℝ) * √(t : ℝ)) * e

/-- A case: a series of four values. -/
example : 2 ≤ ([1, 3, 2, 5] : List ℝ).length ∧ 1 < ([1, 3, 2, 5] : List ℝ).length := by simp

end FinML.Breaks
