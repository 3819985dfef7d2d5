import Verif.Metrics.SharpeProps
import Mathlib.Topology.Algebra.Order.Field
import Mathlib.Analysis.SpecialFunctions.Sqrt

/-! # Property C311: raising a return -/

namespace FinML.Metrics

open Filter Topology

/-- C311, the full claim: if one return is raised the Sharpe ratio rises. -/
def RaisesRatio : Prop :=
  ∀ (a b : List ℝ) (x y s t : ℝ), x < y → sharpe (a ++ x :: b) = some s → sharpe (a ++ y :: b) = some t → s < t

theorem moment_two_eq (l : List ℝ) : moment 2 l = npAvg (l.map fun x => x ^ 2) - npAvg l ^ 2 := by
  by_cases hl : l = []
  · subst hl
    simp [moment, npAvg]
  have hn : (l.length : ℝ) ≠ 0 := by exact_mod_cast (List.length_pos_iff.2 hl).ne'
  have e : (fun x : ℝ => (x - npAvg l) ^ 2) = fun x => x ^ 2 + ((-2 * npAvg l) * x + npAvg l ^ 2) := by
    funext x
    ring
  unfold moment
  rw [e, avg_add l (fun x => x ^ 2), npAvg_map_affine l hl]
  ring

theorem sharpe_eq (l : List ℝ) (s : ℝ) (h : sharpe l = some s) : 0 < npStd l ∧ s = npAvg l / npStd l := by
  unfold sharpe fdiv at h
  split at h
  · cases h
  next hne =>
  cases h
  exact ⟨lt_of_le_of_ne (Real.sqrt_nonneg _) (Ne.symm hne), rfl⟩

theorem sum_insert (a b : List ℝ) (x : ℝ) : (a ++ x :: b).sum = (a ++ b).sum + x := by
  rw [List.sum_append, List.sum_cons, List.sum_append]
  ring

theorem avg_insert (a b : List ℝ) (x : ℝ) : npAvg (a ++ x :: b) = ((a ++ b).sum + x) / ((a ++ b).length + 1) := by
  unfold npAvg
  rw [sum_insert]
  simp only [List.length_append, List.length_cons]
  push_cast
  ring

theorem moment_insert (a b : List ℝ) (x : ℝ) : moment 2 (a ++ x :: b) =
    (((a ++ b).map fun z => z ^ 2).sum + x ^ 2) / ((a ++ b).length + 1) - (((a ++ b).sum + x) / ((a ++ b).length + 1)) ^ 2 := by
  rw [moment_two_eq, avg_insert, List.map_append, List.map_cons, avg_insert, ← List.map_append, List.length_map]

/-- C311 for a return that stays below the mean, where the mean is not negative. -/
theorem C311_raise_partial (a b : List ℝ) (x y s t : ℝ) (hxy : x < y) (hy : y ≤ npAvg (a ++ y :: b))
    (h0 : 0 ≤ npAvg (a ++ y :: b)) (hs : sharpe (a ++ x :: b) = some s) (ht : sharpe (a ++ y :: b) = some t) : s < t := by
  obtain ⟨hsd, rfl⟩ := sharpe_eq _ _ hs
  obtain ⟨htd, rfl⟩ := sharpe_eq _ _ ht
  have hn : (0 : ℝ) < ((a ++ b).length : ℝ) + 1 := by positivity
  have havg : npAvg (a ++ x :: b) < npAvg (a ++ y :: b) := by
    rw [avg_insert, avg_insert]
    exact div_lt_div_of_pos_right (by linarith) hn
  have hvar : moment 2 (a ++ y :: b) ≤ moment 2 (a ++ x :: b) := by
    rw [moment_insert, moment_insert]
    rw [avg_insert] at hy
    set n : ℝ := ((a ++ b).length : ℝ) + 1
    set S := (a ++ b).sum
    set Q := ((a ++ b).map fun z => z ^ 2).sum
    have hn1 : 1 ≤ n := by
      have : (0 : ℝ) ≤ ((a ++ b).length : ℝ) := by positivity
      show (1 : ℝ) ≤ ((a ++ b).length : ℝ) + 1
      linarith
    have hy' : y * n ≤ S + y := (le_div_iff₀ hn).1 hy
    have key : (Q + x ^ 2) / n - ((S + x) / n) ^ 2 - ((Q + y ^ 2) / n - ((S + y) / n) ^ 2) =
        (y - x) * (((S + x) - x * n) + ((S + y) - y * n)) / n ^ 2 := by
      field_simp
      ring
    have h1 : 0 ≤ (S + x) - x * n := by nlinarith
    have : 0 ≤ (y - x) * (((S + x) - x * n) + ((S + y) - y * n)) / n ^ 2 :=
      div_nonneg (mul_nonneg (by linarith) (by linarith)) (by positivity)
    linarith
  have hstd : npStd (a ++ y :: b) ≤ npStd (a ++ x :: b) := Real.sqrt_le_sqrt hvar
  calc npAvg (a ++ x :: b) / npStd (a ++ x :: b) < npAvg (a ++ y :: b) / npStd (a ++ x :: b) :=
        div_lt_div_of_pos_right havg hsd
    _ ≤ npAvg (a ++ y :: b) / npStd (a ++ y :: b) := div_le_div_of_nonneg_left h0 htd hstd

/-- C311, the full claim does not hold: 1 and 2 have the ratio 3, 1 and 3 the ratio 2. -/
theorem C311_raise_counterexample : ¬ RaisesRatio := by
  intro h
  have h1 : sharpe ([1] ++ 2 :: []) = some 3 := by
    have hv : npStd ([1] ++ 2 :: []) = 1 / 2 := by
      have hm : moment 2 ([1] ++ 2 :: []) = (1 / 2) ^ 2 := by
        rw [moment_two_eq]
        norm_num [npAvg]
      unfold npStd
      rw [hm, Real.sqrt_sq (by norm_num)]
    unfold sharpe fdiv
    rw [hv]
    norm_num [npAvg]
  have h2 : sharpe ([1] ++ 3 :: []) = some 2 := by
    have hv : npStd ([1] ++ 3 :: []) = 1 := by
      have hm : moment 2 ([1] ++ 3 :: []) = 1 := by
        rw [moment_two_eq]
        norm_num [npAvg]
      unfold npStd
      rw [hm, Real.sqrt_one]
    unfold sharpe fdiv
    rw [hv]
    norm_num [npAvg]
  have := h [1] [] 2 3 3 2 (by norm_num) h1 h2
  norm_num at this

/-- C311: as one of `n + 1` returns grows without bound the ratio tends to `1/√n`, whatever the others are. -/
theorem C311_outlier (a b : List ℝ) (hne : a ++ b ≠ []) :
    Tendsto (fun x : ℝ => (sharpe (a ++ x :: b)).getD 0) atTop (𝓝 (1 / √((a ++ b).length : ℝ))) := by
  set n : ℝ := ((a ++ b).length : ℝ) with hn
  have hn0 : 0 < n := by
    rw [hn]
    exact_mod_cast List.length_pos_iff.2 hne
  set S := (a ++ b).sum with hS
  set Q := ((a ++ b).map fun z => z ^ 2).sum with hQ
  have hlim : Tendsto (fun x : ℝ => ((S * x⁻¹ + 1) / (n + 1)) /
      √((Q * x⁻¹ ^ 2 + 1) / (n + 1) - ((S * x⁻¹ + 1) / (n + 1)) ^ 2)) atTop (𝓝 (1 / √n)) := by
    have hi : Tendsto (fun x : ℝ => x⁻¹) atTop (𝓝 0) := tendsto_inv_atTop_zero
    have h1 : Tendsto (fun x : ℝ => (S * x⁻¹ + 1) / (n + 1)) atTop (𝓝 ((S * 0 + 1) / (n + 1))) :=
      ((hi.const_mul S).add_const 1).div_const _
    have h2 : Tendsto (fun x : ℝ => (Q * x⁻¹ ^ 2 + 1) / (n + 1)) atTop (𝓝 ((Q * 0 ^ 2 + 1) / (n + 1))) :=
      (((hi.pow 2).const_mul Q).add_const 1).div_const _
    have h3 := (h2.sub (h1.pow 2)).sqrt
    have hval : (Q * 0 ^ 2 + 1) / (n + 1) - ((S * 0 + 1) / (n + 1)) ^ 2 = n / (n + 1) ^ 2 := by
      field_simp
      ring
    rw [hval, Real.sqrt_div hn0.le, Real.sqrt_sq (by linarith)] at h3
    have h4 := h1.div h3 (by positivity)
    have hv2 : (S * 0 + 1) / (n + 1) / (√n / (n + 1)) = 1 / √n := by
      have := Real.sqrt_pos.2 hn0
      field_simp
      ring
    rwa [hv2] at h4
  refine hlim.congr' ?_
  filter_upwards [eventually_gt_atTop 0] with x hx
  have hm : npAvg (a ++ x :: b) = x * ((S * x⁻¹ + 1) / (n + 1)) := by
    rw [avg_insert]
    field_simp
    ring
  have hv : npStd (a ++ x :: b) = x * √((Q * x⁻¹ ^ 2 + 1) / (n + 1) - ((S * x⁻¹ + 1) / (n + 1)) ^ 2) := by
    unfold npStd
    rw [moment_insert]
    have : (Q + x ^ 2) / (n + 1) - ((S + x) / (n + 1)) ^ 2 =
        x ^ 2 * ((Q * x⁻¹ ^ 2 + 1) / (n + 1) - ((S * x⁻¹ + 1) / (n + 1)) ^ 2) := by
      field_simp
    rw [← hS, ← hQ, ← hn, this, Real.sqrt_mul (sq_nonneg x), Real.sqrt_sq hx.le]
  unfold sharpe fdiv
  by_cases h0 : √((Q * x⁻¹ ^ 2 + 1) / (n + 1) - ((S * x⁻¹ + 1) / (n + 1)) ^ 2) = 0
  · rw [if_pos (by rw [hv, h0, mul_zero]), h0, div_zero]
    rfl
  · rw [if_neg (by rw [hv]; exact mul_ne_zero hx.ne' h0), Option.getD_some, hm, hv, mul_div_mul_left _ _ hx.ne']

/-- Returns that meet the hypotheses of the partial theorem: the loss among -1, 2, 2 is reduced to 0. -/
example : (-1 : ℝ) < 0 ∧ (0 : ℝ) ≤ npAvg ([] ++ 0 :: [2, 2]) := by
  norm_num [npAvg]

end FinML.Metrics
