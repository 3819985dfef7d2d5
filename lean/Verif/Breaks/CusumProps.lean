import Verif.Breaks.Model
import Verif.Options.BsmLemmas
import Verif.Py.Lemmas
import Mathlib.Data.List.GetD
import Mathlib.Algebra.BigOperators.Ring.Finset
import Mathlib.Algebra.Order.BigOperators.Group.Finset

/-!
# Properties C118 and C148
-/

namespace FinML.Breaks

open FinML.Options Finset

/-! ## Specification -/

/-- The mean squared change of `y` up to time `t`. -/
noncomputable def meanSqChange (y : List ℝ) (t : ℕ) : ℝ :=
  (∑ i ∈ range t, (y.getD (i + 1) 0 - y.getD i 0) ^ 2) / t

/-! ## Lemmas -/

theorem npDiff_length {K : Type} [Sub K] (l : List K) : (npDiff l).length = l.length - 1 := by
  simp [npDiff]

theorem npDiff_getElem? {K : Type} [AddGroup K] (l : List K) (i : ℕ) (h : i + 1 < l.length) :
    (npDiff l)[i]? = some (l.getD (i + 1) 0 - l.getD i 0) := by
  unfold npDiff
  rw [List.getElem?_zipWith, List.getElem?_tail, List.getElem?_eq_getElem h,
    List.getElem?_eq_getElem (by omega : i < l.length), List.getD_eq_getElem _ _ h,
    List.getD_eq_getElem _ _ (by omega)]

theorem take_sum (l : List ℝ) (n : ℕ) (h : n ≤ l.length) : (l.take n).sum = ∑ i ∈ range n, l.getD i 0 := by
  induction n with
  | zero => simp
  | succ n ih =>
    rw [Finset.sum_range_succ, ← ih (by omega), List.take_add_one, List.sum_append,
      List.getElem?_eq_getElem (by omega : n < l.length), List.getD_eq_getElem _ _ (by omega)]
    simp

theorem levelSigma_length (y : List ℝ) : (levelSigma y).length = y.length - 1 := by
  simp [levelSigma, npCumsum, npDiff_length]

theorem levelSigma_getElem? (y : List ℝ) (i : ℕ) (h : i + 1 < y.length) :
    (levelSigma y)[i]? = some (√(meanSqChange y (i + 1))) := by
  unfold levelSigma npCumsum
  rw [List.getElem?_mapIdx, List.getElem?_map, List.getElem?_range (by simp [npDiff_length]; omega)]
  simp only [Option.map_some, Option.some.injEq]
  rw [take_sum _ _ (by simp [npDiff_length]; omega), meanSqChange]
  have hs : ∑ x ∈ range (i + 1), ((npDiff y).map fun d => d ^ 2).getD x 0 =
      ∑ x ∈ range (i + 1), (y.getD (x + 1) 0 - y.getD x 0) ^ 2 := by
    refine Finset.sum_congr rfl fun x hx => ?_
    rw [Finset.mem_range] at hx
    rw [List.getD_eq_getElem?_getD, List.getElem?_map, npDiff_getElem? _ _ (by omega)]
    rfl
  rw [hs]
  congr 1
  push_cast
  rw [show (i : ℝ) + 2 - 1 = i + 1 by ring, one_div, inv_mul_eq_div]

/-- The statistic `j` steps after the first time after `n`. -/
theorem levelStats_eq (y : List ℝ) (n : ℕ) (yn : ℝ) :
    levelStats y n yn = (List.range (y.length - n - 1)).map fun j =>
      FExt.div (.fin (y.getD (n + 1 + j) 0 - yn)) (√(meanSqChange y (n + 1 + j)) * √((j : ℝ) + 1)) := by
  unfold levelStats
  apply List.ext_getElem?
  intro j
  rw [List.getElem?_mapIdx, List.getElem?_map]
  by_cases hj : j < y.length - n - 1
  · rw [List.getElem?_range hj]
    have h1 : (y.drop (n + 1))[j]? = some (y.getD (n + 1 + j) 0) := by
      rw [List.getElem?_drop, List.getElem?_eq_getElem (by omega), List.getD_eq_getElem _ _ (by omega)]
    have h2 : ((levelSigma y).drop n)[j]? = some (√(meanSqChange y (n + 1 + j))) := by
      rw [List.getElem?_drop, levelSigma_getElem? _ _ (by omega), show n + j + 1 = n + 1 + j by omega]
    rw [List.zip, List.getElem?_zipWith, h1, h2]
    simp only [Option.map_some, Option.some.injEq]
    rw [show (n : ℝ) + j + 2 - (n + 1) = j + 1 by ring]
  · rw [List.getElem?_eq_none (by simp [levelSigma_length]; omega), List.getElem?_eq_none (by simp; omega)]
    rfl

theorem levels_ok (y : List ℝ) (n : ℕ) (h2 : 2 ≤ y.length) (hn : n < y.length) :
    levelsCusumStats y n = .ok (some (levelStats y n (y.getD n 0), (levelStats y n (y.getD n 0)).map pvalue)) := by
  unfold levelsCusumStats
  rw [if_neg (by omega), pyGet, List.getElem?_eq_getElem hn, List.getD_eq_getElem _ _ hn]
  rfl

theorem meanSqChange_nonneg (y : List ℝ) (t : ℕ) : 0 ≤ meanSqChange y t :=
  div_nonneg (Finset.sum_nonneg fun _ _ => sq_nonneg _) (Nat.cast_nonneg _)

/-- Without changes up to `t` the value has not moved. -/
theorem const_of_meanSq {y : List ℝ} {t : ℕ} (h : meanSqChange y t = 0) {i : ℕ} (hi : i ≤ t) :
    y.getD i 0 = y.getD 0 0 := by
  rcases Nat.eq_zero_or_pos t with rfl | ht
  · rw [Nat.le_zero.1 hi]
  have hs : ∑ i ∈ range t, (y.getD (i + 1) 0 - y.getD i 0) ^ 2 = 0 := by
    unfold meanSqChange at h
    rcases div_eq_zero_iff.1 h with h | h
    · exact h
    · exact absurd h (by positivity)
  rw [Finset.sum_eq_zero_iff_of_nonneg fun _ _ => sq_nonneg _] at hs
  induction i with
  | zero => rfl
  | succ i ih =>
    have := hs i (Finset.mem_range.2 (by omega))
    have := pow_eq_zero_iff (two_ne_zero) |>.1 this
    rw [← ih (by omega)]
    linarith

/-! ## C118 -/

/-- C118. There are `T - n - 1` statistics, one for each time `t` after `n`: the change since `n` over the
root of the mean squared change up to `t` and the root of `t - n`; NaN exactly if nothing changed up
to `t`.  The p-values belong to them. -/
theorem C118_formula (y : List ℝ) (n : ℕ) (h2 : 2 ≤ y.length) (hn : n < y.length) :
    ∃ res pv, levelsCusumStats y n = .ok (some (res, pv)) ∧ res.length + n + 1 = y.length ∧
      pv = res.map pvalue ∧
      ∀ t, n < t → t < y.length →
        (meanSqChange y t ≠ 0 → res[t - n - 1]? = some (.fin ((y.getD t 0 - y.getD n 0) /
          (√(meanSqChange y t) * √((t : ℝ) - n))))) ∧
        (meanSqChange y t = 0 → res[t - n - 1]? = some .nan) := by
  refine ⟨_, _, levels_ok y n h2 hn, ?_, rfl, ?_⟩
  · rw [levelStats_eq]
    simp
    omega
  · intro t h1 h3
    rw [levelStats_eq, List.getElem?_map, List.getElem?_range (by omega)]
    obtain ⟨j, rfl⟩ : ∃ j, t = n + 1 + j := ⟨t - n - 1, by omega⟩
    rw [show n + 1 + j - n - 1 = j by omega]
    simp only [Option.map_some, Option.some.injEq]
    have hj : 0 < √((j : ℝ) + 1) := Real.sqrt_pos.2 (by positivity)
    constructor
    · intro hm
      have hm' : 0 < √(meanSqChange y (n + 1 + j)) :=
        Real.sqrt_pos.2 (lt_of_le_of_ne (meanSqChange_nonneg _ _) (Ne.symm hm))
      simp only [FExt.div]
      rw [if_neg (mul_pos hm' hj).ne', show ((n + 1 + j : ℕ) : ℝ) - n = j + 1 by push_cast; ring]
    · intro hm
      have e1 := const_of_meanSq hm (le_refl (n + 1 + j))
      have e2 := const_of_meanSq hm (show n ≤ n + 1 + j by omega)
      rw [e1, e2, hm]
      simp [FExt.div]

/-- C118. Fewer than two values give `None`, and a reference outside the series is an IndexError. -/
theorem C118_edge (y : List ℝ) (n : ℕ) :
    (y.length < 2 → levelsCusumStats y n = .ok none) ∧
    (2 ≤ y.length → y.length ≤ n → levelsCusumStats y n = .error .indexError) := by
  unfold levelsCusumStats
  constructor
  · intro h
    rw [if_pos h]
  · intro h h'
    rw [if_neg (by omega), pyGet, List.getElem?_eq_none h']
    rfl

theorem getD_map_affine (y : List ℝ) (c d : ℝ) (i : ℕ) (h : i < y.length) :
    (y.map fun v => c * v + d).getD i 0 = c * y.getD i 0 + d := by
  rw [List.getD_eq_getElem _ _ (by simpa using h), List.getElem_map, List.getD_eq_getElem _ _ h]

theorem meanSqChange_affine (y : List ℝ) (c d : ℝ) (t : ℕ) (h : t < y.length) :
    meanSqChange (y.map fun v => c * v + d) t = c ^ 2 * meanSqChange y t := by
  unfold meanSqChange
  rw [← mul_div_assoc, Finset.mul_sum]
  congr 1
  refine Finset.sum_congr rfl fun i hi => ?_
  rw [Finset.mem_range] at hi
  rw [getD_map_affine _ _ _ _ (by omega), getD_map_affine _ _ _ _ (by omega)]
  ring

theorem affine_stat (y : List ℝ) (c d : ℝ) (n : ℕ) (hn : n < y.length) :
    levelStats (y.map fun v => c * v + d) n ((y.map fun v => c * v + d).getD n 0) =
      (List.range (y.length - n - 1)).map fun j =>
        FExt.div (.fin (c * (y.getD (n + 1 + j) 0 - y.getD n 0)))
          (|c| * (√(meanSqChange y (n + 1 + j)) * √((j : ℝ) + 1))) := by
  rw [levelStats_eq, List.length_map]
  apply List.map_congr_left
  intro j hj
  rw [List.mem_range] at hj
  rw [getD_map_affine _ _ _ _ (by omega), getD_map_affine _ _ _ _ hn, meanSqChange_affine _ _ _ _ (by omega),
    Real.sqrt_mul (sq_nonneg c), Real.sqrt_sq_eq_abs, mul_assoc]
  congr 2
  ring

/-- C118. Shifts and positive scaling do not change the result. -/
theorem C118_invariance (y : List ℝ) (n : ℕ) (c d : ℝ) (hc : 0 < c) :
    levelsCusumStats (y.map fun v => c * v + d) n = levelsCusumStats y n := by
  by_cases h2 : 2 ≤ y.length
  · by_cases hn : n < y.length
    · rw [levels_ok _ _ (by simpa using h2) (by simpa using hn), levels_ok _ _ h2 hn, affine_stat _ _ _ _ hn,
        levelStats_eq]
      have : ∀ j : ℕ, FExt.div (.fin (c * (y.getD (n + 1 + j) 0 - y.getD n 0)))
          (|c| * (√(meanSqChange y (n + 1 + j)) * √((j : ℝ) + 1))) =
          FExt.div (.fin (y.getD (n + 1 + j) 0 - y.getD n 0))
            (√(meanSqChange y (n + 1 + j)) * √((j : ℝ) + 1)) := by
        intro j
        rw [abs_of_pos hc]
        generalize y.getD (n + 1 + j) 0 - y.getD n 0 = a
        generalize √(meanSqChange y (n + 1 + j)) * √((j : ℝ) + 1) = b
        simp only [FExt.div, mul_eq_zero, hc.ne', false_or, mul_pos_iff_of_pos_left hc]
        rw [mul_div_mul_left _ _ hc.ne']
        have hlt : c * a < 0 ↔ a < 0 := by
          constructor
          · intro h
            by_contra ha
            exact absurd h (not_lt.2 (mul_nonneg hc.le (not_lt.1 ha)))
          · intro h
            exact mul_neg_of_pos_of_neg hc h
        simp only [hlt]
      simp only [this]
    · rw [(C118_edge _ n).2 (by simpa using h2) (by simpa using hn), (C118_edge y n).2 h2 (by omega)]
  · rw [(C118_edge _ n).1 (by simpa using h2), (C118_edge y n).1 (by omega)]

theorem pvalue_neg (e : FExt) : pvalue e.neg = pvalue e := by
  unfold pvalue
  rw [FExt.neg_cdf]
  cases e.cdf with
  | none => rfl
  | some p => simp [min_comm]

/-- C118. Negating the series negates the statistics and keeps the p-values. -/
theorem C118_negation (y : List ℝ) (n : ℕ) (h2 : 2 ≤ y.length) (hn : n < y.length) (res : List FExt)
    (pv : List (Option ℝ)) (h : levelsCusumStats y n = .ok (some (res, pv))) :
    levelsCusumStats (y.map fun v => -v) n = .ok (some (res.map FExt.neg, pv)) := by
  rw [levels_ok _ _ h2 hn] at h
  cases h
  have e : (y.map fun v => -v) = y.map fun v => -1 * v + 0 := by
    apply List.map_congr_left
    intro v _
    ring
  rw [e, levels_ok _ _ (by simpa using h2) (by simpa using hn), affine_stat _ _ _ _ hn]
  have hs : ((List.range (y.length - n - 1)).map fun j : ℕ =>
        FExt.div (.fin (-1 * (y.getD (n + 1 + j) 0 - y.getD n 0)))
          (|(-1 : ℝ)| * (√(meanSqChange y (n + 1 + j)) * √((j : ℝ) + 1)))) =
      (levelStats y n (y.getD n 0)).map FExt.neg := by
    rw [levelStats_eq, List.map_map]
    apply List.map_congr_left
    intro j _
    rw [abs_neg, abs_one, one_mul, Function.comp_apply]
    generalize y.getD (n + 1 + j) 0 - y.getD n 0 = a
    generalize √(meanSqChange y (n + 1 + j)) * √((j : ℝ) + 1) = b
    simp only [FExt.div]
    by_cases hb : b = 0
    · rw [if_pos hb, if_pos hb]
      rcases lt_trichotomy a 0 with ha | ha | ha
      · rw [if_pos (by linarith), if_neg (by linarith), if_pos ha]; rfl
      · rw [if_neg (by linarith), if_neg (by linarith), if_neg (by linarith), if_neg (by linarith)]; rfl
      · rw [if_neg (by linarith), if_pos (by linarith), if_pos ha]; rfl
    · rw [if_neg hb, if_neg hb]
      simp only [FExt.neg, FExt.fin.injEq]
      ring
  rw [hs, List.map_map]
  simp only [Function.comp_def, pvalue_neg]

theorem pvalue_range (e : FExt) (p : ℝ) (h : pvalue e = some p) : 0 ≤ p ∧ p ≤ 1 / 2 := by
  unfold pvalue at h
  rw [Option.map_eq_some_iff] at h
  obtain ⟨q, hq, rfl⟩ := h
  have hq01 : 0 ≤ q ∧ q ≤ 1 := by
    cases e with
    | fin x =>
      simp only [FExt.cdf, Option.some.injEq] at hq
      rw [← hq]
      exact ⟨normCdf_nonneg _, (normCdf_lt_one _).le⟩
    | posInf => simp only [FExt.cdf, Option.some.injEq] at hq; rw [← hq]; norm_num
    | negInf => simp only [FExt.cdf, Option.some.injEq] at hq; rw [← hq]; norm_num
    | nan => cases hq
  refine ⟨le_min hq01.1 (by linarith), ?_⟩
  rcases le_total q (1 / 2) with h | h
  · exact (min_le_left _ _).trans h
  · exact (min_le_right _ _).trans (by linarith)

/-- The p-value of a number is the normal probability of falling below minus its size. -/
theorem pvalue_fin (x : ℝ) : pvalue (.fin x) = some (normCdf (-|x|)) := by
  unfold pvalue
  simp only [FExt.cdf, Option.map_some, Option.some.injEq]
  rw [← normCdf_neg]
  rcases le_total 0 x with h | h
  · rw [abs_of_nonneg h, min_eq_right (normCdf_strictMono.monotone (by linarith))]
  · rw [abs_of_nonpos h, neg_neg, min_eq_left (normCdf_strictMono.monotone (by linarith))]

/-- C118. The p-values are in `[0, 1/2]`; that of a statistic `x` is `Φ(-|x|)`, and it is NaN exactly for a
NaN statistic. -/
theorem C118_pvalues (y : List ℝ) (n : ℕ) (res : List FExt) (pv : List (Option ℝ))
    (h : levelsCusumStats y n = .ok (some (res, pv))) :
    (∀ p, some p ∈ pv → 0 ≤ p ∧ p ≤ 1 / 2) ∧
    (∀ (j : ℕ) x, res[j]? = some (.fin x) → pv[j]? = some (some (normCdf (-|x|)))) ∧
    (∀ j : ℕ, pv[j]? = some none ↔ res[j]? = some .nan) := by
  have hpv : pv = res.map pvalue := by
    unfold levelsCusumStats at h
    split_ifs at h
    · cases h
    · rw [py_bind_eq_ok] at h
      obtain ⟨yn, -, h⟩ := h
      cases h
      rfl
  subst hpv
  refine ⟨?_, ?_, ?_⟩
  · intro p hp
    obtain ⟨e, -, he⟩ := List.mem_map.1 hp
    exact pvalue_range e p he
  · intro j x hx
    rw [List.getElem?_map, hx, Option.map_some, pvalue_fin]
  · intro j
    rw [List.getElem?_map]
    cases res[j]? with
    | none => simp
    | some e => cases e <;> simp [pvalue, FExt.cdf]

/-- A series with a jump. -/
example : ∃ pv, levelsCusumStats [0, 1, 3] 1 = .ok (some ([.fin (2 / √(5 / 2))], pv)) := by
  obtain ⟨res, pv, h1, h2, -, h4⟩ := C118_formula [0, 1, 3] 1 (by simp) (by simp)
  have hm : meanSqChange [0, 1, 3] 2 = 5 / 2 := by
    unfold meanSqChange
    norm_num [Finset.sum_range_succ]
  have := (h4 2 (by norm_num) (by simp)).1 (by rw [hm]; norm_num)
  rw [hm] at this
  norm_num at this
  refine ⟨pv, ?_⟩
  rw [h1]
  match res, h2 with
  | [a], _ =>
    simp only [List.getElem?_cons_zero, Option.some.injEq] at this
    rw [this, Real.sqrt_div (by norm_num)]

/-! ## C148: the test on recursive residuals -/

/-- C148, the full claim, from the docstring: the statistic at time `t` (the `j`-th, `t = k + 1 + j`) is
compared with a normal variable of variance `t - k - 1 = j`. -/
def RecursiveNull : Prop :=
  ∀ (cusum : List ℝ) (T k j : ℕ) (s : ℝ), cusum.length + k = T → cusum[j]? = some s → 0 < j →
    (recursivePvalues cusum T k)[j]? = some (some (normCdf (-|s / √(j : ℝ)|)))

theorem recursive_getElem? (cusum : List ℝ) (T k j : ℕ) (s : ℝ) (hT : k + 1 < T) (hj : cusum[j]? = some s) :
    (recursivePvalues cusum T k)[j]? = some (some (normCdf (-|s / √((T : ℝ) - k - 1)|))) := by
  unfold recursivePvalues
  rw [List.getElem?_map, hj, Option.map_some, if_neg (by omega), pvalue_fin]

/-- C148. Every statistic is compared with the variance of the last one. -/
theorem C148_null_counterexample : ¬ RecursiveNull := by
  intro h
  have h1 := h [0, 1, 1] 4 1 1 1 rfl rfl one_pos
  rw [recursive_getElem? _ _ _ _ 1 (by norm_num) rfl] at h1
  simp only [Option.some.injEq] at h1
  have h2 := normCdf_strictMono.injective h1
  norm_num at h2
  have h3 : √2 = 1 := by rw [← h2]; rw [abs_of_nonneg (Real.sqrt_nonneg _)]
  have h4 := Real.sq_sqrt (show (0 : ℝ) ≤ 2 by norm_num)
  rw [h3] at h4
  norm_num at h4

/-- C148, what holds: the last statistic is compared with its own variance, the p-values are in `(0, 1/2]`,
and every earlier one is at least the documented one.

Missing: the documented variance before the last time (refuted by `C148_null_counterexample`). -/
theorem C148_null_partial (cusum : List ℝ) (T k j : ℕ) (s : ℝ) (hT : cusum.length + k = T)
    (hj : cusum[j]? = some s) (hj0 : 0 < j) :
    ∃ p, (recursivePvalues cusum T k)[j]? = some (some p) ∧ 0 < p ∧ p ≤ 1 / 2 ∧
      normCdf (-|s / √(j : ℝ)|) ≤ p ∧ (j + 1 = cusum.length → p = normCdf (-|s / √(j : ℝ)|)) := by
  have hjl := (List.getElem?_eq_some_iff.1 hj).1
  refine ⟨_, recursive_getElem? cusum T k j s (by omega) hj, normCdf_pos _, ?_, ?_, ?_⟩
  · rw [← normCdf_zero]
    exact normCdf_strictMono.monotone (by simp)
  · apply normCdf_strictMono.monotone
    rw [neg_le_neg_iff, abs_div, abs_div, abs_of_nonneg (Real.sqrt_nonneg _), abs_of_nonneg (Real.sqrt_nonneg _)]
    have hj' : (0 : ℝ) < j := by exact_mod_cast hj0
    apply div_le_div_of_nonneg_left (abs_nonneg _) (Real.sqrt_pos.2 hj')
    apply Real.sqrt_le_sqrt
    rw [← hT]
    push_cast
    have : (j : ℝ) + 1 ≤ cusum.length := by exact_mod_cast hjl
    linarith
  · intro h
    have : (T : ℝ) - k - 1 = j := by
      rw [← hT, ← h]
      push_cast
      ring
    rw [this]

/-- The hypotheses can be met. -/
example : ∃ p, (recursivePvalues [0, 1, 1] 4 1)[2]? = some (some p) ∧ p = normCdf (-|1 / √2|) := by
  obtain ⟨p, h1, -, -, -, h2⟩ := C148_null_partial [0, 1, 1] 4 1 2 1 rfl rfl (by norm_num)
  exact ⟨p, h1, by simpa using h2 rfl⟩

end FinML.Breaks
