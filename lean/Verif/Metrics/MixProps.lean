import Verif.Metrics.RaiseProps
import Verif.Stats.Props

/-!
# Property C338: the Sharpe ratio of a mixture of two strategies

A row holds the returns of two strategies in the same period.
-/

namespace FinML.Metrics

/-- The returns of a portfolio with the amounts `a` and `b` in two strategies. -/
def mixReturns (a b : ℝ) (rows : List (ℝ × ℝ)) : List ℝ := rows.map fun p => a * p.1 + b * p.2

/-- C338, the full claim: a long-only mixture has at least the Sharpe ratio of the worse of the two strategies. -/
def NoWorseThanWorse : Prop :=
  ∀ (rows : List (ℝ × ℝ)) (a b s t u : ℝ), 0 ≤ a → 0 ≤ b → sharpe (rows.map Prod.fst) = some s →
    sharpe (rows.map Prod.snd) = some t → sharpe (mixReturns a b rows) = some u → min s t ≤ u

/-- C338, the claim is false for losing strategies: ratios of -2 and -2 give a mixture with the ratio -6, as less
variation makes the loss more certain. -/
theorem C338_mixture_counterexample : ¬ NoWorseThanWorse := by
  intro h
  have hx : sharpe [-3, -1] = some (-2) := by
    norm_num [sharpe, fdiv, npStd, moment, npAvg]
  have hy : sharpe [-1, -3] = some (-2) := by
    norm_num [sharpe, fdiv, npStd, moment, npAvg]
  have hu : sharpe (mixReturns 2 1 [(-3, -1), (-1, -3)]) = some (-6) := by
    norm_num [sharpe, fdiv, npStd, moment, npAvg, mixReturns]
  have := h [(-3, -1), (-1, -3)] 2 1 (-2) (-2) (-6) (by norm_num) (by norm_num) hx hy hu
  norm_num at this

/-- The covariance of the two strategies. -/
noncomputable def rowCov (rows : List (ℝ × ℝ)) : ℝ :=
  (rows.map fun p => (p.1 - npAvg (rows.map Prod.fst)) * (p.2 - npAvg (rows.map Prod.snd))).sum / (rows.length : ℝ)

theorem avg_mix (a b : ℝ) (rows : List (ℝ × ℝ)) :
    npAvg (mixReturns a b rows) = a * npAvg (rows.map Prod.fst) + b * npAvg (rows.map Prod.snd) := by
  unfold npAvg mixReturns
  have : (rows.map fun p => a * p.1 + b * p.2).sum = a * (rows.map Prod.fst).sum + b * (rows.map Prod.snd).sum := by
    rw [List.sum_map_add, List.sum_map_mul_left, List.sum_map_mul_left]
  rw [this]
  simp only [List.length_map]
  ring

theorem var_mix (a b : ℝ) (rows : List (ℝ × ℝ)) :
    moment 2 (mixReturns a b rows) = a ^ 2 * moment 2 (rows.map Prod.fst) + b ^ 2 * moment 2 (rows.map Prod.snd) +
      2 * a * b * rowCov rows := by
  unfold moment
  rw [avg_mix]
  set m := npAvg (rows.map Prod.fst) with hm
  set n := npAvg (rows.map Prod.snd) with hn
  have h : ((mixReturns a b rows).map fun x => (x - (a * m + b * n)) ^ 2).sum =
      a ^ 2 * ((rows.map Prod.fst).map fun x => (x - m) ^ 2).sum + b ^ 2 * ((rows.map Prod.snd).map fun x => (x - n) ^ 2).sum +
        2 * a * b * (rows.map fun p => (p.1 - m) * (p.2 - n)).sum := by
    rw [← List.sum_map_mul_left, ← List.sum_map_mul_left, ← List.sum_map_mul_left]
    simp only [mixReturns, List.map_map]
    rw [← List.sum_map_add, ← List.sum_map_add]
    congr 1
    apply List.map_congr_left
    intro p _
    simp only [Function.comp_apply]
    ring
  have hc : rowCov rows = (rows.map fun p => (p.1 - m) * (p.2 - n)).sum / (rows.length : ℝ) := rfl
  rw [hc]
  unfold npAvg
  rw [h]
  simp only [mixReturns, List.length_map]
  ring

theorem rowCov_le (rows : List (ℝ × ℝ)) :
    |rowCov rows| ≤ npStd (rows.map Prod.fst) * npStd (rows.map Prod.snd) := by
  set m := npAvg (rows.map Prod.fst) with hm
  set n := npAvg (rows.map Prod.snd) with hn
  have h := FinML.Stats.list_cauchy rows (fun p => p.1 - m) fun p => p.2 - n
  have e1 : moment 2 (rows.map Prod.fst) = (rows.map fun p => (p.1 - m) ^ 2).sum / (rows.length : ℝ) := by
    unfold moment
    rw [← hm]
    simp [npAvg, Function.comp_def]
  have e2 : moment 2 (rows.map Prod.snd) = (rows.map fun p => (p.2 - n) ^ 2).sum / (rows.length : ℝ) := by
    unfold moment
    rw [← hn]
    simp [npAvg, Function.comp_def]
  unfold npStd
  rw [← Real.sqrt_mul (by rw [e1]; exact div_nonneg (List.sum_nonneg (by
    simp only [List.mem_map]; rintro _ ⟨p, -, rfl⟩; positivity)) (Nat.cast_nonneg _))]
  apply Real.abs_le_sqrt
  rw [e1, e2]
  unfold rowCov
  rw [← hm, ← hn, div_pow, div_mul_div_comm, ← sq]
  exact div_le_div_of_nonneg_right h (sq_nonneg _)

theorem npStd_sq (l : List ℝ) : npStd l ^ 2 = moment 2 l := Real.sq_sqrt (moment_two_nonneg l)

theorem npStd_nonneg (l : List ℝ) : 0 ≤ npStd l := Real.sqrt_nonneg _

/-- The deviation of a mixture is at most the mixture of the deviations. -/
theorem std_mix_le {a b : ℝ} (ha : 0 ≤ a) (hb : 0 ≤ b) (rows : List (ℝ × ℝ)) :
    npStd (mixReturns a b rows) ≤ a * npStd (rows.map Prod.fst) + b * npStd (rows.map Prod.snd) := by
  have h0 := add_nonneg (mul_nonneg ha (npStd_nonneg (rows.map Prod.fst)))
    (mul_nonneg hb (npStd_nonneg (rows.map Prod.snd)))
  refine Real.sqrt_le_iff.2 ⟨h0, ?_⟩
  rw [var_mix, ← npStd_sq, ← npStd_sq]
  have h := (abs_le.1 (rowCov_le rows)).2
  have h2 : 2 * a * b * rowCov rows ≤ 2 * a * b * (npStd (rows.map Prod.fst) * npStd (rows.map Prod.snd)) :=
    mul_le_mul_of_nonneg_left h (by positivity)
  linarith

/-- C338, what holds: a long-only mixture of two strategies that do not lose has at least the Sharpe ratio of the worse
one.  Missing: losing strategies, for which the claim is false (`C338_mixture_counterexample`). -/
theorem C338_mixture_partial (rows : List (ℝ × ℝ)) (a b s t u : ℝ) (ha : 0 ≤ a) (hb : 0 ≤ b)
    (hs : sharpe (rows.map Prod.fst) = some s) (ht : sharpe (rows.map Prod.snd) = some t)
    (hu : sharpe (mixReturns a b rows) = some u) (hs0 : 0 ≤ s) (ht0 : 0 ≤ t) : min s t ≤ u := by
  obtain ⟨h1, e1⟩ := sharpe_eq _ _ hs
  obtain ⟨h2, e2⟩ := sharpe_eq _ _ ht
  obtain ⟨h3, rfl⟩ := sharpe_eq _ _ hu
  rw [le_div_iff₀ h3, avg_mix]
  rw [eq_div_iff h1.ne'] at e1
  rw [eq_div_iff h2.ne'] at e2
  rw [← e1, ← e2]
  have hm : 0 ≤ min s t := le_min hs0 ht0
  calc min s t * npStd (mixReturns a b rows)
      ≤ min s t * (a * npStd (rows.map Prod.fst) + b * npStd (rows.map Prod.snd)) :=
        mul_le_mul_of_nonneg_left (std_mix_le ha hb rows) hm
    _ = a * (min s t * npStd (rows.map Prod.fst)) + b * (min s t * npStd (rows.map Prod.snd)) := by ring
    _ ≤ _ := add_le_add (mul_le_mul_of_nonneg_left (mul_le_mul_of_nonneg_right (min_le_left _ _) h1.le) ha)
        (mul_le_mul_of_nonneg_left (mul_le_mul_of_nonneg_right (min_le_right _ _) h2.le) hb)

/-- C338.  No portfolio of two uncorrelated strategies, long or short, has a squared Sharpe ratio above the sum of
theirs, and some portfolio attains it. -/
theorem C338_uncorrelated (rows : List (ℝ × ℝ)) (s t : ℝ) (hs : sharpe (rows.map Prod.fst) = some s)
    (ht : sharpe (rows.map Prod.snd) = some t) (h0 : rowCov rows = 0) :
    (∀ a b u : ℝ, sharpe (mixReturns a b rows) = some u → u ^ 2 ≤ s ^ 2 + t ^ 2) ∧
    (0 < s ^ 2 + t ^ 2 → ∃ a b u : ℝ, sharpe (mixReturns a b rows) = some u ∧ u = √(s ^ 2 + t ^ 2)) := by
  obtain ⟨h1, e1⟩ := sharpe_eq _ _ hs
  obtain ⟨h2, e2⟩ := sharpe_eq _ _ ht
  rw [eq_div_iff h1.ne'] at e1
  rw [eq_div_iff h2.ne'] at e2
  constructor
  · intro a b u hu
    obtain ⟨h3, rfl⟩ := sharpe_eq _ _ hu
    rw [div_pow, div_le_iff₀ (by positivity), avg_mix, npStd_sq, var_mix, h0, ← npStd_sq, ← npStd_sq, ← e1, ← e2]
    nlinarith [sq_nonneg (a * npStd (rows.map Prod.fst) * t - b * npStd (rows.map Prod.snd) * s)]
  · intro hpos
    set x := npStd (rows.map Prod.fst)
    set y := npStd (rows.map Prod.snd)
    have hvar : moment 2 (mixReturns (s / x) (t / y) rows) = s ^ 2 + t ^ 2 := by
      rw [var_mix, h0, ← npStd_sq, ← npStd_sq]
      show (s / x) ^ 2 * x ^ 2 + (t / y) ^ 2 * y ^ 2 + _ = _
      field_simp
      ring
    have hstd : npStd (mixReturns (s / x) (t / y) rows) = √(s ^ 2 + t ^ 2) := by
      unfold npStd
      rw [hvar]
    have havg : npAvg (mixReturns (s / x) (t / y) rows) = s ^ 2 + t ^ 2 := by
      rw [avg_mix, ← e1, ← e2]
      show s / x * (s * x) + t / y * (t * y) = _
      field_simp
    have hr := Real.sqrt_pos.2 hpos
    refine ⟨s / x, t / y, √(s ^ 2 + t ^ 2), ?_, rfl⟩
    unfold sharpe fdiv
    rw [hstd, havg, if_neg hr.ne']
    congr 1
    rw [div_eq_iff hr.ne', ← sq, Real.sq_sqrt hpos.le]

/-- The hypotheses of `C338_mixture_partial` and `C338_uncorrelated` are met by two strategies with the ratios 2 and 3 over
four periods. -/
example : let rows : List (ℝ × ℝ) := [(1, 2), (1, 4), (3, 2), (3, 4)]
    sharpe (rows.map Prod.fst) = some 2 ∧ sharpe (rows.map Prod.snd) = some 3 ∧ rowCov rows = 0 ∧
      ∃ u, sharpe (mixReturns 1 1 rows) = some u := by
  refine ⟨?_, ?_, ?_, ?_⟩
  · norm_num [sharpe, fdiv, npStd, moment, npAvg]
  · norm_num [sharpe, fdiv, npStd, moment, npAvg]
  · norm_num [rowCov, npAvg]
  · norm_num [sharpe, fdiv, npStd, moment, npAvg, mixReturns]

end FinML.Metrics
