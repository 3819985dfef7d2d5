import Verif.Stats.Model
import Verif.Metrics.SharpeProps
import Mathlib.Analysis.SpecialFunctions.Exp
import Mathlib.Algebra.BigOperators.Group.List.Basic

/-! # Property C312: statistics of a sample in another order, and of a repeated sample -/

namespace FinML.Stats

/-- The sample `k` times over. -/
def repeated (k : ℕ) (l : List ℝ) : List ℝ := (List.replicate k l).flatten

theorem repeated_sum (k : ℕ) (l : List ℝ) : (repeated k l).sum = k * l.sum := by
  unfold repeated
  induction k with
  | zero => simp
  | succ k ih =>
    rw [List.replicate_succ, List.flatten_cons, List.sum_append, ih]
    push_cast
    ring

theorem repeated_length (k : ℕ) (l : List ℝ) : (repeated k l).length = k * l.length := by
  unfold repeated
  simp

theorem repeated_map (k : ℕ) (l : List ℝ) (f : ℝ → ℝ) : (repeated k l).map f = repeated k (l.map f) := by
  unfold repeated
  rw [List.map_flatten, List.map_replicate]

theorem mean_repeated (k : ℕ) (hk : 0 < k) (l : List ℝ) : (repeated k l).sum / (repeated k l).length = l.sum / l.length := by
  rw [repeated_sum, repeated_length]
  push_cast
  exact mul_div_mul_left _ _ (by exact_mod_cast hk.ne')

theorem stats_moment_repeated (k : ℕ) (hk : 0 < k) (l : List ℝ) (j : ℕ) : moment j (repeated k l) = moment j l := by
  unfold moment mean
  rw [mean_repeated k hk, repeated_map, mean_repeated k hk]

theorem moment_repeated (k : ℕ) (hk : 0 < k) (l : List ℝ) (j : ℕ) :
    Metrics.moment j (repeated k l) = Metrics.moment j l := by
  unfold Metrics.moment Metrics.npAvg
  rw [mean_repeated k hk, repeated_map, mean_repeated k hk]

/-- C312: repeating the sample `k` times raises the p-value of the Jarque-Bera test to the power `k`. -/
theorem C312_jarque_bera (k : ℕ) (hk : 0 < k) (l : List ℝ) :
    jarqueBeraPval (repeated k l) = (jarqueBeraPval l).map fun p => p ^ k := by
  unfold jarqueBeraPval
  simp only [stats_moment_repeated k hk]
  split
  · rfl
  · rw [Option.map_some, ← Real.exp_nat_mul, repeated_length]
    congr 2
    push_cast
    ring

/-- C312: repeating the returns changes neither the Sharpe ratio nor, for a given number of observations, its probability; the
number of observations is that of the repeated sample. -/
theorem C312_sharpe (k : ℕ) (hk : 0 < k) (l : List ℝ) (b : ℝ) :
    Metrics.sharpe (repeated k l) = Metrics.sharpe l ∧
    (∀ T, Metrics.psrLine (repeated k l) b T = Metrics.psrLine l b T) ∧
    Metrics.psr1 (repeated k l) b = Metrics.psrLine l b (k * l.length) := by
  have hs : Metrics.sharpe (repeated k l) = Metrics.sharpe l := by
    unfold Metrics.sharpe Metrics.npStd
    rw [moment_repeated k hk]
    unfold Metrics.npAvg
    rw [mean_repeated k hk]
  have hp : ∀ T, Metrics.psrLine (repeated k l) b T = Metrics.psrLine l b T := by
    intro T
    unfold Metrics.psrLine
    rw [hs]
    unfold Metrics.skew Metrics.kurtosis Metrics.npStd
    rw [moment_repeated k hk, moment_repeated k hk, moment_repeated k hk]
  refine ⟨hs, hp, ?_⟩
  unfold Metrics.psr1
  rw [hp, repeated_length]

theorem mean_perm {l l' : List ℝ} (h : l.Perm l') : l.sum / l.length = l'.sum / l'.length := by
  rw [h.sum_eq, h.length_eq]

/-- C312: the order of the sample does not matter. -/
theorem C312_order {l l' : List ℝ} (h : l.Perm l') (b : ℝ) :
    jarqueBeraPval l = jarqueBeraPval l' ∧ Metrics.sharpe l = Metrics.sharpe l' ∧ Metrics.psr1 l b = Metrics.psr1 l' b := by
  have hm : ∀ j, moment j l = moment j l' := by
    intro j
    unfold moment mean
    rw [mean_perm h]
    exact mean_perm (h.map _)
  have hM : ∀ j, Metrics.moment j l = Metrics.moment j l' := by
    intro j
    unfold Metrics.moment Metrics.npAvg
    rw [mean_perm h]
    exact mean_perm (h.map _)
  have hs : Metrics.sharpe l = Metrics.sharpe l' := by
    unfold Metrics.sharpe Metrics.npStd
    rw [hM]
    unfold Metrics.npAvg
    rw [mean_perm h]
  refine ⟨?_, hs, ?_⟩
  · unfold jarqueBeraPval
    simp only [hm, h.length_eq]
  · unfold Metrics.psr1 Metrics.psrLine
    rw [hs]
    unfold Metrics.skew Metrics.kurtosis Metrics.npStd
    rw [hM, hM, hM, h.length_eq]

/-- The p-value of -1, 1 is a number, so that of the repeated sample is one too. -/
example : (jarqueBeraPval (repeated 3 [-1, 1])).isSome := by
  rw [C312_jarque_bera 3 (by norm_num)]
  have : moment 2 [-1, 1] ≠ 0 := by norm_num [moment, mean]
  unfold jarqueBeraPval
  rw [if_neg this]
  rfl

end FinML.Stats
