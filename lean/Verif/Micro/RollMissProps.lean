import Verif.Micro.MissModel
import Verif.Bars.TickMissProps
import Mathlib.Tactic.Linarith
import Mathlib.Tactic.NormNum

/-!
# Roll's spread of ticks with a missing price (C353)

The covariance of the price changes is NaN, and `max(0, -NaN)` is 0, so that a spread of 0 is reported.
-/

namespace FinML.Micro

open Bars (changeM)

/-- Complete prices that agree with `prices` where these are known. -/
def FillsPrices (fill : List ℝ) (prices : List (Option ℝ)) : Prop :=
  List.Forall₂ (fun (f : ℝ) (p : Option ℝ) => ∀ x, p = some x → f = x) fill prices

/-- C353, the full claim: the spread reported for ticks with missing prices is the one of some prices in their place. -/
def RollOfSomeFill : Prop :=
  ∀ prices : List (Option ℝ), ∃ fill, FillsPrices fill prices ∧ (rollSpreadM prices).1 = (rollSpread fill).1

theorem none_mem_diff1M (prices : List (Option ℝ)) (h : none ∈ prices) (hl : 2 ≤ prices.length) : none ∈ diff1M prices := by
  unfold diff1M
  induction prices with
  | nil => simp at h
  | cons p ps ih =>
    cases ps with
    | nil => simp at hl
    | cons q qs =>
      simp only [List.tail_cons, List.zipWith_cons_cons]
      rcases List.mem_cons.1 h with h | h
      · rw [← h]
        exact List.mem_cons.2 (.inl rfl)
      · rcases List.mem_cons.1 h with h' | h'
        · rw [← h']
          refine List.mem_cons.2 (.inl ?_)
          cases p <;> rfl
        · refine List.mem_cons_of_mem _ (ih h ?_)
          cases qs with
          | nil => simp at h'
          | cons r rs => simp

/-- C353.  With a missing price the spread is reported as 0, and the variance of the true price as NaN (missing from the full
claim: that there be prices with this spread). -/
theorem C353_gap_partial (prices : List (Option ℝ)) (h : none ∈ prices) : rollSpreadM prices = (0, none) := by
  have hcov : npCovM (diff1M prices).dropLast (diff1M prices).tail = none := by
    unfold npCovM
    split_ifs with hn
    · rfl
    · push Not at hn
      unfold npCov
      rw [if_pos]
      by_cases hl : 2 ≤ prices.length
      · have hm := none_mem_diff1M prices h hl
        generalize diff1M prices = d at hn hm ⊢
        match d with
        | [] => simp
        | [x] => simp
        | x :: y :: d =>
          exfalso
          rcases List.mem_cons.1 hm with hm | hm
          · exact hn.1 (by rw [hm]; simp)
          · exact hn.2 (by simpa using hm)
      · match prices, hl with
        | [], _ => simp [diff1M]
        | [x], _ => simp [diff1M]
        | x :: y :: l, hl => simp at hl
  unfold rollSpreadM
  simp only [hcov, Option.elim_none, Real.sqrt_zero, zero_mul, Option.map_none, Option.bind_fun_none]

theorem reduceOption_map_some {α : Type} (l : List α) : (l.map some).reduceOption = l := by simp [List.reduceOption]

theorem none_notMem_map_some {α : Type} (l : List α) : none ∉ l.map some := by simp

theorem diff1M_complete (l : List ℝ) : diff1M (l.map some) = (diff1 l).map some := by
  unfold diff1M diff1
  rw [← List.map_tail, List.zipWith_map, List.map_zipWith]
  rfl

/-- C353.  With all prices known this is the model of C59. -/
theorem C353_complete (prices : List ℝ) : rollSpreadM (prices.map some) = rollSpread prices := by
  unfold rollSpreadM rollSpread npVarM npCovM
  simp only [diff1M_complete, ← List.map_dropLast, ← List.map_tail, none_notMem_map_some, or_self, if_false,
    reduceOption_map_some]

/-- A bounce between 0 and 1 with one price missing. -/
def bounceGap : List (Option ℝ) := [some 0, some 1, some 0, some 1, none, some 1, some 0]

theorem bounce_spread (x : ℝ) : 0 < (rollSpread [0, 1, 0, 1, x, 1, 0]).1 := by
  unfold rollSpread
  have hd : diff1 [0, 1, 0, 1, x, 1, 0] = [1, -1, 1, x - 1, 1 - x, -1] := by norm_num [diff1]
  have hc : npCov [1, -1, 1, x - 1, 1 - x] [-1, 1, x - 1, 1 - x, -1] = some (-((x - 2) ^ 2 + 4 / 5) / 4) := by
    unfold npCov mean
    rw [if_neg (by simp)]
    congr 1
    simp only [List.zipWith_cons_cons, List.zipWith_nil_left, List.sum_cons, List.sum_nil, List.length_cons, List.length_nil]
    push_cast
    ring
  have hpos : (0 : ℝ) < ((x - 2) ^ 2 + 4 / 5) / 4 := by positivity
  simp only [hd, List.dropLast_cons_cons, List.dropLast_singleton, List.tail_cons, hc, Option.elim_some]
  have : max 0 (-(-((x - 2) ^ 2 + 4 / 5) / 4)) = ((x - 2) ^ 2 + 4 / 5) / 4 := by
    rw [max_eq_right] <;> [ring; (rw [show -(-((x - 2) ^ 2 + 4 / 5) / 4) = ((x - 2) ^ 2 + 4 / 5) / 4 by ring]; exact hpos.le)]
  rw [this]
  have := Real.sqrt_pos.2 hpos
  linarith

/-- C353.  Whatever price is put into the gap, the bounce has a positive spread; reported is 0. -/
theorem C353_counterexample : ¬ RollOfSomeFill := by
  intro h
  obtain ⟨fill, hf, he⟩ := h bounceGap
  rw [C353_gap_partial bounceGap (by simp [bounceGap])] at he
  unfold FillsPrices bounceGap at hf
  match fill, hf with
  | [a, b, c, d, e, f, g], hf =>
    simp only [List.forall₂_cons, List.forall₂_nil_left_iff, Option.some.injEq, forall_eq', and_true] at hf
    obtain ⟨rfl, rfl, rfl, rfl, -, rfl, rfl⟩ := hf
    exact absurd he (bounce_spread e).ne

example : FillsPrices [0, 1, 0, 1, 5, 1, 0] bounceGap := by simp [FillsPrices, bounceGap]

end FinML.Micro
