import Verif.Weights.Model
import Verif.Alloc.PosModel
import Mathlib.Algebra.Order.Field.Rat
import Mathlib.Tactic.NormNum

/-!
# The repository's own tests of weights and position sizes, run on the model

Inputs and expected values of `test/test_labeling/test_weighting.py` and
`test/test_assets_allocation/test_position_sizing.py`, as far as they are rational.
-/

namespace FinML.Conformance

open FinML.Weights

/-- A label with the smallest count. -/
def rarest (l : List ℕ) : ℕ := (l.dedup.argmin fun a => l.count a).getD 0

/-- `test_drop_rare_labels`. -/
example : (dropRareLoop (K := ℚ) rarest 0.05 1 10
    (List.replicate 5 1 ++ List.replicate 150 2 ++ List.replicate 8 3)).toOption =
    some (List.replicate 150 2 ++ List.replicate 8 3) := by decide +kernel

/-- `data_sample`, test_weighting.py:26-39. -/
def sampleEvents : Series (Option ℤ) := [(0, some 2), (2, some 3), (4, some 5)]

/-- The bars of `data_sample`. -/
def sampleBars : List ℤ := [0, 1, 2, 3, 4, 5]

/-- `test_label_avg_uniqueness`: 0.833, 0.75, 1. -/
example : (labelAvgUniqueness (K := ℚ) sampleBars sampleEvents).toOption =
    some [(0, some (5 / 6)), (2, some (3 / 4)), (4, some 1)] := by decide +kernel

/-- The first draw of `test_sequential_bootstrap`: every event is as unique as any other. -/
example : (getEventIndicators sampleBars sampleEvents).toOption.bind
    (fun c => (trialProbs (K := ℚ) c []).toOption) = some [1 / 3, 1 / 3, 1 / 3] := by decide +kernel

/-- After the first event is drawn, the second, which overlaps it, is less likely. -/
example : (getEventIndicators sampleBars sampleEvents).toOption.bind
    (fun c => (trialProbs (K := ℚ) c [0]).toOption) = some [2 / 9, 1 / 3, 4 / 9] := by decide +kernel

/-- `test_apply_time_decay_to_weights`. -/
example :
    let u : Series ℚ := [(0, 5 / 6), (2, 3 / 4), (4, 1)]
    (applyTimeDecay u 1).toOption = some [(0, 1), (2, 1), (4, 1)] ∧
    (applyTimeDecay u 0.5).toOption = some [(0, 41 / 62), (2, 25 / 31), (4, 1)] ∧
    (applyTimeDecay u 0).toOption = some [(0, 10 / 31), (2, 19 / 31), (4, 1)] ∧
    (applyTimeDecay u (-0.5)).toOption = some [(0, 0), (2, 7 / 31), (4, 1)] := by decide +kernel

/-- The expected values of that test, to three decimals. -/
example : |(41 / 62 : ℚ) - 0.6613| < 0.001 ∧ |(25 / 31 : ℚ) - 0.8065| < 0.001 ∧
    |(10 / 31 : ℚ) - 0.3226| < 0.001 ∧ |(19 / 31 : ℚ) - 0.6129| < 0.001 ∧
    |(7 / 31 : ℚ) - 0.2258| < 0.001 := by decide +kernel

/-- The events and sides of test_position_sizing.py:29-37. -/
def sizedEvents : List (ℤ × Option ℤ × ℚ) :=
  [(0, some 6, -1), (3, some 6, -1), (5, some 8, 1), (7, some 10, 1), (11, some 15, 1), (16, some 24, -1),
   (17, some 23, 1), (16, some 24, 1), (23, some 27, -1), (22, some 29, 1)]

/-- The number of events of one side that cover a day. -/
def active (side : ℚ) (t : ℕ) : ℚ :=
  ((sizedEvents.filter fun e => e.2.2 = side ∧ e.1 ≤ (t : ℤ) ∧ (t : ℤ) ≤ e.2.1.getD 0).length : ℚ)

/-- `test_budgeted_position_size`: shares of the largest numbers of long and short events. -/
example : (Alloc.budgetedPositionSize ((List.range 31).map Int.ofNat) sizedEvents npMax).toOption =
    some ((List.range 31).map fun t : ℕ => ((t : ℤ), some (active 1 t / 3 - active (-1) t / 2))) := by
  decide +kernel

end FinML.Conformance
