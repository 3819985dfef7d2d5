import Verif.Labels.Model
import Mathlib.Algebra.Order.Field.Rat

/-!
# The repository's own tests of the labels, run on the model

These are tests of the *model*, not proofs of properties: the inputs and the expected values of
`test/test_labeling/test_triple_barrier.py`, evaluated in exact arithmetic.  They tie the model to
behaviour that the repository records.
-/

namespace FinML.Conformance

open FinML.Labels

/-- A row with the same price in every column. -/
def flat (t : ℤ) (p : ℚ) : Row ℚ := ⟨t, some p, some p, some p, some p⟩

/-- `prices`, test_triple_barrier.py:16-29; days of January. -/
def prices : List (Row ℚ) :=
  List.zipWith flat [1, 2, 3, 4, 5, 6, 7, 8, 9, 10, 11, 12, 13, 14, 15, 16, 17, 18, 19, 20]
    [100, 100.47, 99.99, 99.04, 99.02, 99.12, 99.4, 101.17, 100.51, 100.92,
     100.4, 100.54, 99.55, 98.93, 100.02, 99.39, 98.72, 98.31, 98.35, 97.45]

/-- `prices_with_hi_lo`, test_triple_barrier.py:32-50. -/
def pricesHiLo : List (Row ℚ) :=
  [⟨1, some 99.64, some 100.83, some 99.09, some 100⟩,
   ⟨2, some 100.51, some 101.33, some 100.3, some 100.47⟩,
   ⟨3, some 100.85, some 101.39, some 99.78, some 99.99⟩,
   ⟨4, some 99.02, some 99.79, some 98.32, some 99.04⟩,
   ⟨5, some 99.83, some 100.23, some 98.3, some 99.02⟩,
   ⟨6, some 99.71, some 100.36, some 98.24, some 99.12⟩,
   ⟨7, some 99.31, some 100.24, some 99.01, some 99.4⟩,
   ⟨8, some 101.16, some 101.81, some 100.91, some 101.17⟩,
   ⟨9, some 100.74, some 100.9, some 99.79, some 100.51⟩,
   ⟨10, some 101.61, some 102.28, some 100.71, some 100.92⟩,
   ⟨11, some 100.01, some 101.29, some 99.75, some 100.4⟩,
   ⟨12, some 101.25, some 102.22, some 100.4, some 100.54⟩,
   ⟨13, some 99.33, some 99.71, some 98.8, some 99.55⟩,
   ⟨14, some 98.12, some 99.16, some 97.83, some 98.93⟩,
   ⟨15, some 100.03, some 100.73, some 99.26, some 100.02⟩,
   ⟨16, some 99.0, some 101.2, some 99.06, some 99.39⟩,
   ⟨17, some 97.88, some 99.46, some 97.01, some 98.72⟩,
   ⟨18, some 97.69, some 98.6, some 97.58, some 98.31⟩,
   ⟨19, some 98.85, some 99.28, some 97.88, some 98.35⟩,
   ⟨20, some 97.79, some 98.1, some 97.05, some 97.45⟩]

/-- `event_start_times`, test_triple_barrier.py:8. -/
def starts : List ℤ := [5, 9, 15]

/-- `events[EXPIRY]`, test_triple_barrier.py:9-11. -/
def expiries : Series (Option ℤ) := [(5, some 9), (9, some 12), (15, some 20)]

/-- `targets`, test_triple_barrier.py:13. -/
def targets : Series (Option ℚ) := [(5, some 0.0098), (9, some 0.05), (15, some 0.01)]

/-- The end times of the events. -/
def ends (r : Py (List (Event ℚ × Outcome ℚ))) : Option (List ℤ) :=
  r.toOption.map fun l => l.map fun p => p.2.endTime

/-- The returns of the events. -/
def returns (r : Py (List (Event ℚ × Outcome ℚ))) : Option (List (Option ℚ)) :=
  r.toOption.map fun l => l.map fun p => p.2.ret

/-- The labels of the events. -/
def labels (r : Py (List (Event ℚ × Outcome ℚ))) (hasSide cancel : Bool) : Option (List (Option ℚ)) :=
  r.toOption.map fun l => (getEventLabels (l.map fun p =>
    { expiry := p.1.expiry, endTime := some p.2.endTime, ret := p.2.ret }) hasSide cancel).map Prod.snd

/-- Equal up to the precision of the expected value. -/
def closeTo (eps : ℚ) (l : Option (List (Option ℚ))) (l' : List ℚ) : Bool :=
  match l with
  | some l => l.length == l'.length &&
      (l.zip l').all fun p => match p.1 with
        | some x => decide (|x - p.2| ≤ eps)
        | none => false
  | none => false

/-- `test_get_event_labels_no_side`. -/
example :
    let r := getEventReturns prices starts targets 1 1 (some expiries) 0 none
    ends r = some [8, 12, 17] ∧
    returns r = some [some (101.17 / 99.02 - 1), some (100.54 / 100.51 - 1), some (98.72 / 100.02 - 1)] ∧
    labels r false false = some [some 1, some 1, some (-1)] := by decide +kernel

/-- `test_get_event_labels_known_side`; the return of the second event, a short one that expires, is not
multiplied by its side. -/
example :
    let r := getEventReturns prices starts targets 1 1 (some expiries) 0 (some [(5, 1), (9, -1), (15, 1)])
    ends r = some [8, 12, 17] ∧
    returns r = some [some (101.17 / 99.02 - 1), some (100.54 / 100.51 - 1), some (98.72 / 100.02 - 1)] ∧
    labels r true false = some [some 1, some 1, some 0] := by decide +kernel

/-- `test_get_event_labels_cancel_expired_event`. -/
example : labels (getEventReturns prices starts targets 1 1 (some expiries) 0 none) false true =
    some [some 1, some 0, some (-1)] := by decide +kernel

/-- `test_get_event_end_times_no_pt_sl`. -/
example : ends (getEventReturns prices starts targets 0 0 (some expiries) 0 none) = some [9, 12, 20] := by
  decide +kernel

/-- `test_get_event_labels_multipliers`. -/
example :
    let r := getEventReturns prices starts (targets.map fun p => (p.1, p.2.map (· / 2))) 2 2
      (some expiries) 0 none
    returns r = some [some (101.17 / 99.02 - 1), some (100.54 / 100.51 - 1), some (98.72 / 100.02 - 1)] ∧
    labels r false false = some [some 1, some 1, some (-1)] := by decide +kernel

/-- `test_labeling_with_hi_lo_prices`. -/
example :
    let r := getEventReturns pricesHiLo starts targets 1 1 (some expiries) 0 none
    ends r = some [5, 12, 16] ∧ closeTo 0.000001 (returns r) [-0.015326, -0.001985, 0.011696] ∧
    labels r false false = some [some (-1), some (-1), some 1] := by decide +kernel

/-- `test_labeling_with_hi_lo_prices_and_sides`. -/
example :
    let r := getEventReturns pricesHiLo starts targets 1 1 (some expiries) 0
      (some [(5, -1), (9, 1), (15, 1)])
    closeTo 0.000001 (returns r) [0.015326, -0.001985, 0.011696] ∧
    labels r true false = some [some 1, some 0, some 1] := by decide +kernel

end FinML.Conformance
