import Verif.CV.CombiModel
import Mathlib.Algebra.Order.Field.Rat

/-!
# The repository's own tests of the splitters, run on the model

Inputs and expected values of `test/test_evaluation/test_purged_cv.py` and
`test/test_evaluation/test_combinatorial_cv.py`.
-/

namespace FinML.Conformance

open FinML.CV

/-- `event_times`, test_purged_cv.py:18-21; days are numbered from 0. -/
def cvEvents : List Event :=
  [(0, some 6), (3, some 6), (5, some 8), (7, some 10), (11, some 15), (16, some 24), (17, some 23),
   (16, some 24), (23, some 27), (22, some 29)]

/-- `test_apply_purging`. -/
example : (applyPurging (K := ℚ) cvEvents [(8, some 10), (18, some 22)] none 0).toOption =
    some [0, 1, 4, 8] := by decide +kernel

/-- `test_apply_embargo`. -/
example : (applyPurging (K := ℚ) cvEvents [(8, some 10), (18, some 22)]
    (some ((List.range 31).map Int.ofNat)) 0.1).toOption = some [0, 1] := by decide +kernel

/-- `test_purged_kfold`. -/
example : (kfoldSplit (K := ℚ) 3 0 (.series true cvEvents)).toOption.map List.length = some 3 ∧
    ((kfoldSplit (K := ℚ) 3 0 (.series true cvEvents)).toOption.getD []).all (fun s =>
      s.1 ≠ [] ∧ s.2 ≠ []) = true := by decide +kernel

/-- `test_purged_kfold_embargo`. -/
example : ((kfoldSplit (K := ℚ) 3 0.1 (.series true cvEvents)).toOption.bind List.head?) =
    some ([6, 7, 8, 9], [0, 1, 2, 3]) := by decide +kernel

/-- `comb_cv`, test_combinatorial_cv.py:9-25: 30 events of a week each. -/
def combCv : Cpcv ℚ where
  nGroups := 6
  nTest := 2
  bars := some ((List.range 210).map Int.ofNat)
  events := (List.range 30).map fun i => ((7 * i : ℕ), some ((7 * i + 6 : ℕ) : ℤ))
  pct := 0
  rd := id

/-- `test_combinatorial_purged_cv_paths`. -/
example :
    let ops := Op.create :: List.replicate 15 (Op.advance 0)
    (combCv.init.toOption.bind fun s => (combCv.paths (combCv.run ops s).lists).toOption).map
      (fun ps => ps.map fun p => (p.flatMap Prod.fst, p.map Prod.snd)) =
    some ([[0, 0, 1, 2, 3, 4], [1, 5, 5, 6, 7, 8], [2, 6, 9, 9, 10, 11], [3, 7, 10, 12, 12, 13],
      [4, 8, 11, 13, 14, 14]].map fun l => (List.range 30, l)) := by decide +kernel

/-- `test_combinatorial_purged_cv_splits`. -/
example : combCv.splitAll.toOption.map (fun l => l.map fun s =>
      (s.1.length + s.2.length, s.1.all (fun i => ¬ i ∈ s.2), (s.2.map (· / 5)).dedup)) =
    some ((combinations 2 (List.range 6)).map fun g => (30, true, g)) := by decide +kernel

end FinML.Conformance
