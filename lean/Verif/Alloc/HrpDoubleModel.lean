import Verif.Alloc.HrpModel
import Verif.Alloc.DoubleModel

/-!
# Recursive bisection in doubles, HRP.py:65-90

`Verif/Alloc/HrpModel.lean` computes exactly; here sums, quotients, differences and products go through a rounding `rd`.
The cluster variances (HRP.py:83-84) are parameters: `var g` is the number that `_get_cluster_var` returns for `g`.
-/

namespace FinML.Alloc

/-- `weights[part] *= a`, HRP.py:88-89, with rounded products. -/
def scaleR (rd : ℚ → ℚ) (w : Labelled ℚ) (part : List ℕ) (a : ℚ) : Labelled ℚ :=
  w.map fun p => if p.1 ∈ part then (p.1, rd (p.2 * a)) else p

/-- `alpha`, HRP.py:87, with rounded arithmetic. -/
def alphaR (rd : ℚ → ℚ) (var1 var2 : ℚ) : ℚ := rd (1 - rd (var1 / rd (var1 + var2)))

/-- The body of the inner loop, HRP.py:83-89, with rounded arithmetic. -/
def splitR (rd : ℚ → ℚ) (var : List ℕ → ℚ) (part1 part2 : List ℕ) (w : Labelled ℚ) : Labelled ℚ :=
  scaleR rd (scaleR rd w part1 (alphaR rd (var part1) (var part2))) part2 (rd (1 - alphaR rd (var part1) (var part2)))

/-- The inner loop, HRP.py:82-89; partitions come in pairs. -/
def pairLoopR (rd : ℚ → ℚ) (var : List ℕ → ℚ) : List (List ℕ) → Labelled ℚ → Labelled ℚ
  | p1 :: p2 :: rest, w => pairLoopR rd var rest (splitR rd var p1 p2 w)
  | _, w => w

/-- The outer loop, HRP.py:75-89; the first argument bounds the number of passes. -/
def bisectLoopR (rd : ℚ → ℚ) (var : List ℕ → ℚ) : ℕ → List (List ℕ) → Labelled ℚ → Labelled ℚ
  | 0, _, w => w
  | fuel + 1, parts, w =>
    if parts = [] then w
    else bisectLoopR rd var fuel (parts.flatMap halves) (pairLoopR rd var (parts.flatMap halves) w)

/-- `_recursive_bisection`, HRP.py:65-90, with rounded arithmetic. -/
def recursiveBisectionR (rd : ℚ → ℚ) (var : List ℕ → ℚ) (sortIndices : List ℕ) : Labelled ℚ :=
  bisectLoopR rd var (sortIndices.length + 1) [sortIndices] (sortIndices.map fun i => (i, 1))

end FinML.Alloc
