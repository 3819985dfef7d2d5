import Verif.Py.Basic
import Mathlib.Data.List.Sort
import Mathlib.Analysis.Real.Sqrt

/-!
# Model of financial_ml/assets_allocation/HRP.py

Matrices are functions of two indices.  `scipy.cluster.hierarchy.linkage` is a parameter; its rows,
after `astype(int)`, are triples (left child, right child, number of items), the distance column being
unused.  Numbers are elements of an ordered field, real numbers where the square root is taken.  A
division by zero in numpy gives a non-finite number; in this file it is reported as `unmodelled`.
-/

namespace FinML.Alloc

/-- `_corr_to_dist`, HRP.py:13-21. -/
noncomputable def corrToDist (corr : ℕ → ℕ → ℝ) (i j : ℕ) : ℝ := √((1 - corr i j) / 2)

/-- A row of the linkage matrix after `astype(int)`: columns 0, 1 and 3, HRP.py:34-36. -/
structure Row where
  left : ℕ
  right : ℕ
  items : ℕ
  deriving DecidableEq, Repr

/-- A series with integer labels; HRP.py:35. -/
abbrev Labelled (α : Type) := List (ℕ × α)

/-- `sort_indices.index = range(0, len*2, 2)`, HRP.py:39. -/
def relabel2 (s : List ℕ) : Labelled ℕ := s.zipIdx.map fun p => (2 * p.2, p.1)

/-- `linkage_mat[j, :]` for one cluster index, HRP.py:42. -/
def childRow (rows : List Row) (n c : ℕ) : Py Row := pyGet rows (c - n)

/-- `sort_indices[i] = linkage_mat[j, 0]` for one label, HRP.py:43. -/
def replaceLeft (rows : List Row) (n : ℕ) (p : ℕ × ℕ) : Py (ℕ × ℕ) :=
  if n ≤ p.2 then do
    let r ← childRow rows n p.2
    return (p.1, r.left)
  else .ok p

/-- The entry of `pd.Series(linkage_mat[j, 1], index=i+1)` for one label, HRP.py:44. -/
def appendRight (rows : List Row) (n : ℕ) (p : ℕ × ℕ) : Py (ℕ × ℕ) := do
  let r ← childRow rows n p.2
  return (p.1 + 1, r.right)

/-- `sort_index`, HRP.py:46. -/
def sortLabels (s : Labelled ℕ) : Labelled ℕ := s.insertionSort fun a b => a.1 ≤ b.1

/-- One pass of the loop body of `_quasi_diagonalize`, HRP.py:39-47. -/
def expandOnce (rows : List Row) (n : ℕ) (s : List ℕ) : Py (List ℕ) := do
  let labelled := relabel2 s
  let clusters := labelled.filter fun p => n ≤ p.2
  let lefts ← labelled.mapM (replaceLeft rows n)
  let rights ← clusters.mapM (appendRight rows n)
  return (sortLabels (lefts ++ rights)).map Prod.snd

/-- The loop of `_quasi_diagonalize`, HRP.py:38-47; the first argument bounds the number of passes
(running out of it is reported as `runtimeError`). -/
def expandLoop (rows : List Row) (n : ℕ) : ℕ → List ℕ → Py (List ℕ)
  | 0, s => if s.any fun c => n ≤ c then .error .runtimeError else .ok s
  | fuel + 1, s =>
    if s.any fun c => n ≤ c then do
      let s' ← expandOnce rows n s
      expandLoop rows n fuel s'
    else .ok s

/-- `_quasi_diagonalize`, HRP.py:24-49. -/
def quasiDiagonalize (rows : List Row) : Py (List ℕ) := do
  let last ← pyLast rows
  expandLoop rows last.items rows.length [last.left, last.right]

variable {K : Type} [Field K] [LinearOrder K] [IsStrictOrderedRing K]

/-- `_get_inverse_cov_portfolio` of the submatrix on `idx`, HRP.py:52-55. -/
def inverseVariance (cov : ℕ → ℕ → K) (idx : List ℕ) : List K :=
  let res := idx.map fun i => 1 / cov i i
  res.map fun x => x / res.sum

/-- A zero on the diagonal or a zero sum of the inverses: the divisions of HRP.py:53-54 are not
finite. -/
def divides (cov : ℕ → ℕ → K) (idx : List ℕ) : Prop :=
  (∀ i ∈ idx, cov i i ≠ 0) ∧ (idx.map fun i => 1 / cov i i).sum ≠ 0

instance (cov : ℕ → ℕ → K) (idx : List ℕ) : Decidable (divides cov idx) :=
  inferInstanceAs (Decidable (_ ∧ _))

/-- `np.dot(np.dot(weights.T, cov), weights)[0, 0]`, HRP.py:61. -/
def quadForm (cov : ℕ → ℕ → K) (w : List (ℕ × K)) : K :=
  (w.map fun q => (w.map fun p => p.2 * cov p.1 q.1).sum * q.2).sum

/-- `_get_cluster_var`, HRP.py:58-62. -/
def clusterVar (cov : ℕ → ℕ → K) (idx : List ℕ) : Py K :=
  if divides cov idx then .ok (quadForm cov (idx.zip (inverseVariance cov idx)))
  else .error .unmodelled

/-- The two halves of a partition, HRP.py:76-81. -/
def halves (p : List ℕ) : List (List ℕ) :=
  if 1 < p.length then [p.take (p.length / 2), p.drop (p.length / 2)] else []

/-- `weights[part] *= a`, HRP.py:88-89. -/
def scaleLabels (w : Labelled K) (part : List ℕ) (a : K) : Labelled K :=
  w.map fun p => if p.1 ∈ part then (p.1, p.2 * a) else p

/-- The body of the inner loop, HRP.py:85-89. -/
def splitWeights (cov : ℕ → ℕ → K) (part1 part2 : List ℕ) (w : Labelled K) : Py (Labelled K) := do
  let var1 ← clusterVar cov part1
  let var2 ← clusterVar cov part2
  let alpha ← if var1 + var2 = 0 then .error .unmodelled else .ok (1 - var1 / (var1 + var2))
  return scaleLabels (scaleLabels w part1 alpha) part2 (1 - alpha)

/-- The inner loop over pairs of consecutive partitions, HRP.py:82-89. -/
def pairLoop (cov : ℕ → ℕ → K) : List (List ℕ) → Labelled K → Py (Labelled K)
  | [], w => .ok w
  | [_], _ => .error .indexError
  | p1 :: p2 :: rest, w => do
    let w' ← splitWeights cov p1 p2 w
    pairLoop cov rest w'

/-- The outer loop of `_recursive_bisection`, HRP.py:75-89; the first argument bounds the number of
passes (running out of it is reported as `runtimeError`). -/
def bisectLoop (cov : ℕ → ℕ → K) : ℕ → List (List ℕ) → Labelled K → Py (Labelled K)
  | 0, parts, w => if parts = [] then .ok w else .error .runtimeError
  | fuel + 1, parts, w =>
    if parts = [] then .ok w
    else do
      let w' ← pairLoop cov (parts.flatMap halves) w
      bisectLoop cov fuel (parts.flatMap halves) w'

/-- `_recursive_bisection`, HRP.py:65-90. -/
def recursiveBisection (cov : ℕ → ℕ → K) (sortIndices : List ℕ) : Py (Labelled K) :=
  bisectLoop cov (sortIndices.length + 1) [sortIndices] (sortIndices.map fun i => (i, 1))

/-- Column means of the returns matrix (observations are rows), used by `np.cov`; HRP.py:105. -/
def colMean (x : List (ℕ → K)) (i : ℕ) : K := (x.map fun r => r i).sum / (x.length : K)

/-- `np.cov(returns_mat, rowvar=False)`, HRP.py:105. -/
def sampleCov (x : List (ℕ → K)) (i j : ℕ) : K :=
  (x.map fun r => (r i - colMean x i) * (r j - colMean x j)).sum / ((x.length : K) - 1)

/-- `np.corrcoef(returns_mat, rowvar=False)`, HRP.py:106. -/
noncomputable def sampleCorr (x : List (ℕ → ℝ)) (i j : ℕ) : ℝ :=
  sampleCov x i j / (√(sampleCov x i i) * √(sampleCov x j j))

/-- `hrp_allocations`, HRP.py:93-111, for `n` instruments; `linkage` maps the distance matrix to the
integer linkage rows. -/
noncomputable def hrpAllocations (linkage : ℕ → (ℕ → ℕ → ℝ) → List Row) (n : ℕ)
    (x : List (ℕ → ℝ)) : Py (Labelled ℝ) := do
  let dist := corrToDist (sampleCorr x)
  let order ← quasiDiagonalize (linkage n dist)
  recursiveBisection (sampleCov x) order

end FinML.Alloc
