import Verif.Alloc.HrpModel
import Verif.Py.Float

/-!
# Recursive bisection with infinities and NaN

`Verif/Alloc/HrpModel.lean` stops at a division by zero; here the division is that of numpy.
-/

namespace FinML.Alloc

variable {K : Type} [Field K] [LinearOrder K]

/-- Sum of floats; HRP.py:54, 61. -/
def sumF (l : List (Flt K)) : Flt K := l.foldl Flt.add (.fin 0)

/-- `_get_inverse_cov_portfolio` of the submatrix on `idx`, HRP.py:52-55. -/
def inverseVarianceF (cov : ℕ → ℕ → K) (idx : List ℕ) : List (Flt K) :=
  let res := idx.map fun i => Flt.div (.fin 1) (.fin (cov i i))
  res.map fun x => Flt.div x (sumF res)

/-- `np.dot(np.dot(weights.T, cov), weights)[0, 0]`, HRP.py:61. -/
def quadFormF (cov : ℕ → ℕ → K) (w : List (ℕ × Flt K)) : Flt K :=
  sumF (w.map fun q => Flt.mul (sumF (w.map fun p => Flt.mul p.2 (.fin (cov p.1 q.1)))) q.2)

/-- `_get_cluster_var`, HRP.py:58-62. -/
def clusterVarF (cov : ℕ → ℕ → K) (idx : List ℕ) : Flt K := quadFormF cov (idx.zip (inverseVarianceF cov idx))

/-- `weights[part] *= a`, HRP.py:88-89. -/
def scaleLabelsF (w : Labelled (Flt K)) (part : List ℕ) (a : Flt K) : Labelled (Flt K) :=
  w.map fun p => if p.1 ∈ part then (p.1, Flt.mul p.2 a) else p

/-- `alpha`, HRP.py:87. -/
def alphaF (var1 var2 : Flt K) : Flt K := Flt.sub (.fin 1) (Flt.div var1 (Flt.add var1 var2))

/-- The body of the inner loop, HRP.py:85-89. -/
def splitWeightsF (cov : ℕ → ℕ → K) (part1 part2 : List ℕ) (w : Labelled (Flt K)) : Labelled (Flt K) :=
  let alpha := alphaF (clusterVarF cov part1) (clusterVarF cov part2)
  scaleLabelsF (scaleLabelsF w part1 alpha) part2 (Flt.sub (.fin 1) alpha)

/-- The inner loop over pairs of consecutive partitions, HRP.py:82-89. -/
def pairLoopF (cov : ℕ → ℕ → K) : List (List ℕ) → Labelled (Flt K) → Py (Labelled (Flt K))
  | [], w => .ok w
  | [_], _ => .error .indexError
  | p1 :: p2 :: rest, w => pairLoopF cov rest (splitWeightsF cov p1 p2 w)

/-- The outer loop of `_recursive_bisection`, HRP.py:75-89; the first argument bounds the number of
passes (running out of it is reported as `runtimeError`). -/
def bisectLoopF (cov : ℕ → ℕ → K) : ℕ → List (List ℕ) → Labelled (Flt K) → Py (Labelled (Flt K))
  | 0, parts, w => if parts = [] then .ok w else .error .runtimeError
  | fuel + 1, parts, w =>
    if parts = [] then .ok w
    else do
      let w' ← pairLoopF cov (parts.flatMap halves) w
      bisectLoopF cov fuel (parts.flatMap halves) w'

/-- `_recursive_bisection`, HRP.py:65-90, in floats. -/
def recursiveBisectionF (cov : ℕ → ℕ → K) (sortIndices : List ℕ) : Py (Labelled (Flt K)) :=
  bisectLoopF cov (sortIndices.length + 1) [sortIndices] (sortIndices.map fun i => (i, .fin 1))

/-- `np.sqrt`, HRP.py:21. -/
noncomputable def sqrtF : Flt ℝ → Flt ℝ
  | .fin x => if x < 0 then .nan else .fin (√x)
  | .posInf => .posInf
  | .negInf => .nan
  | .nan => .nan

/-- `np.corrcoef(returns_mat, rowvar=False)`, HRP.py:106: the covariances are divided by one deviation, then by the
other.  Numpy then clips to `[-1, 1]`, which changes nothing in exact arithmetic. -/
noncomputable def sampleCorrF (x : List (ℕ → ℝ)) (i j : ℕ) : Flt ℝ :=
  Flt.div (Flt.div (.fin (sampleCov x i j)) (sqrtF (.fin (sampleCov x i i)))) (sqrtF (.fin (sampleCov x j j)))

/-- `_corr_to_dist`, HRP.py:13-21. -/
noncomputable def corrToDistF (corr : ℕ → ℕ → Flt ℝ) (i j : ℕ) : Flt ℝ :=
  sqrtF (Flt.div (Flt.sub (.fin 1) (corr i j)) (.fin 2))

/-- The euclidean distance of two rows of the distance matrix, which scipy's `linkage` computes when it is given a
square matrix; HRP.py:108. -/
noncomputable def rowDistF (n : ℕ) (d : ℕ → ℕ → Flt ℝ) (i j : ℕ) : Flt ℝ :=
  sqrtF (sumF ((List.range n).map fun k => Flt.mul (Flt.sub (d i k) (d j k)) (Flt.sub (d i k) (d j k))))

/-- A float that is neither infinite nor NaN; HRP.py:108. -/
def isFin : Flt ℝ → Bool
  | .fin _ => true
  | _ => false

/-- The finite part of a float; HRP.py:108. -/
def finPart : Flt ℝ → ℝ
  | .fin x => x
  | _ => 0

/-- `linkage(dist_mat)`, HRP.py:108: scipy raises ValueError for fewer than two rows and when some distance between
rows is not finite. -/
noncomputable def linkageF (linkage : ℕ → (ℕ → ℕ → ℝ) → List Row) (n : ℕ) (d : ℕ → ℕ → Flt ℝ) : Py (List Row) :=
  if n < 2 then .error .valueError
  else if ((List.range n).all fun i => (List.range i).all fun j => isFin (rowDistF n d j i)) then
    .ok (linkage n fun i j => finPart (d i j))
  else .error .valueError

/-- `hrp_allocations`, HRP.py:93-111, for `n` instruments, in floats. -/
noncomputable def hrpAllocationsF (linkage : ℕ → (ℕ → ℕ → ℝ) → List Row) (n : ℕ) (x : List (ℕ → ℝ)) :
    Py (Labelled (Flt ℝ)) := do
  let rows ← linkageF linkage n (corrToDistF (sampleCorrF x))
  let order ← quasiDiagonalize rows
  recursiveBisectionF (sampleCov x) order

end FinML.Alloc
