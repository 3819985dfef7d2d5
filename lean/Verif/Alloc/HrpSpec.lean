import Verif.Alloc.HrpModel
import Mathlib.Algebra.BigOperators.Group.Finset.Basic

/-!
# Specification notions for hierarchical risk parity
-/

namespace FinML.Alloc

variable {K : Type} [Field K] [LinearOrder K] [IsStrictOrderedRing K]

/-- A correlation matrix of `n` variables: symmetric, unit diagonal, positive semidefinite. -/
structure IsCorr (n : ℕ) (corr : ℕ → ℕ → ℝ) : Prop where
  symm : ∀ i < n, ∀ j < n, corr i j = corr j i
  diag : ∀ i < n, corr i i = 1
  psd : ∀ x : ℕ → ℝ, 0 ≤ ∑ i ∈ Finset.range n, ∑ j ∈ Finset.range n, x i * corr i j * x j

/-- The number of items below node `c` according to the last column of the linkage matrix. -/
def itemsOf (n : ℕ) (rows : List Row) (c : ℕ) : ℕ :=
  if c < n then 1 else (rows[c - n]?.map Row.items).getD 0

/-- A valid linkage matrix of `n` items: `n - 1` merges, row `k` merges two nodes made before it (an
item, or an earlier merge), no node is merged twice, and the last column counts the items. -/
structure ValidLinkage (n : ℕ) (rows : List Row) : Prop where
  two_le : 2 ≤ n
  length : rows.length + 1 = n
  earlier : ∀ (k : ℕ) (r : Row), rows[k]? = some r → r.left < n + k ∧ r.right < n + k
  once : (rows.flatMap fun r => [r.left, r.right]).Nodup
  counts : ∀ (k : ℕ) (r : Row), rows[k]? = some r →
    r.items = itemsOf n rows r.left + itemsOf n rows r.right

/-- `Leaves n rows c l`: `l` lists the leaves below node `c` of the dendrogram, from left to right.
Node `n + k` is the merge of row `k`. -/
inductive Leaves (n : ℕ) (rows : List Row) : ℕ → List ℕ → Prop
  | item (c : ℕ) (h : c < n) : Leaves n rows c [c]
  | merge (k : ℕ) (r : Row) (a b : List ℕ) (h : rows[k]? = some r) (ha : Leaves n rows r.left a)
      (hb : Leaves n rows r.right b) : Leaves n rows (n + k) (a ++ b)

/-- The variance of the inverse variance portfolio of a group of assets. -/
def groupVar (cov : ℕ → ℕ → K) (g : List ℕ) : K :=
  (g.map fun j => (g.map fun i =>
    (1 / cov i i) * cov i j * (1 / cov j j)).sum).sum / (g.map fun i => 1 / cov i i).sum ^ 2

/-- `Bisect cov w g res`: the weight `w` is spread over the group `g` by halving it repeatedly, each
half receiving a share proportional to the variance of the other one. -/
inductive Bisect (cov : ℕ → ℕ → K) : K → List ℕ → List (ℕ × K) → Prop
  | nil (w : K) : Bisect cov w [] []
  | one (w : K) (i : ℕ) : Bisect cov w [i] [(i, w)]
  | split (w : K) (a b : List ℕ) (ra rb : List (ℕ × K)) (hne : a ≠ [])
      (hlen : b.length = a.length ∨ b.length = a.length + 1)
      (ha : Bisect cov (w * (groupVar cov b / (groupVar cov a + groupVar cov b))) a ra)
      (hb : Bisect cov (w * (groupVar cov a / (groupVar cov a + groupVar cov b))) b rb) :
      Bisect cov w (a ++ b) (ra ++ rb)

end FinML.Alloc
