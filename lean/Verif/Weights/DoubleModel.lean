import Verif.Weights.Model
import Verif.Alloc.DoubleModel

/-!
# The draw of the sequential bootstrap in doubles, weighting.py:105-106

`Verif/Weights/Model.lean` divides exactly; here the sum and the quotients are rounded.  `Series.sum` adds the numbers
in an order of its own, so any order of rounded additions is allowed.  `np.random.choice` adds the probabilities with
compensation (Kahan) and raises if the result differs from one by more than the root of the machine epsilon.
-/

namespace FinML.Weights

/-- `trial_avg_uniq.sum()`, weighting.py:105: a number reached by adding in some order, every addition rounded. -/
inductive RSum (rd : ℚ → ℚ) : List ℚ → ℚ → Prop
  | one (x : ℚ) : RSum rd [x] x
  | add {l r : List ℚ} {s t : ℚ} : RSum rd l s → RSum rd r t → RSum rd (l ++ r) (rd (s + t))
  | perm {l r : List ℚ} {s : ℚ} : l.Perm r → RSum rd l s → RSum rd r s

/-- `trial_avg_uniq / trial_avg_uniq.sum()`, weighting.py:105, with rounded quotients. -/
def probsR (rd : ℚ → ℚ) (total : ℚ) (us : List ℚ) : List ℚ := us.map fun u => rd (u / total)

/-- The loop of numpy's compensated sum, called at weighting.py:106 by `np.random.choice`: sum and compensation. -/
def kahanLoop (rd : ℚ → ℚ) : ℚ → ℚ → List ℚ → ℚ
  | s, _, [] => s
  | s, c, p :: rest =>
    let y := rd (p - c)
    let t := rd (s + y)
    kahanLoop rd t (rd (rd (t - s) - y)) rest

/-- numpy's compensated sum, weighting.py:106. -/
def kahanSum (rd : ℚ → ℚ) : List ℚ → ℚ
  | [] => 0
  | p :: rest => kahanLoop rd p 0 rest

/-- The checks of `np.random.choice`, weighting.py:106: no probability is negative and their sum is within
`2^-26`, the root of the machine epsilon, of one. -/
def choiceAccepts (rd : ℚ → ℚ) (ps : List ℚ) : Bool :=
  ps.all (fun p => decide (0 ≤ p)) && decide (|kahanSum rd ps - 1| ≤ 1 / 2 ^ 26)

end FinML.Weights
