import Verif.Risk.Model
import Mathlib.Algebra.Order.Floor.Ring
import Mathlib.Algebra.Order.Archimedean.Real.Basic

/-!
# Model of financial_ml/utils/simulation.py and of the simulation in risk/strategy_risk.py

Numbers are real.  Random draws are parameters: `z t` is the standard normal number drawn in step `t`.
A generator is the list of the values it yields; it is taken to be consumed without other uses of
numpy's global random state in between.
-/

namespace FinML.Sim

open FinML.Risk

/-- The loop of `gen_geometric_brownian`, simulation.py:19-22, from value `s` at step `t`. -/
noncomputable def gbmLoop (z : ℕ → ℝ) (drift volatility interval : ℝ) : ℕ → ℕ → ℝ → List ℝ
  | 0, _, _ => []
  | n + 1, t, s =>
    let ret := drift * interval + volatility * √interval * z t
    let s' := s + s * ret
    s' :: gbmLoop z drift volatility interval n (t + 1) s'

/-- `gen_geometric_brownian`, simulation.py:5-22.  The root of a negative interval is NaN. -/
noncomputable def genGeometricBrownian (z : ℕ → ℝ) (s0 drift volatility : ℝ) (numSteps : ℕ)
    (interval : ℝ) : Py (List ℝ) :=
  if interval < 0 ∧ 0 < numSteps then .error .unmodelled
  else .ok (gbmLoop z drift volatility interval numSteps 0 s0)

/-- Where `norm.rvs(random_state=…)` takes its numbers from; simulation.py:17, 20, 41. -/
inductive RandomState
  /-- `None` or a generator object: a stream of numbers. -/
  | stream (z : ℕ → ℝ)
  /-- An integer: every call starts a new generator from it. -/
  | seed (s : ℕ)

/-- The number drawn in step `t`; `first s` is the first number of a generator started from `s`; simulation.py:17, 20, 41. -/
def RandomState.draw (first : ℕ → ℝ) : RandomState → ℕ → ℝ
  | .stream z, t => z t
  | .seed s, _ => first s

/-- The loop of `gen_discrete_ou_process`, simulation.py:40-42. -/
noncomputable def ouLoop (z : ℕ → ℝ) (forecast phi sigma : ℝ) : ℕ → ℕ → ℝ → List ℝ
  | 0, _, _ => []
  | n + 1, t, p =>
    let p' := (1 - phi) * forecast + phi * p + sigma * z t
    p' :: ouLoop z forecast phi sigma n (t + 1) p'

/-- `gen_discrete_ou_process`, simulation.py:25-42. -/
noncomputable def genDiscreteOu (first : ℕ → ℝ) (forecast halfLife sigma seed : ℝ) (numSteps : ℕ)
    (rs : RandomState) : Py (List ℝ) :=
  if halfLife = 0 then .error .zeroDivision
  else .ok (ouLoop (rs.draw first) forecast ((2 : ℝ) ^ (-1 / halfLife)) sigma numSteps 0 seed)

/-- `int(x)`: truncation toward zero; simulation.py:48-49. -/
noncomputable def pyInt (x : ℝ) : ℤ := if 0 ≤ x then ⌊x⌋ else ⌈x⌉

/-- The state of numpy's global random generator, as far as `gen_mixed_gaussians` uses it: the numbers for
the two samples and the way the result is shuffled; simulation.py:46-51. -/
structure Rng where
  /-- numbers of the first sample -/
  z1 : ℕ → ℝ
  /-- numbers of the second sample -/
  z2 : ℕ → ℝ
  /-- `np.random.shuffle` -/
  shuffle : List ℝ → List ℝ
  /-- a shuffle changes the order only -/
  perm : ∀ l, (shuffle l).Perm l

/-- `np.random.normal(mu, sigma, size)`: a negative deviation or size is a ValueError;
simulation.py:48-49. -/
noncomputable def normalSample (z : ℕ → ℝ) (mu sigma : ℝ) (size : ℤ) : Py (List ℝ) :=
  if sigma < 0 ∨ size < 0 then .error .valueError
  else .ok ((List.range size.toNat).map fun i => mu + sigma * z i)

/-- `if np_rand_seed: np.random.seed(np_rand_seed)`, simulation.py:46-47; `rngOf s` is the state started
from `s`, and 0 counts as false. -/
def startState (rngOf : ℕ → Rng) (current : Rng) : Option ℕ → Rng
  | none => current
  | some s => if s = 0 then current else rngOf s

/-- `gen_mixed_gaussians`, simulation.py:45-52. -/
noncomputable def genMixedGaussians (rngOf : ℕ → Rng) (current : Rng) (mu1 mu2 sigma1 sigma2 prob1 n : ℝ)
    (seed : Option ℕ) : Py (List ℝ) := do
  let rng := startState rngOf current seed
  let ret1 ← normalSample rng.z1 mu1 sigma1 (pyInt (n * prob1))
  let ret2 ← normalSample rng.z2 mu2 sigma2 (pyInt n - ret1.length)
  return rng.shuffle (ret1 ++ ret2)

/-- `simulate_strategy_probability_of_failure`, strategy_risk.py:75-92. -/
noncomputable def simulateProbabilityOfFailure (rngOf : ℕ → Rng) (current : Rng)
    (mu1 mu2 sigma1 sigma2 prob1 n freq target : ℝ) : Py (Option ℝ) := do
  let returns ← genMixedGaussians rngOf current mu1 mu2 sigma1 sigma2 prob1 n none
  probabilityOfFailure returns freq target

end FinML.Sim
