import Mathlib.Analysis.SpecialFunctions.Pow.Real
import Mathlib.Data.Nat.Choose.Sum

/-! # What a binomial option price should be -/

namespace FinML.Options

/-- The Cox-Ross-Rubinstein parameters of `n` steps over the time `t`: the price moves by the factor `u`
or by its reciprocal, and the probability of going up makes the expected growth that of a forward. -/
structure CRR (t r sigma q : ℝ) (n : ℕ) (u d p : ℝ) : Prop where
  up : u = Real.exp (sigma * √(t / n))
  down : u * d = 1
  move : u ≠ d
  drift : p * u + (1 - p) * d = Real.exp ((r - q) * (t / n))

/-- The drift of one step is within its movement, which makes `p` a probability. -/
def DriftOk (t r sigma q : ℝ) (n : ℕ) : Prop := |r - q| * √(t / n) ≤ sigma

/-- All sequences of `n` moves. -/
def paths : ℕ → List (List Bool)
  | 0 => [[]]
  | n + 1 => (paths n).map (true :: ·) ++ (paths n).map (false :: ·)

/-- The first time at which a policy, which sees the moves so far, exercises; at the end anyway. -/
def stopTime (stop : List Bool → Bool) (path : List Bool) : ℕ :=
  ((List.range path.length).find? fun i : ℕ => stop (path.take i)).getD path.length

/-- The price after some moves. -/
noncomputable def priceAfter (u d s0 : ℝ) (moves : List Bool) : ℝ :=
  s0 * u ^ moves.count true * d ^ moves.count false

/-- The expected discounted value of exercising by a policy. -/
noncomputable def policyValue (u d p disc : ℝ) (pay : ℝ → ℝ) (n : ℕ) (stop : List Bool → Bool) (s0 : ℝ) : ℝ :=
  ((paths n).map fun path : List Bool =>
    p ^ path.count true * (1 - p) ^ path.count false *
      (disc ^ stopTime stop path * pay (priceAfter u d s0 (path.take (stopTime stop path))))).sum

end FinML.Options
