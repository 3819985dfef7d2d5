import Verif.CV.CombiModel

/-!
# `int(n * fraction)` in doubles

The embargo of cross_validation.py:40 and 104 and the share of the first component in simulation.py:48
are a number of items times a fraction, cut to an integer.  Elsewhere (`embargoTimes`, `kfoldEvents`,
`genMixedGaussians`) the product is exact; here both the fraction and the product go through a rounding.
The number of items is below 2^53 and so is a double itself.
-/

namespace FinML.CV

/-- `int(bar_times.shape[0] * embargo_pct)`, cross_validation.py:40, `int(num_obs * self.embargo_pct)`,
cross_validation.py:104, and `int(n_samples*prob1)`, simulation.py:48: `rd p` is the float the fraction `p`
is written as. -/
def countOf (rd : ℚ → ℚ) (n : ℕ) (p : ℚ) : ℤ := pyInt (rd ((n : ℚ) * rd p))

end FinML.CV
