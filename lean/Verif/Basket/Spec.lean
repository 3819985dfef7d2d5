import Verif.Basket.Model

/-!
# What a user expects of the basket series and of rolled prices

Written without the loop of the model; only the input record is shared.
-/

namespace FinML.Basket

variable {K : Type} [Field K] [LinearOrder K] [IsStrictOrderedRing K] {m : ℕ}

/-- The bars at which the basket is actually rebalanced: listed, not the first, not the last. -/
def EffRebal (inp : Input K m) (t : ℕ) : Prop :=
  1 ≤ t ∧ t + 1 < inp.num ∧ (t : ℤ) ∈ inp.rebal

/-- Gross weight of a bar. -/
def gross (inp : Input K m) (t : ℕ) : K := ∑ i, |inp.weights t i|

/-- Everything that is divided by is non-zero. -/
structure WellFormed (inp : Input K m) : Prop where
  bars : 0 < inp.num
  instr : 0 < m
  gross0 : gross inp 0 ≠ 0
  price0 : ∀ i, inp.closes 0 i * inp.fx 0 i ≠ 0
  grossR : ∀ t, EffRebal inp t → gross inp t ≠ 0
  priceR : ∀ t, EffRebal inp t → ∀ i, inp.opens (t + 1) i * inp.fx t i ≠ 0

/-- The price move that counts on bar `t`: from the open if the previous bar is listed as rebalance
bar, from the previous close otherwise. -/
def priceMove (inp : Input K m) (t : ℕ) (i : Fin m) : K :=
  if (t : ℤ) - 1 ∈ inp.rebal then inp.closes t i - inp.opens t i
  else inp.closes t i - inp.closes (t - 1) i

/-- `s` is the last rebalance at or before `t`. -/
def LastRebal (inp : Input K m) (t s : ℕ) : Prop :=
  s ≤ t ∧ EffRebal inp s ∧ ∀ u, s < u → u ≤ t → ¬ EffRebal inp u

/-- `h` units of instrument `i` are held after bar `t`, if the basket is worth `V`: bought with the
basket value of the last rebalance, at the next open, in proportion to the weights; or, if there
was none, bought with 1 at the first close. -/
def Held (inp : Input K m) (V : ℕ → K) (t : ℕ) (i : Fin m) (h : K) : Prop :=
  (∃ s, LastRebal inp t s ∧
    h * (inp.opens (s + 1) i * inp.fx s i) = V s * (inp.weights s i / gross inp s)) ∨
  ((∀ u ≤ t, ¬ EffRebal inp u) ∧
    h * (inp.closes 0 i * inp.fx 0 i) = inp.weights 0 i / gross inp 0)

/-- Profit of holding `H` over bar `t`. -/
def profit (inp : Input K m) (H : Fin m → K) (t : ℕ) : K :=
  ∑ i, H i * (priceMove inp t i + inp.dividends t i) * inp.fx t i

/-- Multiply row `t` of the weights by `c t`. -/
def scaleWeights (c : ℕ → K) (inp : Input K m) : Input K m :=
  { inp with weights := fun t i => c t * inp.weights t i }

/-! ## Rolled series -/

/-- Bar `i` is the first one of its contract, and not the first bar. -/
def IsRoll {C : Type} (contracts : List C) (i : ℕ) : Prop :=
  0 < i ∧ ∃ c, contracts[i]? = some c ∧ ∀ j < i, contracts[j]? ≠ some c

/-- Bar `i` has another contract than the bar before. -/
def Changes {C : Type} (contracts : List C) (i : ℕ) : Prop :=
  0 < i ∧ i < contracts.length ∧ contracts[i]? ≠ contracts[i - 1]?

/-- All columns have one entry per bar. -/
def FrameOk {C : Type} (bars : Frame K) (contracts : List C) : Prop :=
  ∀ c, (bars c).length = contracts.length

end FinML.Basket
