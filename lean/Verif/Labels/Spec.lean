import Verif.Labels.Model
import Mathlib.Order.Bounds.Basic

/-!
# What a user expects of the triple barrier

Only the table types of the model are shared.
-/

namespace FinML.Labels

variable {K : Type} [Field K] [LinearOrder K] [IsStrictOrderedRing K]

/-- Index strictly increasing. -/
def SortedTable (prices : List (Row K)) : Prop := (prices.map Row.time).Pairwise (· < ·)

/-- Return of a trade of the given side entered at `s0`, at price `p`. -/
def tradeRet (side : ℤ) (s0 p : K) : K := (side : K) * (p / s0 - 1)

/-- The best price of the bar for the trade. -/
def bestPrice (side : ℤ) (r : Row K) : Option K := if side = 1 then r.high else r.low

/-- The worst price of the bar for the trade. -/
def worstPrice (side : ℤ) (r : Row K) : Option K := if side = 1 then r.low else r.high

/-- The trade of event `e` (side `side`, entered at `s0`) crosses the profit-taking barrier on the
bar at time `t`, not after `expiry`. -/
def HitsPT (prices : List (Row K)) (ptMul : K) (e : Event K) (side : ℤ) (s0 : K) (expiry t : ℤ) :
    Prop :=
  e.start ≤ t ∧ t ≤ expiry ∧ 0 < ptMul ∧ ∃ r ∈ prices, r.time = t ∧
    ∃ p target, bestPrice side r = some p ∧ e.target = some target ∧
      ptMul * target < tradeRet side s0 p

/-- Same for the stop-loss barrier. -/
def HitsSL (prices : List (Row K)) (slMul : K) (e : Event K) (side : ℤ) (s0 : K) (expiry t : ℤ) :
    Prop :=
  e.start ≤ t ∧ t ≤ expiry ∧ 0 < slMul ∧ ∃ r ∈ prices, r.time = t ∧
    ∃ p target, worstPrice side r = some p ∧ e.target = some target ∧
      tradeRet side s0 p < -(slMul * target)

/-- An event that can be evaluated: side 1 or -1, entered at the open `s0 ≠ 0` of its start bar, and
an expiry that is on the index. -/
structure Tradable (prices : List (Row K)) (e : Event K) (side : ℤ) (s0 : K) (expiry : ℤ) : Prop where
  side_eq : e.side = some side
  side_ok : side = 1 ∨ side = -1
  start : ∃ r ∈ prices, r.time = e.start ∧ r.op = some s0
  s0_ne : s0 ≠ 0
  expiry_mem : ∃ r ∈ prices, r.time = expiry

/-- The times recorded for the event are right: first crossing of each barrier, end at the earliest
crossing or at the expiry. -/
structure EndsAtFirstBarrier (prices : List (Row K)) (ptMul slMul : K) (e : Event K) (side : ℤ)
    (s0 : K) (expiry : ℤ) (o : Outcome K) : Prop where
  pt_none : o.ptTime = none ↔ ∀ t, ¬ HitsPT prices ptMul e side s0 expiry t
  pt_first : ∀ t, o.ptTime = some t ↔ IsLeast {t | HitsPT prices ptMul e side s0 expiry t} t
  sl_none : o.slTime = none ↔ ∀ t, ¬ HitsSL prices slMul e side s0 expiry t
  sl_first : ∀ t, o.slTime = some t ↔ IsLeast {t | HitsSL prices slMul e side s0 expiry t} t
  end_hit : ∀ t, (HitsPT prices ptMul e side s0 expiry t ∨ HitsSL prices slMul e side s0 expiry t) →
    IsLeast {t | HitsPT prices ptMul e side s0 expiry t ∨
      HitsSL prices slMul e side s0 expiry t} o.endTime
  end_expiry : (∀ t, ¬ HitsPT prices ptMul e side s0 expiry t ∧
    ¬ HitsSL prices slMul e side s0 expiry t) → o.endTime = expiry

/-- The table after filling: the given times, each with the first row at or after it. -/
def IsFilled (prices filled : List (Row K)) (times : List ℤ) : Prop :=
  SortedTable filled ∧ (∀ t, (∃ r ∈ filled, r.time = t) ↔ t ∈ times) ∧
  ∀ r ∈ filled,
    (∃ q ∈ prices, r.time ≤ q.time ∧ (∀ q' ∈ prices, r.time ≤ q'.time → q.time ≤ q'.time) ∧
      r.op = q.op ∧ r.high = q.high ∧ r.low = q.low ∧ r.close = q.close) ∨
    ((∀ q ∈ prices, q.time < r.time) ∧
      r.op = none ∧ r.high = none ∧ r.low = none ∧ r.close = none)

end FinML.Labels
