import Verif.Weights.Model
import Mathlib.Order.Bounds.Basic

/-!
# What the weights should be

Shares only the table types with the model.
-/

namespace FinML.Weights

variable {K : Type} [Field K] [LinearOrder K] [IsStrictOrderedRing K]

/-- The number of events that are running at time `t`. -/
def running (events : List (ℤ × ℤ)) (t : ℤ) : ℕ := events.countP fun e => e.1 ≤ t ∧ t ≤ e.2

/-- The bars of an event. -/
def barsOf (bars : List ℤ) (e : ℤ × ℤ) : List ℤ := bars.filter fun t => e.1 ≤ t ∧ t ≤ e.2

/-- The mean over the bars of the event of one over the number of events running. -/
def avgUniq (K : Type) [Field K] (bars : List ℤ) (events : List (ℤ × ℤ)) (e : ℤ × ℤ) : K :=
  ((barsOf bars e).map fun t => 1 / (running events t : K)).sum / ((barsOf bars e).length : K)

/-- An indicator matrix given by its columns: entries 0 or 1, `m` rows, no empty column. -/
structure Indicator (cols : List (List ℕ)) (m : ℕ) : Prop where
  len : ∀ c ∈ cols, c.length = m
  entry : ∀ c ∈ cols, ∀ x ∈ c, x = 0 ∨ x = 1
  nonempty : ∀ c ∈ cols, 1 ∈ c

/-- Event `i` is running at row `b`. -/
def On (cols : List (List ℕ)) (i b : ℕ) : Prop := ∃ c, cols[i]? = some c ∧ c[b]? = some 1

instance (cols : List (List ℕ)) (i b : ℕ) : Decidable (On cols i b) :=
  match h : cols[i]? with
  | none => isFalse (by rintro ⟨c, hc, _⟩; rw [h] at hc; cases hc)
  | some c => if h' : c[b]? = some 1 then isTrue ⟨c, h, h'⟩
      else isFalse (by rintro ⟨c', hc, hb⟩; rw [h] at hc; cases hc; exact h' hb)

/-- The uniqueness event `i` would have after the draws `samples`: the mean over its rows of one over
one plus the number of draws running in that row. -/
def newUniq (K : Type) [Field K] (cols : List (List ℕ)) (m : ℕ) (samples : List ℕ) (i : ℕ) : K :=
  (((List.range m).filter fun b => On cols i b).map fun b : ℕ =>
      1 / (1 + ((samples.countP fun s => On cols s b : ℕ) : K))).sum /
    (((List.range m).filter fun b => On cols i b).length : K)

/-- The return attributed to an event: over the bars of the event, the log return of the bar divided
by the number of events running there (bars without a count contribute nothing). -/
noncomputable def attributed (counts : Series ℕ) (e : ℤ × ℤ) : Series ℝ → ℝ
  | a :: b :: bars =>
    (if e.1 ≤ b.1 ∧ b.1 ≤ e.2 then
      match counts.find? fun q => q.1 = b.1 with
      | some c => Real.log (b.2 / a.2) / (c.2 : ℝ)
      | none => 0
     else 0) + attributed counts e (b :: bars)
  | _ => 0

/-- The total uniqueness of the observations up to and including time `t`. -/
def uniqUpTo (obs : Series K) (t : ℤ) : K := ((obs.filter fun p => p.1 ≤ t).map Prod.snd).sum

end FinML.Weights
