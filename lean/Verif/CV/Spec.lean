import Mathlib.Data.Int.Order.Basic
import Mathlib.Data.List.Basic

/-! # Specification of leakage-free splits -/

namespace FinML.CV

/-- Two closed time intervals do not meet. -/
def Apart (a b : ℤ × ℤ) : Prop := a.2 < b.1 ∨ b.2 < a.1

instance (a b : ℤ × ℤ) : Decidable (Apart a b) := inferInstanceAs (Decidable (_ ∨ _))

/-- Positions of the events that meet no test interval. -/
def admissible (events tests : List (ℤ × ℤ)) : List ℕ :=
  (events.zipIdx.filter fun r => decide (∀ t ∈ tests, Apart r.1 t)).map Prod.snd

/-- An interval with a known end, as a row. -/
def closeEv (e : ℤ × ℤ) : ℤ × Option ℤ := (e.1, some e.2)

end FinML.CV
