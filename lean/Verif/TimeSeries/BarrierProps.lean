import Verif.TimeSeries.Props

/-! # Property C324: vertical barriers of other holding periods, later events and more bars -/

namespace FinML.TimeSeries

/-- The full claim: lengthening the holding period never makes the barrier of an event earlier. -/
def LongerLater : Prop :=
  ∀ (index events : List ℤ) (h h' : ℤ) (e b b' : ℤ), index.Pairwise (· < ·) → events.Nodup → h ≤ h' →
    (e, b) ∈ verticalBarriers index events h → (e, b') ∈ verticalBarriers index events h' → b ≤ b'

theorem FirstFrom.mono {index : List ℤ} {t t' x x' : ℤ} (ht : t ≤ t') (h : FirstFrom index t x)
    (h' : FirstFrom index t' x') : x ≤ x' := h.2 ⟨h'.1.1, ht.trans h'.1.2⟩

theorem FirstFrom.unique {index : List ℤ} {t x x' : ℤ} (h : FirstFrom index t x) (h' : FirstFrom index t x') : x = x' :=
  le_antisymm (h.mono le_rfl h') (h'.mono le_rfl h)

/-- C324 (partial).  For events in increasing order a longer holding period gives no earlier barrier, and barriers to no
event that had none before.  Missing: events out of order, see `C324_longer_counterexample`. -/
theorem C324_longer_partial (index events : List ℤ) (h h' : ℤ) (hs : index.Pairwise (· < ·))
    (he : events.Pairwise (· ≤ ·)) (hh : h ≤ h') :
    ∀ e b', (e, b') ∈ verticalBarriers index events h' →
      ∃ b, (e, b) ∈ verticalBarriers index events h ∧ b ≤ b' := by
  intro e b' hb'
  obtain ⟨r1, r2, -⟩ := C30_vertical_barriers_partial index events h hs he
  obtain ⟨f1, -, -⟩ := C30_vertical_barriers_partial index events h' hs he
  obtain ⟨hm, hf⟩ := f1 e b' hb'
  have hle : e + h * oneDay ≤ e + h' * oneDay := by
    have : (0 : ℤ) ≤ oneDay := by decide
    nlinarith
  have := r2 e hm ⟨b', hf.1.1, hle.trans hf.1.2⟩
  obtain ⟨⟨e1, b⟩, hmem, rfl⟩ := List.mem_map.1 this
  exact ⟨b, hmem, (r1 _ b hmem).2.mono hle hf⟩

/-- C324.  Of two events the later one has no earlier barrier. -/
theorem C324_later (index events : List ℤ) (h : ℤ) (hs : index.Pairwise (· < ·)) (he : events.Pairwise (· ≤ ·))
    (e e' b b' : ℤ) (hle : e ≤ e') (hb : (e, b) ∈ verticalBarriers index events h)
    (hb' : (e', b') ∈ verticalBarriers index events h) : b ≤ b' := by
  obtain ⟨r1, -, -⟩ := C30_vertical_barriers_partial index events h hs he
  exact (r1 _ _ hb).2.mono (by omega) (r1 _ _ hb').2

/-- C324.  Bars that come in after the last one change no barrier; bars in between only bring barriers forward. -/
theorem C324_bars (index index' events : List ℤ) (h : ℤ) (hs : index.Pairwise (· < ·)) (hs' : index'.Pairwise (· < ·))
    (he : events.Pairwise (· ≤ ·)) (hsub : ∀ t ∈ index, t ∈ index') :
    ∀ e b, (e, b) ∈ verticalBarriers index events h → ∃ b', (e, b') ∈ verticalBarriers index' events h ∧ b' ≤ b ∧
      ((∀ t ∈ index', t ∉ index → b < t) → b' = b) := by
  intro e b hb
  obtain ⟨r1, -, -⟩ := C30_vertical_barriers_partial index events h hs he
  obtain ⟨f1, f2, -⟩ := C30_vertical_barriers_partial index' events h hs' he
  obtain ⟨hm, hf⟩ := r1 e b hb
  have := f2 e hm ⟨b, hsub b hf.1.1, hf.1.2⟩
  obtain ⟨⟨e1, b'⟩, hmem, rfl⟩ := List.mem_map.1 this
  have hf' := (f1 _ b' hmem).2
  have hle : b' ≤ b := hf'.2 ⟨hsub b hf.1.1, hf.1.2⟩
  refine ⟨b', hmem, hle, fun hnew => le_antisymm hle ?_⟩
  by_cases hin : b' ∈ index
  · exact hf.2 ⟨hin, hf'.1.2⟩
  · exact absurd (hnew b' hf'.1.1 hin) (by omega)

/-- C324 (refuted).  Days 0 to 3 as bars, events on days 2 and 0: after two days only the second event has a barrier, on
day 2, which the first event gets; after one day the first has its own on day 3. -/
theorem C324_longer_counterexample : ¬ LongerLater := by
  intro h
  have := h [0, day, 2 * day, 3 * day] [2 * day, 0] 1 2 (2 * day) (3 * day) (2 * day) (by decide) (by decide) (by decide)
    (by decide) (by decide)
  revert this
  decide

/-- Bars on days 0, 3, 5 and events within the hypotheses: the barrier of day 0 after one and after four days. -/
example : (0, 3 * day) ∈ verticalBarriers [0, 3 * day, 5 * day] [0, day] 1 ∧
    (0, 5 * day) ∈ verticalBarriers [0, 3 * day, 5 * day] [0, day] 4 ∧
    ([0, 3 * day, 5 * day] : List ℤ).Pairwise (· < ·) ∧ ([0, day] : List ℤ).Pairwise (· ≤ ·) := by decide

end FinML.TimeSeries
