import Verif.CV.Props

/-! # C371: purging has no direction -/

set_option linter.unusedSectionVars false

namespace FinML.CV

variable {K : Type} [Field K] [LinearOrder K] [IsStrictOrderedRing K] [FloorRing K]

/-- An interval seen in reversed time. -/
def mirrored (e : ℤ × ℤ) : ℤ × ℤ := (-e.2, -e.1)

theorem overlaps_mirrored (t e : ℤ × ℤ) :
    overlaps (closeEv (mirrored t)) (closeEv (mirrored e)) = overlaps (closeEv t) (closeEv e) := by
  rw [Bool.eq_iff_iff]
  unfold overlaps closeEv leO oLeO mirrored
  simp only [Bool.or_eq_true, Bool.and_eq_true, decide_eq_true_eq]
  omega

/-- Purging in terms of the single overlaps. -/
theorem applyPurging_closed (events tests : List (ℤ × ℤ)) (pct : K) :
    applyPurging (events.map closeEv) (tests.map closeEv) none pct = .ok ((events.zipIdx.filter fun r =>
      decide (∀ t ∈ tests, overlaps (closeEv t) (closeEv r.1) = false)).map Prod.snd) := by
  unfold applyPurging adjusted purgedTrain
  rw [py_bind_ok, py_pure, purged_fold]
  congr 1
  rw [List.zipIdx_map, List.filter_map, List.map_map]
  have h1 : (Prod.snd ∘ Prod.map closeEv id : (ℤ × ℤ) × ℕ → ℕ) = Prod.snd := by
    funext r; rfl
  rw [h1]
  congr 1
  apply List.filter_congr
  intro r _
  rw [Function.comp_apply, decide_eq_decide]
  simp only [List.forall_mem_map]
  rfl

/-- C371.  Without embargo the same events are kept in reversed time, even if some end before they start. -/
theorem C371_reversed_time (events tests : List (ℤ × ℤ)) (pct : K) :
    applyPurging ((events.map mirrored).map closeEv) ((tests.map mirrored).map closeEv) none pct =
      applyPurging (events.map closeEv) (tests.map closeEv) none pct := by
  rw [applyPurging_closed, applyPurging_closed]
  congr 1
  rw [List.zipIdx_map, List.filter_map, List.map_map]
  have h1 : (Prod.snd ∘ Prod.map mirrored id : (ℤ × ℤ) × ℕ → ℕ) = Prod.snd := by
    funext r; rfl
  rw [h1]
  congr 1
  apply List.filter_congr
  intro r _
  rw [Function.comp_apply, decide_eq_decide]
  simp only [List.forall_mem_map]
  refine forall₂_congr fun t _ => ?_
  rw [← overlaps_mirrored t r.1]
  rfl

/-- Purging is mutual: of two events one is kept by the other exactly if the other is kept by it. -/
def PurgingIsMutual : Prop := ∀ e t : Event, (∀ b, e.2 = some b → e.1 ≤ b) → (∀ b, t.2 = some b → t.1 ≤ b) →
  (applyPurging [e] [t] none (0 : ℚ) = .ok [0] ↔ applyPurging [t] [e] none (0 : ℚ) = .ok [0])

/-- C371.  An event is kept by the tests exactly if all the tests are kept by the event.  Missing: events that have not
ended, C371_mutual_counterexample. -/
theorem C371_mutual_partial (events tests : List (ℤ × ℤ)) (he : ∀ e ∈ events, e.1 ≤ e.2) (ht : ∀ t ∈ tests, t.1 ≤ t.2)
    (pct : K) (i : ℕ) (e : ℤ × ℤ) (hi : events[i]? = some e) :
    (∃ tr, applyPurging (events.map closeEv) (tests.map closeEv) none pct = .ok tr ∧ i ∈ tr) ↔
      applyPurging (tests.map closeEv) [closeEv e] none pct = .ok (List.range tests.length) := by
  have hee : e ∈ events := List.mem_of_getElem? hi
  have hsym : ∀ t ∈ tests, (overlaps (closeEv t) (closeEv e) = false ↔ overlaps (closeEv e) (closeEv t) = false) := by
    intro t htm
    rw [overlaps_iff t e (ht t htm) (he e hee), overlaps_iff e t (he e hee) (ht t htm)]
    unfold Apart
    omega
  have hl : (∃ tr, applyPurging (events.map closeEv) (tests.map closeEv) none pct = .ok tr ∧ i ∈ tr) ↔
      ∀ t ∈ tests, overlaps (closeEv t) (closeEv e) = false := by
    rw [applyPurging_closed]
    constructor
    · rintro ⟨tr, h, hm⟩
      cases h
      obtain ⟨r, hr, rfl⟩ := List.mem_map.1 hm
      obtain ⟨hr1, hr2⟩ := List.mem_filter.1 hr
      have := List.mem_zipIdx_iff_getElem?.1 hr1
      rw [hi] at this
      cases this
      exact of_decide_eq_true hr2
    · intro h
      refine ⟨_, rfl, List.mem_map.2 ⟨(e, i), List.mem_filter.2 ⟨List.mem_zipIdx_iff_getElem?.2 hi, ?_⟩, rfl⟩⟩
      exact decide_eq_true h
  have hcl := applyPurging_closed tests [e] pct
  rw [List.map_cons, List.map_nil] at hcl
  rw [hl, hcl]
  have hz : (tests.zipIdx.map Prod.snd) = List.range tests.length := by
    rw [List.zipIdx_map_snd, List.range_eq_range']
  constructor
  · intro h
    congr 1
    rw [← hz]
    congr 1
    rw [List.filter_eq_self]
    intro r hr
    have hrm : r.1 ∈ tests := List.mem_of_getElem? (List.mem_zipIdx_iff_getElem?.1 hr)
    simpa using (hsym r.1 hrm).1 (h r.1 hrm)
  · intro h t htm
    injection h with h
    have hlen := congrArg List.length h
    rw [List.length_map, List.length_range, ← List.length_zipIdx (l := tests) (i := 0),
      List.length_filter_eq_length_iff] at hlen
    obtain ⟨j, hj⟩ := List.mem_iff_getElem?.1 htm
    have := hlen (t, j) (List.mem_zipIdx_iff_getElem?.2 hj)
    exact (hsym t htm).2 (by simpa using this)

/-- C371.  An event that starts within a test and has not ended is purged, but the test is not purged by it. -/
theorem C371_mutual_counterexample : ¬ PurgingIsMutual := by
  intro h
  have := (h (1, none) (0, some 2) (by simp) (by simp)).2 (by decide +kernel)
  exact absurd this (by decide +kernel)

example : applyPurging ([(0, 1), (2, 5), (10, 11)].map closeEv) ([(3, 4)].map closeEv) none (0 : ℚ) = .ok [0, 2] ∧
    applyPurging ([(3, 4)].map closeEv) [closeEv (10, 11)] none (0 : ℚ) = .ok [0] := by decide +kernel

end FinML.CV
