import Verif.CV.Props

/-! # Purging one test interval after the other (C219) -/

namespace FinML.CV

set_option linter.unusedSectionVars false

variable {K : Type} [Field K] [LinearOrder K] [IsStrictOrderedRing K] [FloorRing K]

theorem purgedTrain_eq (events tests : List Event) :
    purgedTrain events tests =
      (events.zipIdx.filter fun r => decide (∀ t ∈ tests, overlaps t r.1 = false)).map Prod.snd := by
  unfold purgedTrain
  congr 1
  generalize events.zipIdx = rows
  induction tests generalizing rows with
  | nil => simp
  | cons t ts ih =>
    rw [List.foldl_cons, ih, List.filter_filter]
    apply List.filter_congr
    intro r _
    by_cases h : overlaps t r.1 = true
    · simp [h]
    · rw [Bool.not_eq_true] at h
      simp [h]

/-- The tests of a successful adjustment are adjusted one by one. -/
theorem adjustTests_ok (m : List (ℤ × ℤ)) (tests adj : List Event) :
    adjustTests m tests = .ok adj ↔
      List.Forall₂ (fun t a => ∃ v, lookupAll m t.2 = [v] ∧ a = (t.1, some v)) tests adj := by
  unfold adjustTests
  constructor
  · intro h
    by_cases h1 : ∃ t ∈ tests, lookupAll m t.2 = []
    · rw [if_pos h1] at h; cases h
    rw [if_neg h1] at h
    simp only at h
    by_cases h2 : (tests.flatMap fun t => lookupAll m t.2).length ≠ tests.length
    · rw [if_pos h2] at h; cases h
    rw [if_neg h2] at h
    cases h
    push Not at h1 h2
    have key : ∀ l : List Event, (∀ t ∈ l, lookupAll m t.2 ≠ []) →
        l.length ≤ (l.flatMap fun t => lookupAll m t.2).length ∧
        ((l.flatMap fun t => lookupAll m t.2).length = l.length →
          List.Forall₂ (fun t a => ∃ v, lookupAll m t.2 = [v] ∧ a = (t.1, some v)) l
            ((l.map Prod.fst).zip ((l.flatMap fun t => lookupAll m t.2).map some))) := by
      intro l
      induction l with
      | nil => simp
      | cons t l ih =>
        intro hl
        obtain ⟨h3, h4⟩ := ih fun u hu => hl u (by simp [hu])
        have h5 := List.length_pos_iff.2 (hl t (by simp))
        rw [List.flatMap_cons, List.length_append, List.length_cons]
        refine ⟨by omega, fun h6 => ?_⟩
        obtain ⟨v, hv⟩ := List.length_eq_one_iff.1 (show (lookupAll m t.2).length = 1 by omega)
        rw [hv]
        simp only [List.map_cons, List.cons_append, List.nil_append, List.zip_cons_cons]
        exact .cons ⟨v, hv, rfl⟩ (h4 (by omega))
    exact (key tests h1).2 h2
  · intro h
    rw [if_neg]
    · simp only
      have key : (tests.flatMap fun t => lookupAll m t.2).length = tests.length ∧
          (tests.map Prod.fst).zip ((tests.flatMap fun t => lookupAll m t.2).map some) = adj := by
        induction h with
        | nil => simp
        | cons h _ ih =>
          obtain ⟨v, h1, rfl⟩ := h
          rw [List.flatMap_cons, h1]
          refine ⟨by simp [ih.1], ?_⟩
          simp only [List.map_cons, List.cons_append, List.nil_append, List.zip_cons_cons, ih.2]
      rw [if_neg (by rw [key.1]; simp), key.2]
    · rintro ⟨t, ht, h0⟩
      obtain ⟨i, hi, rfl⟩ := List.mem_iff_getElem.1 ht
      have h2 := List.forall₂_iff_get.1 h
      obtain ⟨v, hv, -⟩ := h2.2 i hi (h2.1 ▸ hi)
      rw [List.get_eq_getElem] at hv
      rw [hv] at h0
      cases h0

/-- Test intervals after the embargo, one by one. -/
theorem adjusted_ok (bars : Option (List ℤ)) (pct : K) :
    (∃ R : Event → Event → Prop, ∀ tests adj, adjusted tests pct bars = .ok adj ↔ List.Forall₂ R tests adj) ∨
    ∃ e, ∀ tests, adjusted tests pct bars = .error e := by
  cases bars with
  | none =>
    refine .inl ⟨Eq, fun tests adj => ?_⟩
    unfold adjusted
    rw [List.forall₂_eq_eq_eq, Except.ok.injEq]
  | some b =>
    cases h : embargoTimes b pct with
    | error e =>
      refine .inr ⟨e, fun tests => ?_⟩
      simp only [adjusted, h]
      rfl
    | ok m =>
      refine .inl ⟨fun t a => ∃ v, lookupAll m t.2 = [v] ∧ a = (t.1, some v), fun tests adj => ?_⟩
      simp only [adjusted, h, py_bind_ok]
      exact adjustTests_ok m tests adj

theorem forall₂_append_iff {α β : Type} {R : α → β → Prop} (a b : List α) (l : List β) :
    List.Forall₂ R (a ++ b) l ↔ ∃ u v, List.Forall₂ R a u ∧ List.Forall₂ R b v ∧ l = u ++ v := by
  constructor
  · intro h
    induction a generalizing l with
    | nil => exact ⟨[], l, .nil, h, rfl⟩
    | cons x xs ih =>
      cases h with
      | cons hx hr =>
        obtain ⟨u, v, h1, h2, rfl⟩ := ih _ hr
        exact ⟨_ :: u, v, .cons hx h1, h2, rfl⟩
  · rintro ⟨u, v, h1, h2, rfl⟩
    exact List.rel_append h1 h2

/-- C219.  Purging by two lists of test intervals leaves the events that each of them leaves, for open and
closed events, with and without embargo; so more test intervals never add an event. -/
theorem C219_testwise (events tests tests' : List Event) (bars : Option (List ℤ)) (pct : K) (tr : List ℕ) :
    applyPurging events (tests ++ tests') bars pct = .ok tr ↔
      ∃ a b, applyPurging events tests bars pct = .ok a ∧ applyPurging events tests' bars pct = .ok b ∧
        tr = a.filter fun i => i ∈ b := by
  unfold applyPurging
  rcases adjusted_ok (K := K) bars pct with ⟨R, hR⟩ | ⟨e, he⟩
  · have hfil : ∀ u v : List Event, purgedTrain events (u ++ v) =
        (purgedTrain events u).filter fun i => i ∈ purgedTrain events v := by
      intro u v
      rw [purgedTrain_eq, purgedTrain_eq, purgedTrain_eq, List.filter_map, List.filter_filter]
      congr 1
      apply List.filter_congr
      intro r hr
      have hmem : (r.2 ∈ (events.zipIdx.filter fun r => decide (∀ t ∈ v, overlaps t r.1 = false)).map Prod.snd) ↔
          ∀ t ∈ v, overlaps t r.1 = false := by
        rw [List.mem_map]
        constructor
        · rintro ⟨s, hs, hsr⟩
          rw [List.mem_filter] at hs
          have h1 := List.mem_zipIdx_iff_getElem?.1 hs.1
          have h2 := List.mem_zipIdx_iff_getElem?.1 hr
          rw [hsr, h2] at h1
          rw [Option.some.inj h1]
          simpa using hs.2
        · intro h
          exact ⟨r, List.mem_filter.2 ⟨hr, by simpa using h⟩, rfl⟩
      simp only [Function.comp, hmem]
      rw [← Bool.decide_and]
      congr 1
      apply propext
      constructor
      · intro h
        exact ⟨fun t ht => h t (List.mem_append_right _ ht), fun t ht => h t (List.mem_append_left _ ht)⟩
      · rintro ⟨h1, h2⟩ t ht
        rcases List.mem_append.1 ht with ht | ht
        · exact h2 t ht
        · exact h1 t ht
    constructor
    · intro h
      obtain ⟨adj, h1, h2⟩ := py_bind_eq_ok.1 h
      cases h2
      obtain ⟨u, v, h3, h4, rfl⟩ := (forall₂_append_iff _ _ _).1 ((hR _ _).1 h1)
      refine ⟨_, _, py_bind_eq_ok.2 ⟨u, (hR _ _).2 h3, rfl⟩, py_bind_eq_ok.2 ⟨v, (hR _ _).2 h4, rfl⟩, hfil u v⟩
    · rintro ⟨a, b, h1, h2, rfl⟩
      obtain ⟨u, h3, h4⟩ := py_bind_eq_ok.1 h1
      obtain ⟨v, h5, h6⟩ := py_bind_eq_ok.1 h2
      cases h4
      cases h6
      refine py_bind_eq_ok.2 ⟨u ++ v, (hR _ _).2 ((forall₂_append_iff _ _ _).2
        ⟨u, v, (hR _ _).1 h3, (hR _ _).1 h5, rfl⟩), ?_⟩
      rw [← hfil]
      rfl
  · simp only [he]
    constructor
    · intro h; cases h
    · rintro ⟨a, b, h, -⟩; cases h

/-- C219.  The order in which test intervals are listed does not matter. -/
theorem C219_order (events tests tests' : List Event) (hp : tests.Perm tests') (bars : Option (List ℤ)) (pct : K)
    (tr : List ℕ) :
    applyPurging events tests bars pct = .ok tr → applyPurging events tests' bars pct = .ok tr := by
  unfold applyPurging
  rcases adjusted_ok (K := K) bars pct with ⟨R, hR⟩ | ⟨e, he⟩
  · intro h
    obtain ⟨adj, h1, h2⟩ := py_bind_eq_ok.1 h
    cases h2
    obtain ⟨adj', h3, h4⟩ : ∃ adj', List.Forall₂ R tests' adj' ∧ adj.Perm adj' := by
      obtain ⟨adj', h3, h4⟩ := List.perm_comp_forall₂ hp.symm ((hR _ _).1 h1)
      exact ⟨adj', h3, h4.symm⟩
    refine py_bind_eq_ok.2 ⟨adj', (hR _ _).2 h3, ?_⟩
    rw [purgedTrain_eq, purgedTrain_eq, py_pure]
    congr 2
    apply List.filter_congr
    intro r _
    simp only [h4.mem_iff]
  · simp only [he]
    intro h
    cases h

/-- Two test intervals with an embargo of one bar in four: each removes its own events. -/
example : applyPurging [(0, some 0), (1, some 1), (2, some 3), (3, some 3)] ([(0, some 0)] ++ [(3, some 3)])
      (some [0, 1, 2, 3]) (1 / 4 : ℚ) = .ok [] ∧
    applyPurging [(0, some 0), (1, some 1), (2, some 3), (3, some 3)] [(0, some 0)]
      (some [0, 1, 2, 3]) (1 / 4 : ℚ) = .ok [2, 3] ∧
    applyPurging [(0, some 0), (1, some 1), (2, some 3), (3, some 3)] [(3, some 3)]
      (some [0, 1, 2, 3]) (1 / 4 : ℚ) = .ok [0, 1] := by
  decide +kernel

end FinML.CV
