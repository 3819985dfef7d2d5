import Verif.CV.ScoreProps
import Verif.CV.KFoldProps
import Verif.CV.PboProps

/-! # Properties C192 and C194: the default call of the scoring, sizes of combinatorial train sets -/

set_option linter.unusedSectionVars false

namespace FinML.CV

variable {K : Type} [Field K] [LinearOrder K] [IsStrictOrderedRing K] [FloorRing K]

/-! ## C192 -/

/-- C192, full claim: leaving `embargo_pct` out gives the scores without embargo. -/
def DefaultScores : Prop := ∀ (scoring : String) (X : List ℝ) (y : List ℕ) (w : List ℝ) (cv : ℤ)
  (events : List Event) (scores : List ℝ),
  cvScore toyLib 0 X y w scoring (.series true events) (.default (some cv) (some (0 : ℚ))) = .ok scores →
  cvScore toyLib 0 X y w scoring (.series true events) (.default (K := ℚ) (some cv) none) = .ok scores

/-- Two events, two folds: without embargo there are two scores, with the default there is an error. -/
theorem C192_default_counterexample : ¬ DefaultScores := by
  intro h
  have hsplit : kfoldSplit 2 (0 : ℚ) (.series true [(0, some 0), (1, some 1)]) =
      .ok [([], [0]), ([0], [1])] := by decide +kernel
  have hok : ∃ scores, cvScore toyLib 0 [1, 2] [0, 1] [1, 1] "accuracy"
      (.series true [(0, some 0), (1, some 1)]) (.default (some 2) (some (0 : ℚ))) = .ok scores := by
    unfold cvScore
    rw [if_neg (by simp)]
    unfold Splitter.run
    simp only
    rw [hsplit, py_bind_ok]
    exact ⟨_, rfl⟩
  obtain ⟨scores, hs⟩ := hok
  have := h _ _ _ _ _ _ _ hs
  unfold cvScore at this
  rw [if_neg (by simp)] at this
  cases this

/-- C192, what holds: a call without `embargo_pct` or without `cv`, and without a splitter, raises
TypeError for every estimator and data set; with both it scores the purged folds (missing: the default
embargo). -/
theorem C192_default_partial {C ρ L P : Type} (lib : Lib C ρ L P) (clf : C) (X : List ρ) (y : List L)
    (w : List ℝ) (scoring : String) (hsc : scoring = "neg_log_loss" ∨ scoring = "accuracy")
    (events : List Event) (cv : Option ℤ) (pct : Option K) :
    (cv = none ∨ pct = none →
      cvScore lib clf X y w scoring (.series true events) (.default cv pct) = .error .typeError) ∧
    (∀ k p, cv = some k → pct = some p →
      cvScore lib clf X y w scoring (.series true events) (.default cv pct) =
        cvScore (K := K) lib clf X y w scoring (.series true events)
          (.custom fun arg => kfoldSplit k p arg)) := by
  have hsc' : ¬ (scoring ≠ "neg_log_loss" ∧ scoring ≠ "accuracy") := by
    rintro ⟨h1, h2⟩
    rcases hsc with h | h
    · exact h1 h
    · exact h2 h
  constructor
  · intro h
    unfold cvScore
    rw [if_neg hsc']
    rcases h with rfl | rfl
    · rfl
    · cases cv <;> rfl
  · rintro k p rfl rfl
    rfl

/-! ## C194 -/

/-- C194, full claim (the docstring of the class): groups of equal size give train sets of equal
size. -/
def EqualTrainSets : Prop := ∀ (c : Cpcv ℚ) (events : List (ℤ × ℤ)) (res : List (List ℕ × List ℕ)),
  c.rd = id → c.events = events.map closeEv → (∀ e ∈ events, e.1 ≤ e.2) → 0 < c.nGroups →
  c.nGroups ∣ events.length → c.splitAll = .ok res →
  ∀ r ∈ res, ∀ r' ∈ res, r.1.length = r'.1.length

/-- Three events, the last two overlap. -/
def unequalCpcv : Cpcv ℚ :=
  { nGroups := 3, nTest := 1, bars := none, events := [(0, some 0), (1, some 2), (2, some 2)], pct := 0,
    rd := id }

/-- Testing the first event leaves two events to train on, testing the second leaves one. -/
theorem C194_equal_counterexample : ¬ EqualTrainSets := by
  intro h
  have hres : unequalCpcv.splitAll = .ok [([1, 2], [0]), ([0], [1]), ([0], [2])] := by decide +kernel
  have := h unequalCpcv [(0, 0), (1, 2), (2, 2)] _ rfl rfl (by decide) (by decide) (by decide) hres
    ([1, 2], [0]) (by simp) ([0], [1]) (by simp)
  revert this
  decide

theorem group_exact (n N g : ℕ) (hN : 0 < N) (hd : N ∣ n) :
    group (id : K → K) n N g = List.range' (g * (n / N)) (n / N) := by
  obtain ⟨m, rfl⟩ := hd
  have hN' : (N : K) ≠ 0 := by exact_mod_cast hN.ne'
  have hb : ∀ g : ℕ, groupBound (id : K → K) (N * m) N g = g * m := by
    intro g
    unfold groupBound pyInt
    simp only [id]
    have : (g : K) * (((N * m : ℕ) : K) / (N : K)) = ((g * m : ℕ) : K) := by
      push_cast
      field_simp
    rw [this, if_pos (Nat.cast_nonneg _), Int.floor_natCast, Int.toNat_natCast]
  unfold group
  rw [hb, hb, Nat.mul_div_cancel_left m hN]
  congr 1
  rw [Nat.add_mul]; omega

/-- C194, what holds: without embargo, for events none of which overlap and groups of equal size, every
train set is the complement of the test set, so all have the same size (missing: overlapping events and
the embargo remove different numbers of events from different splits). -/
theorem C194_equal_partial (c : Cpcv K) (events : List (ℤ × ℤ)) (hrd : c.rd = id)
    (hev : c.events = events.map closeEv) (he : ∀ e ∈ events, e.1 ≤ e.2)
    (hap : events.Pairwise Apart) (hb : c.bars = none) (hN : 0 < c.nGroups)
    (hd : c.nGroups ∣ events.length) :
    ∃ res, c.splitAll = .ok res ∧ res.length = c.nGroups.choose c.nTest ∧
      ∀ r ∈ res, (∀ i, i ∈ r.1 ↔ i < events.length ∧ i ∉ r.2) ∧ r.1.Pairwise (· < ·) ∧
        r.1.length = events.length - c.nTest * (events.length / c.nGroups) := by
  have hone : ∀ grps ∈ c.choices, ∃ r, c.splitOne grps = .ok r ∧
      (∀ i, i ∈ r.1 ↔ i < events.length ∧ i ∉ r.2) ∧ r.1.Pairwise (· < ·) ∧
        r.1.length = events.length - c.nTest * (events.length / c.nGroups) := by
    intro grps hg
    obtain ⟨hsorted, hlen, hlt⟩ := ((C44_choices c).1 grps).1 hg
    have hgrp : ∀ g, c.grp g = List.range' (g * (events.length / c.nGroups))
        ((g + 1) * (events.length / c.nGroups) - g * (events.length / c.nGroups)) := by
      intro g
      unfold Cpcv.grp
      rw [hrd, hev, List.length_map, group_exact _ _ _ hN hd]
      congr 1
      rw [Nat.add_mul]; omega
    have htest : c.testOf grps = pboTrain (events.length / c.nGroups) grps := by
      unfold Cpcv.testOf pboTrain
      have : c.grp = fun g => List.range' (g * (events.length / c.nGroups))
        ((g + 1) * (events.length / c.nGroups) - g * (events.length / c.nGroups)) := funext hgrp
      rw [this]
    have hidx : ∀ i ∈ c.testOf grps, i < events.length := by
      intro i hi
      rw [htest] at hi
      exact ((C48_indices events.length c.nGroups grps hlt).2.1 i hi).2
    obtain ⟨tests, ht1, ht2⟩ := mapM_pyGet events (c.testOf grps) hidx
    have htm : ∀ t ∈ tests, t ∈ events := by
      intro t ht
      obtain ⟨i, _, h⟩ := forall₂_exists_right ht2 t ht
      exact List.mem_of_getElem? h
    have hclosed : (c.testOf grps).mapM (pyGet c.events) = .ok (tests.map closeEv) := by
      rw [mapM_eq_ok_iff, hev, List.forall₂_map_right_iff]
      refine ht2.imp ?_
      intro i t h
      rw [pyGet_eq_ok_iff, List.getElem?_map, h]
      rfl
    have hpurge := C39_purging (K := K) events tests he (fun t ht => he t (htm t ht)) c.pct
    have hmem : ∀ i, i ∈ admissible events tests ↔ i < events.length ∧ i ∉ c.testOf grps := by
      intro i
      rw [mem_admissible]
      constructor
      · rintro ⟨ev, h1, h2⟩
        have hi : i < events.length := by
          by_contra hc
          rw [List.getElem?_eq_none (not_lt.1 hc)] at h1
          cases h1
        refine ⟨hi, fun hit => ?_⟩
        obtain ⟨t, ht, hh⟩ := forall₂_exists_left ht2 i hit
        rw [h1] at hh
        cases hh
        have h3 := he ev (List.mem_of_getElem? h1)
        rcases h2 ev ht with h4 | h4 <;> omega
      · rintro ⟨hi, hni⟩
        refine ⟨events[i], List.getElem?_eq_getElem hi, ?_⟩
        intro t ht
        obtain ⟨j, hj, hjt⟩ := forall₂_exists_right ht2 t ht
        have hjl := hidx j hj
        rw [List.getElem?_eq_getElem hjl] at hjt
        cases hjt
        have hij : i ≠ j := fun hh => hni (hh ▸ hj)
        rcases Nat.lt_or_gt_of_ne hij with hh | hh
        · exact List.pairwise_iff_getElem.1 hap i j hi hjl hh
        · exact (List.pairwise_iff_getElem.1 hap j i hjl hi hh).symm
    have hsort : (admissible events tests).Pairwise (· < ·) := by
      have hz : (events.zipIdx.map Prod.snd).Pairwise (· < ·) := by
        rw [List.zipIdx_map_snd]
        exact List.pairwise_lt_range'
      unfold admissible
      exact hz.sublist (List.filter_sublist.map _)
    refine ⟨(admissible events tests, c.testOf grps), ?_, hmem, hsort, ?_⟩
    · unfold Cpcv.splitOne
      rw [hclosed, py_bind_ok, hb, hev, hpurge, py_bind_ok]
      rfl
    · have heq : admissible events tests = pboTest events.length (c.testOf grps) := by
        apply eq_of_sorted_mem hsort (List.pairwise_lt_range.filter _)
        intro i
        rw [hmem]
        rw [List.mem_filter, List.mem_range, decide_eq_true_eq]
      simp only
      have hl := pboTrain_length (events.length / c.nGroups) grps
      rw [hlen] at hl
      have e : c.testOf grps = (List.range events.length).filter fun i => decide (i ∈ c.testOf grps) := by
        apply eq_of_sorted_mem _ (List.pairwise_lt_range.filter _)
        · intro i
          rw [List.mem_filter, List.mem_range, decide_eq_true_eq]
          exact ⟨fun h => ⟨hidx i h, h⟩, fun h => h.2⟩
        · rw [htest]; exact pboTrain_sorted _ _ hsorted
      have e2 := List.length_eq_length_filter_add (l := List.range events.length)
        (fun i => decide (i ∈ c.testOf grps))
      have e3 : (fun i => decide (i ∉ c.testOf grps)) = fun i => !decide (i ∈ c.testOf grps) := by
        funext i; simp
      rw [← e, List.length_range, htest, hl] at e2
      rw [heq]
      unfold pboTest
      rw [e3, htest]
      omega
  have key : ∀ ls : List (List ℕ), (∀ g ∈ ls, g ∈ c.choices) → ∃ res, ls.mapM c.splitOne = .ok res ∧
      res.length = ls.length ∧ ∀ r ∈ res, (∀ i, i ∈ r.1 ↔ i < events.length ∧ i ∉ r.2) ∧
        r.1.Pairwise (· < ·) ∧
        r.1.length = events.length - c.nTest * (events.length / c.nGroups) := by
    intro ls
    induction ls with
    | nil => intro _; exact ⟨[], rfl, rfl, by simp⟩
    | cons g gs ih =>
      intro hsub
      obtain ⟨r, h1, h2⟩ := hone g (hsub g (by simp))
      obtain ⟨res, e1, e2, e3⟩ := ih (fun g hg => hsub g (by simp [hg]))
      refine ⟨r :: res, by rw [mapM_cons_py, h1, e1]; rfl, by simp [e2], ?_⟩
      intro r' hr'
      rcases List.mem_cons.1 hr' with rfl | hr'
      · exact h2
      · exact e3 r' hr'
  obtain ⟨res, h1, h2, h3⟩ := key c.choices (fun g hg => hg)
  refine ⟨res, h1, ?_, h3⟩
  rw [h2]
  exact (C44_choices c).2.2

/-- Four events that do not overlap in two groups. -/
def equalCpcv : Cpcv ℚ :=
  { nGroups := 2, nTest := 1, bars := none,
    events := [(0, 0), (1, 2), (3, 3), (4, 6)].map closeEv, pct := 0, rd := id }

example : ([(0, 0), (1, 2), (3, 3), (4, 6)] : List (ℤ × ℤ)).Pairwise Apart ∧
    equalCpcv.splitAll = .ok [([2, 3], [0, 1]), ([0, 1], [2, 3])] := by
  constructor
  · decide
  · decide +kernel

end FinML.CV
