import Verif.CV.KFoldProps

/-! # Property C310: negative embargoes -/

set_option linter.unusedSectionVars false

namespace FinML.CV

variable {K : Type} [Field K] [LinearOrder K] [IsStrictOrderedRing K] [FloorRing K]

/-- C310, the full claim: a smaller embargo keeps whatever a larger one keeps, also below zero. -/
def SmallerKeepsMore : Prop :=
  ∀ (events tests : List (ℤ × ℤ)) (bars : List ℤ) (p q : ℚ) (tr tr' : List ℕ), p ≤ q →
    (∀ e ∈ events, e.1 ≤ e.2) → (∀ t ∈ tests, t.1 ≤ t.2) → bars.Pairwise (· < ·) → (∀ t ∈ tests, t.2 ∈ bars) →
    applyPurging (events.map closeEv) (tests.map closeEv) (some bars) p = .ok tr →
    applyPurging (events.map closeEv) (tests.map closeEv) (some bars) q = .ok tr' → tr'.Sublist tr

/-- C310, the full claim does not hold: ten bars and an embargo of minus a tenth; a test of the first two bars purges an
event at bar 5. -/
theorem C310_smaller_counterexample : ¬ SmallerKeepsMore := by
  intro h
  have h1 : applyPurging ([((5 : ℤ), (5 : ℤ))].map closeEv) ([((0 : ℤ), (1 : ℤ))].map closeEv)
      (some [0, 1, 2, 3, 4, 5, 6, 7, 8, 9]) (-1 / 10 : ℚ) = .ok [] := by decide +kernel
  have h2 : applyPurging ([((5 : ℤ), (5 : ℤ))].map closeEv) ([((0 : ℤ), (1 : ℤ))].map closeEv)
      (some [0, 1, 2, 3, 4, 5, 6, 7, 8, 9]) (0 : ℚ) = .ok [0] := by decide +kernel
  have := h _ _ _ (-1 / 10) 0 [] [0] (by norm_num) (by simp) (by simp) (by decide) (by simp) h1 h2
  simp at this

theorem embargoTimes_negative (bars : List ℤ) (hb : bars ≠ []) (pct : K) (s : ℕ) (hs0 : 0 < s)
    (hs : pyInt ((bars.length : K) * pct) = -(s : ℤ)) :
    embargoTimes bars pct = .ok ((List.range bars.length).map fun i : ℕ =>
      (bars.getD i 0, bars.getD (min (i + (bars.length - s)) (bars.length - 1)) 0)) := by
  have hpos : 0 < bars.length := List.length_pos_iff.2 hb
  unfold embargoTimes
  simp only [hs]
  rw [if_pos (by omega), neg_neg, Int.toNat_natCast]
  have hlast : pyLast bars = .ok (bars.getD (bars.length - 1) 0) := by
    rw [pyLast_eq_ok_iff, List.getLast?_eq_getElem?, List.getD_eq_getElem?_getD,
      List.getElem?_eq_getElem (by omega)]
    rfl
  rw [hlast, py_bind_ok, py_pure]
  congr 1
  apply List.ext_getElem
  · simp
    omega
  · intro i h1 h2
    have hi : i < bars.length := by simpa using h2
    by_cases his : i < s
    · rw [List.getElem_append_left (by simp; omega)]
      have h3 : min (i + (bars.length - s)) (bars.length - 1) = bars.length - s + i := by omega
      have h4 : bars.length - s + i < bars.length := by omega
      simp [hi, h3, h4]
    · rw [List.getElem_append_right (by simp; omega)]
      have h3 : min (i + (bars.length - s)) (bars.length - 1) = bars.length - 1 := by omega
      have h5 : min s (bars.length - (bars.length - s)) = s := by omega
      have h6 : s + (i - s) = i := by omega
      simp [hi, h3, h5, h6]

theorem pyInt_natCast (n : ℕ) : pyInt (n : K) = n := by
  unfold pyInt
  rw [if_pos (Nat.cast_nonneg n), Int.floor_natCast]

/-- C310: with `n` bars an embargo of minus `s` bars is an embargo of `n - s` bars. -/
theorem C310_negative (events tests : List Event) (bars : List ℤ) (pct : K) (s : ℕ) (hs0 : 0 < s)
    (hs : pyInt ((bars.length : K) * pct) = -(s : ℤ)) :
    applyPurging events tests (some bars) pct =
      applyPurging events tests (some bars) (((bars.length - s : ℕ) : K) / bars.length) := by
  have hb : bars ≠ [] := by
    rintro rfl
    simp [pyInt] at hs
    omega
  have hn : (bars.length : K) ≠ 0 := by
    exact_mod_cast (List.length_pos_iff.2 hb).ne'
  unfold applyPurging adjusted
  simp only
  rw [embargoTimes_negative bars hb pct s hs0 hs,
    embargoTimes_eq bars hb _ (bars.length - s) (by rw [mul_div_cancel₀ _ hn, pyInt_natCast])]

/-- C310, the case of embargoes that are not negative. -/
theorem C310_smaller_partial (events tests : List (ℤ × ℤ)) (bars : List ℤ) (p q : K) (tr tr' : List ℕ) (h0 : 0 ≤ p) (hpq : p ≤ q)
    (he : ∀ e ∈ events, e.1 ≤ e.2) (ht : ∀ t ∈ tests, t.1 ≤ t.2) (hb : bars.Pairwise (· < ·)) (hm : ∀ t ∈ tests, t.2 ∈ bars)
    (h : applyPurging (events.map closeEv) (tests.map closeEv) (some bars) p = .ok tr)
    (h' : applyPurging (events.map closeEv) (tests.map closeEv) (some bars) q = .ok tr') : tr'.Sublist tr :=
  C40_antitone events tests he ht bars hb hm p q h0 hpq tr tr' h h'

/-- C310: two embargoes below zero the other way round: of two embargoes that are negative in bars the smaller one keeps more. -/
theorem C310_negative_antitone (events tests : List (ℤ × ℤ)) (bars : List ℤ) (p q : K) (s u : ℕ) (tr tr' : List ℕ)
    (hu : 0 < u) (hsu : u ≤ s) (hs : pyInt ((bars.length : K) * p) = -(s : ℤ)) (hq : pyInt ((bars.length : K) * q) = -(u : ℤ))
    (he : ∀ e ∈ events, e.1 ≤ e.2) (ht : ∀ t ∈ tests, t.1 ≤ t.2) (hb : bars.Pairwise (· < ·)) (hm : ∀ t ∈ tests, t.2 ∈ bars)
    (h : applyPurging (events.map closeEv) (tests.map closeEv) (some bars) p = .ok tr)
    (h' : applyPurging (events.map closeEv) (tests.map closeEv) (some bars) q = .ok tr') : tr'.Sublist tr := by
  rw [C310_negative _ _ _ _ s (by omega) hs] at h
  rw [C310_negative _ _ _ _ u hu hq] at h'
  refine C40_antitone events tests he ht bars hb hm _ _ (by positivity) ?_ tr tr' h h'
  have : ((bars.length - s : ℕ) : K) ≤ ((bars.length - u : ℕ) : K) := by exact_mod_cast (by omega : bars.length - s ≤ bars.length - u)
  exact div_le_div_of_nonneg_right this (Nat.cast_nonneg _)

/-- Two embargoes that meet the hypotheses: minus three and minus one of ten bars. -/
example : pyInt ((([0, 1, 2, 3, 4, 5, 6, 7, 8, 9] : List ℤ).length : ℚ) * (-3 / 10)) = -((3 : ℕ) : ℤ) ∧
    pyInt ((([0, 1, 2, 3, 4, 5, 6, 7, 8, 9] : List ℤ).length : ℚ) * (-1 / 10)) = -((1 : ℕ) : ℤ) ∧
    applyPurging ([((2 : ℤ), (2 : ℤ)), (8, 8), (9, 9)].map closeEv) ([((0 : ℤ), (1 : ℤ))].map closeEv)
      (some [0, 1, 2, 3, 4, 5, 6, 7, 8, 9]) (-3 / 10 : ℚ) = .ok [2] ∧
    applyPurging ([((2 : ℤ), (2 : ℤ)), (8, 8), (9, 9)].map closeEv) ([((0 : ℤ), (1 : ℤ))].map closeEv)
      (some [0, 1, 2, 3, 4, 5, 6, 7, 8, 9]) (-1 / 10 : ℚ) = .ok [] := by
  decide +kernel

/-- C310, for the folds: training and test sets of a fold have nothing in common. -/
def FoldsDisjoint : Prop :=
  ∀ (events : List (ℤ × ℤ)) (nSplits : ℤ) (pct : ℚ) (folds : List (List ℕ × List ℕ)),
    (events.map Prod.fst).Pairwise (· < ·) → (∀ e ∈ events, e.1 ≤ e.2) →
    kfoldEvents nSplits pct (events.map closeEv) = .ok folds → ∀ f ∈ folds, ∀ i ∈ f.1, i ∉ f.2

/-- C310, the folds with an embargo that is not negative. -/
theorem C310_folds_partial (events : List (ℤ × ℤ)) (nSplits : ℤ) (pct : K) (hp : 0 ≤ pct) (folds : List (List ℕ × List ℕ))
    (hs : (events.map Prod.fst).Pairwise (· < ·)) (he : ∀ e ∈ events, e.1 ≤ e.2)
    (h : kfoldEvents nSplits pct (events.map closeEv) = .ok folds) : ∀ f ∈ folds, ∀ i ∈ f.1, i ∉ f.2 :=
  fun f hf => (C42_no_leak events (hs.imp fun h => h.le) he nSplits pct hp folds h f hf).2.1

/-- C310: with a negative embargo events are trained and tested on at once. -/
theorem C310_folds_counterexample : ¬ FoldsDisjoint := by
  intro h
  have h1 : kfoldEvents 2 (-1 / 2 : ℚ) ([((0 : ℤ), (0 : ℤ)), (1, 1), (2, 2), (3, 3), (4, 4), (5, 5), (6, 6), (7, 7)].map closeEv) =
      .ok [([1, 2, 3, 4, 5, 6, 7], [0, 1, 2, 3]), ([0, 1, 2, 3], [4, 5, 6, 7])] := by decide +kernel
  exact h _ _ _ _ (by decide) (by simp) h1 _ (List.mem_cons_self ..) 1 (by decide) (by decide)

end FinML.CV
