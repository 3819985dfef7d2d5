import Verif.CV.IgnoredProps
import Verif.CV.DefaultProps

/-! # Train sets are not empty (C275), and scores exist for all valid data (C276) -/

namespace FinML.CV

variable {C L P : Type}

/-- Events one after the other: each ends before the next one starts. -/
def OneByOne (events : List (ℤ × ℤ)) : Prop :=
  (∀ e ∈ events, e.1 ≤ e.2) ∧ events.Pairwise fun a b => a.2 < b.1

/-- C275, full statement: with two or more splits and non-overlapping events every fold has training events. -/
def TrainsOnSomething : Prop :=
  ∀ (events : List (ℤ × ℤ)) (cv : ℤ), OneByOne events → 2 ≤ cv → cv ≤ events.length →
    ∃ folds, kfoldSplit cv (0 : ℚ) (.series true (events.map closeEv)) = .ok folds ∧ ∀ f ∈ folds, f.1 ≠ []

/-- C275 is false for the code: of two events in two folds, the one that is not tested is lost when the first is tested. -/
theorem C275_two_events_counterexample : ¬ TrainsOnSomething := by
  intro h
  obtain ⟨folds, h1, h2⟩ := h [(0, 0), (1, 1)] 2 ⟨by decide, by decide⟩ (by norm_num) (by norm_num)
  have e : kfoldSplit 2 (0 : ℚ) (.series true ([(0, 0), (1, 1)].map closeEv)) = .ok [([], [0]), ([0], [1])] := by
    decide +kernel
  rw [e] at h1
  cases h1
  exact h2 ([], [0]) (by simp) rfl

theorem OneByOne.starts {events : List (ℤ × ℤ)} (h : OneByOne events) : (events.map Prod.fst).Pairwise (· ≤ ·) := by
  rw [List.pairwise_map]
  exact h.2.imp_of_mem fun {a b} ha _ hab => (le_trans (h.1 a ha) hab.le)

theorem OneByOne.lt {events : List (ℤ × ℤ)} (h : OneByOne events) {x y : ℕ} {a b : ℤ × ℤ} (ha : events[x]? = some a)
    (hb : events[y]? = some b) (hxy : x < y) : a.2 < b.1 := by
  obtain ⟨h1, rfl⟩ := List.getElem?_eq_some_iff.1 ha
  obtain ⟨h2, rfl⟩ := List.getElem?_eq_some_iff.1 hb
  exact List.pairwise_iff_getElem.1 h.2 x y h1 h2 hxy

theorem two_lengths {l : List (List ℕ)} (h2 : 2 ≤ l.length) {f : List ℕ} (hf : f ∈ l)
    (hd : ∀ a ∈ l, ∀ b ∈ l, a.length ≤ b.length + 1) : 2 * f.length ≤ l.flatten.length + 1 := by
  obtain ⟨A, B, rfl⟩ := List.append_of_mem hf
  obtain ⟨g, hg⟩ : ∃ g, g ∈ A ++ B := by
    apply List.exists_mem_of_length_pos
    simp at h2 ⊢
    omega
  have h1 := hd f hf g (by
    rcases List.mem_append.1 hg with h | h <;> simp [h])
  have h3 : g.length ≤ (A ++ B).flatten.length := by
    rw [List.length_flatten]
    exact List.single_le_sum (by simp) _ (List.mem_map_of_mem hg)
  simp only [List.flatten_append, List.length_append, List.flatten_cons] at h3 ⊢
  omega

/-- C275, the part that holds: non-overlapping events in order, two or more splits, and an embargo of `e` events such that half
of the events (rounded up) and `e + 2` more are no more than there are; without embargo four events are enough.
Missing from the full statement: fewer events. -/
theorem C275_trains_partial {K : Type} [Field K] [LinearOrder K] [IsStrictOrderedRing K] [FloorRing K]
    (events : List (ℤ × ℤ)) (cv : ℤ) (pct : K) (h : OneByOne events) (h2 : 2 ≤ cv) (hn : cv ≤ events.length) (hp : 0 ≤ pct)
    (he : ((events.length + 1) / 2 : ℕ) + 2 + ⌊(events.length : K) * pct⌋ ≤ events.length) :
    ∃ folds, kfoldSplit cv pct (.series true (events.map closeEv)) = .ok folds ∧ (folds.length : ℤ) = cv ∧
      ∀ f ∈ folds, f.1 ≠ [] ∧ f.2 ≠ [] := by
  obtain ⟨folds, h1, hl, hfl, hne, hsz⟩ := C41_partition events cv pct (by omega) hn
  refine ⟨folds, h1, hl, fun f hf => ⟨?_, hne f hf⟩⟩
  obtain ⟨i, j, te, hij, hj, htest, hgr, htr, hrank, -⟩ := fold_exists events h.starts cv pct hp folds h1 f hf
  have hx : ∃ x, x ∈ f.1 := by
    by_cases hi : i = 0
    · have hlen : 2 * f.2.length ≤ events.length + 1 := by
        have := two_lengths (l := folds.map Prod.snd) (by
          rw [List.length_map]
          omega) (List.mem_map_of_mem hf) (by
          intro a ha b hb
          obtain ⟨a', ha', rfl⟩ := List.mem_map.1 ha
          obtain ⟨b', hb', rfl⟩ := List.mem_map.1 hb
          exact hsz a' ha' b' hb')
        rwa [hfl, List.length_range] at this
      rw [htest, List.length_range', hi] at hlen
      have hfloor : 0 ≤ ⌊(events.length : K) * pct⌋ := Int.floor_nonneg.2 (mul_nonneg (Nat.cast_nonneg _) hp)
      have hjl : j < events.length := by omega
      refine ⟨events.length - 1, (htr _).2 ⟨events[events.length - 1], List.getElem?_eq_getElem (by omega), Or.inr ?_⟩⟩
      have hc : events.countP (fun e => decide (e.1 ≤ te)) ≤ j := by
        refine (hrank j events[j] (List.getElem?_eq_getElem hjl)).1 ?_
        obtain ⟨e, he1, he2⟩ := hgr.1
        obtain ⟨y, hy, hye⟩ := (mem_slot events i j e).1 he1
        rw [← he2]
        rw [List.mem_range'_1] at hy
        exact h.lt hye (List.getElem?_eq_getElem hjl) (by omega)
      omega
    · refine ⟨0, (htr 0).2 ⟨events[0], List.getElem?_eq_getElem (by omega), Or.inl ?_⟩⟩
      exact h.lt (List.getElem?_eq_getElem (by omega)) (List.getElem?_eq_getElem (by omega)) (by omega)
  obtain ⟨x, hx⟩ := hx
  exact List.ne_nil_of_mem hx

/-- The hypotheses are met by four events in two folds without embargo. -/
example : OneByOne [(0, 1), (2, 3), (4, 5), (6, 7)] ∧
    (((4 + 1) / 2 : ℕ) + 2 + ⌊((4 : ℕ) : ℚ) * 0⌋ : ℤ) ≤ (4 : ℕ) :=
  ⟨⟨by decide, by decide⟩, by norm_num⟩

/-! ## Scores -/

variable {ρ : Type}

/-- The library does its part: an estimator fits any training data that are not empty, and predictions and scores exist. -/
structure Works (lib : Lib C ρ L P) : Prop where
  fit : ∀ c X y w, X ≠ [] → X.length = y.length → X.length = w.length → ∃ m, lib.fit c X y w = .ok m
  proba : ∀ m X, ∃ p, lib.proba m X = .ok p
  predict : ∀ m X, ∃ p, lib.predict m X = .ok p
  classes : ∀ m, ∃ c, lib.classes m = .ok c
  logLoss : ∀ y p w c, ∃ v, lib.logLoss y p w c = .ok v
  accuracy : ∀ y p w, ∃ v, lib.accuracy y p w = .ok v

/-- Splits of `n` observations that can be used: indices of observations, and something to train on. -/
def Usable (n : ℕ) (splits : List (List ℕ × List ℕ)) : Prop :=
  ∀ s ∈ splits, s.1 ≠ [] ∧ (∀ i ∈ s.1, i < n) ∧ ∀ i ∈ s.2, i < n

theorem Works.score {lib : Lib C ρ L P} (h : Works lib) (scoring : String) (m : C) (X : List ρ) (y : List L) (w : List ℝ) :
    ∃ v, scoreOf lib scoring m X y w = .ok v := by
  unfold scoreOf
  split
  · obtain ⟨p, hp⟩ := h.proba m X
    obtain ⟨c, hc⟩ := h.classes m
    obtain ⟨v, hv⟩ := h.logLoss y p w c
    exact ⟨-v, by rw [hp, py_bind_ok, hc, py_bind_ok, hv]; rfl⟩
  · obtain ⟨p, hp⟩ := h.predict m X
    obtain ⟨v, hv⟩ := h.accuracy y p w
    exact ⟨v, by rw [hp, py_bind_ok, hv]⟩

theorem rows_ok {α : Type} {l : List α} {n : ℕ} (hl : l.length = n) {idx : List ℕ} (h : ∀ i ∈ idx, i < n) :
    ∃ vs, idx.mapM (pyGet l) = .ok vs ∧ vs.length = idx.length := by
  obtain ⟨vs, h1, h2⟩ := mapM_pyGet l idx (by rwa [hl])
  exact ⟨vs, h1, h2.length_eq.symm⟩

theorem cvLoop_ok {lib : Lib C ρ L P} (h : Works lib) (scoring : String) (X : List ρ) (y : List L) (w : List ℝ)
    (hy : y.length = X.length) (hw : w.length = X.length) (splits : List (List ℕ × List ℕ)) (hs : Usable X.length splits)
    (c : C) : ∃ scores, cvLoop lib scoring X y w c splits = .ok scores ∧ scores.length = splits.length := by
  induction splits generalizing c with
  | nil => exact ⟨[], rfl, rfl⟩
  | cons s ss ih =>
    obtain ⟨hne, htr, hte⟩ := hs s (by simp)
    obtain ⟨a1, e1, l1⟩ := rows_ok (l := X) rfl htr
    obtain ⟨a2, e2, l2⟩ := rows_ok hy htr
    obtain ⟨a3, e3, l3⟩ := rows_ok hw htr
    obtain ⟨b1, f1, -⟩ := rows_ok (l := X) rfl hte
    obtain ⟨b2, f2, -⟩ := rows_ok hy hte
    obtain ⟨b3, f3, -⟩ := rows_ok hw hte
    obtain ⟨m, hm⟩ := h.fit c a1 a2 a3 (by
      intro h0
      rw [h0, List.length_nil] at l1
      exact hne (List.length_eq_zero_iff.1 l1.symm)) (by omega) (by omega)
    obtain ⟨v, hv⟩ := h.score scoring m b1 b2 b3
    obtain ⟨rest, hr, hrl⟩ := ih (fun t ht => hs t (by simp [ht])) m
    refine ⟨v :: rest, ?_, by simp [hrl]⟩
    have h1 : cvOne lib scoring X y w c s = .ok (m, v) := by
      unfold cvOne
      rw [e1, py_bind_ok, e2, py_bind_ok, e3, py_bind_ok, f1, py_bind_ok, f2, py_bind_ok, f3, py_bind_ok, hm, py_bind_ok, hv]
      rfl
    rw [cvLoop, h1, py_bind_ok, hr]
    rfl

theorem mdaLoop_ok {lib : Lib C (List ℝ) L P} (h : Works lib) (scoring : String) (nCols : ℕ)
    (shuffle : ℕ → ℕ → List ℝ → List ℝ) (X : List (List ℝ)) (y : List L) (w : List ℝ) (hy : y.length = X.length)
    (hw : w.length = X.length) (splits : List (List ℕ × List ℕ)) (hs : Usable X.length splits) (fold : ℕ) (c : C) :
    ∃ rows, mdaLoop lib scoring nCols shuffle X y w fold c splits = .ok rows := by
  induction splits generalizing fold c with
  | nil => exact ⟨[], rfl⟩
  | cons s ss ih =>
    obtain ⟨hne, htr, hte⟩ := hs s (by simp)
    obtain ⟨a1, e1, l1⟩ := rows_ok (l := X) rfl htr
    obtain ⟨a2, e2, l2⟩ := rows_ok hy htr
    obtain ⟨a3, e3, l3⟩ := rows_ok hw htr
    obtain ⟨b1, f1, -⟩ := rows_ok (l := X) rfl hte
    obtain ⟨b2, f2, -⟩ := rows_ok hy hte
    obtain ⟨b3, f3, -⟩ := rows_ok hw hte
    obtain ⟨m, hm⟩ := h.fit c a1 a2 a3 (by
      intro h0
      rw [h0, List.length_nil] at l1
      exact hne (List.length_eq_zero_iff.1 l1.symm)) (by omega) (by omega)
    obtain ⟨v, hv⟩ := h.score scoring m b1 b2 b3
    choose g hg using fun j : ℕ => h.score scoring m (permuteColumn (shuffle fold j) b1 j) b2 b3
    have hperm := mapM_ok_of_forall (fun j : ℕ => scoreOf lib scoring m (permuteColumn (shuffle fold j) b1 j) b2 b3) g
      (List.range nCols) (fun j _ => hg j)
    obtain ⟨rest, hr⟩ := ih (fun t ht => hs t (by simp [ht])) (fold + 1) m
    refine ⟨(v, (List.range nCols).map g) :: rest, ?_⟩
    have h1 : mdaOne lib scoring nCols (shuffle fold) X y w c s = .ok (m, v, (List.range nCols).map g) := by
      unfold mdaOne
      rw [e1, py_bind_ok, e2, py_bind_ok, e3, py_bind_ok, f1, py_bind_ok, f2, py_bind_ok, f3, py_bind_ok, hm, py_bind_ok, hv,
        py_bind_ok, hperm]
      rfl
    rw [mdaLoop, h1, py_bind_ok, hr]
    rfl

theorem kfold_usable {K : Type} [Field K] [LinearOrder K] [IsStrictOrderedRing K] [FloorRing K]
    (events : List (ℤ × ℤ)) (cv : ℤ) (pct : K) (h : OneByOne events) (h2 : 2 ≤ cv) (hn : cv ≤ events.length) (hp : 0 ≤ pct)
    (he : ((events.length + 1) / 2 : ℕ) + 2 + ⌊(events.length : K) * pct⌋ ≤ events.length) :
    ∃ folds, kfoldSplit cv pct (.series true (events.map closeEv)) = .ok folds ∧ (folds.length : ℤ) = cv ∧
      Usable events.length folds := by
  obtain ⟨folds, h1, hl, hne⟩ := C275_trains_partial events cv pct h h2 hn hp he
  refine ⟨folds, h1, hl, fun f hf => ⟨(hne f hf).1, ?_, ?_⟩⟩
  · obtain ⟨i, j, te, hij, hj, htest, hgr, htr, hrank, -⟩ := fold_exists events h.starts cv pct hp folds h1 f hf
    intro x hx
    obtain ⟨ev, h3, -⟩ := (htr x).1 hx
    exact (List.getElem?_eq_some_iff.1 h3).1
  · obtain ⟨i, j, te, hij, hj, htest, -⟩ := fold_exists events h.starts cv pct hp folds h1 f hf
    intro x hx
    rw [htest, List.mem_range'_1] at hx
    omega

/-- C276.  Whatever the data, one label and weight per row, and whatever an estimator that can be fitted to data that are not
empty: `timeseries_cv_score` returns one score per split of any splitter whose splits are usable. -/
theorem C276_scores {K : Type} [Field K] [LinearOrder K] [FloorRing K] (lib : Lib C ρ L P) (hlib : Works lib) (clf : C)
    (X : List ρ) (y : List L) (w : List ℝ) (hy : y.length = X.length) (hw : w.length = X.length) (scoring : String)
    (hsc : scoring = "neg_log_loss" ∨ scoring = "accuracy") (events : SplitArg) (splitter : Splitter K)
    (splits : List (List ℕ × List ℕ)) (hrun : splitter.run events = .ok splits) (hs : Usable X.length splits) :
    ∃ scores, cvScore lib clf X y w scoring events splitter = .ok scores ∧ scores.length = splits.length := by
  obtain ⟨scores, h1, h2⟩ := cvLoop_ok hlib scoring X y w hy hw splits hs clf
  refine ⟨scores, ?_, h2⟩
  unfold cvScore
  rw [if_neg (by rintro ⟨a, b⟩; rcases hsc with h | h <;> contradiction), hrun, py_bind_ok, h1]

/-- C276.  With the default splitter, events in order that do not overlap, two or more folds and not too long an embargo,
both `timeseries_cv_score` and `get_mean_decrease_accuracy` return: a score per fold, and a row per feature with the mean score. -/
theorem C276_purged {K : Type} [Field K] [LinearOrder K] [IsStrictOrderedRing K] [FloorRing K] (lib : Lib C (List ℝ) L P)
    (hlib : Works lib) (clf : C) (X : List (List ℝ)) (y : List L) (w : List ℝ) (events : List (ℤ × ℤ))
    (hX : X.length = events.length) (hy : y.length = events.length) (hw : w.length = events.length) (scoring : String)
    (hsc : scoring = "neg_log_loss" ∨ scoring = "accuracy") (cv : ℤ) (pct : K) (h : OneByOne events) (h2 : 2 ≤ cv)
    (hn : cv ≤ events.length) (hp : 0 ≤ pct)
    (he : ((events.length + 1) / 2 : ℕ) + 2 + ⌊(events.length : K) * pct⌋ ≤ events.length) (nCols : ℕ)
    (shuffle : ℕ → ℕ → List ℝ → List ℝ) :
    (∃ scores, cvScore lib clf X y w scoring (.series true (events.map closeEv)) (.default (some cv) (some pct)) = .ok scores ∧
      (scores.length : ℤ) = cv) ∧
    ∃ table avg, mda lib clf nCols shuffle X y w cv pct (.series true (events.map closeEv)) scoring = .ok (table, some avg) ∧
      table.length = nCols := by
  obtain ⟨folds, h1, hl, hu⟩ := kfold_usable events cv pct h h2 hn hp he
  rw [← hX] at hu hy hw
  constructor
  · obtain ⟨scores, a, b⟩ := C276_scores lib hlib clf X y w hy hw scoring hsc
      (.series true (events.map closeEv)) (.default (some cv) (some pct)) folds h1 hu
    exact ⟨scores, a, by omega⟩
  · obtain ⟨rows, hr⟩ := mdaLoop_ok hlib scoring nCols shuffle X y w hy hw folds hu 0 clf
    have hrows : rows ≠ [] := by
      rintro rfl
      cases folds with
      | nil =>
        simp at hl
        omega
      | cons f fs =>
        rw [mdaLoop, py_bind_eq_ok] at hr
        obtain ⟨r, -, hr⟩ := hr
        rw [py_bind_eq_ok] at hr
        obtain ⟨rest, -, hr⟩ := hr
        cases hr
    have hm : ∃ table avg, mda lib clf nCols shuffle X y w cv pct (.series true (events.map closeEv)) scoring =
        .ok (table, some avg) := by
      unfold mda
      rw [if_neg (by rintro ⟨a, b⟩; rcases hsc with h | h <;> contradiction), h1, py_bind_ok, hr, py_bind_ok]
      have e : npMean (rows.map Prod.fst) = some ((rows.map Prod.fst).sum / ((rows.map Prod.fst).length : ℝ)) := by
        unfold npMean
        rw [if_neg (by simpa using hrows)]
      rw [e]
      exact ⟨_, _, rfl⟩
    obtain ⟨table, avg, hm⟩ := hm
    refine ⟨table, avg, hm, ?_⟩
    unfold mda at hm
    rw [if_neg (by rintro ⟨a, b⟩; rcases hsc with h | h <;> contradiction), h1, py_bind_ok, hr, py_bind_ok] at hm
    injection hm with hm
    injection hm with hm _
    rw [← hm]
    simp

/-- A library that does its part. -/
example : Works rowLengths :=
  ⟨fun _ _ _ _ _ _ _ => ⟨_, rfl⟩, fun _ _ => ⟨_, rfl⟩, fun _ _ => ⟨_, rfl⟩, fun _ => ⟨_, rfl⟩, fun _ _ _ _ => ⟨_, rfl⟩,
    fun _ _ _ => ⟨_, rfl⟩⟩

/-- Events and sizes to which both results apply: six events in three folds with an embargo of one event. -/
example : OneByOne [(0, 1), (2, 3), (4, 5), (6, 7), (8, 9), (10, 11)] ∧ ((6 + 1) / 2 : ℕ) + 2 + ⌊((6 : ℕ) : ℚ) * (1 / 6)⌋ ≤ (6 : ℤ) :=
  ⟨⟨by decide, by decide⟩, by norm_num⟩

end FinML.CV
