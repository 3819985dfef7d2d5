import Verif.CV.KFoldProps

/-! # PurgedKFold on events without an end and with a negative embargo (C210, C211) -/

namespace FinML.CV

set_option linter.unusedSectionVars false

variable {K : Type} [Field K] [LinearOrder K] [IsStrictOrderedRing K] [FloorRing K]

/-- One fold, ends possibly missing: `first` is the first test event, `te` the last known end of the test
events, and the train set is what ended before `first` starts, then the rows from one past the first
event after `te`, moved by the embargo. -/
theorem fold_open (events : List Event) (hs : (events.map Prod.fst).Pairwise (· ≤ ·)) (emb : ℤ)
    (b : ℕ × ℕ) (h1 : b.1 < b.2) (h2 : b.2 ≤ events.length) (f : List ℕ × List ℕ)
    (h : kfoldOne events emb b = .ok f) :
    ∃ (first : Event) (te : ℤ) (c : ℕ), events[b.1]? = some first ∧ f.2 = List.range' b.1 (b.2 - b.1) ∧
      (∃ y ∈ f.2, ∃ t, events[y]? = some t ∧ t.2 = some te) ∧
      (∀ y ∈ f.2, ∀ t, events[y]? = some t → ∀ e, t.2 = some e → e ≤ te) ∧
      c ≤ events.length ∧
      (∀ x ev, events[x]? = some ev → (te < ev.1 ↔ c ≤ x)) ∧
      ∀ x, x ∈ f.1 ↔ (∃ ev e, events[x]? = some ev ∧ ev.2 = some e ∧ e < first.1) ∨
        (c + 1 < events.length ∧ x ∈ pyDrop ((c : ℤ) + 1 + emb) (List.range events.length)) := by
  have htest := fold_test events emb b f h
  have hrange : ((List.range events.length).take b.2).drop b.1 = List.range' b.1 (b.2 - b.1) := by
    have := take_drop_range events.length b.1 (b.2 - b.1) (by omega)
    rwa [show b.1 + (b.2 - b.1) = b.2 by omega] at this
  unfold kfoldOne at h
  simp only at h
  rw [py_bind_eq_ok] at h
  obtain ⟨first, hf, h⟩ := h
  rw [py_bind_eq_ok] at h
  obtain ⟨tests, ht, h⟩ := h
  rw [py_bind_eq_ok] at h
  obtain ⟨te, hte, h⟩ := h
  rw [py_pure] at h
  rw [hrange, mapM_pyGet_range' _ _ _ (by omega)] at ht
  rw [pyGet_eq_ok_iff] at hf
  have hsome : ∀ y, y ∈ List.range' b.1 (b.2 - b.1) → ∀ t, events[y]? = some t → t ∈ tests := by
    intro y hy t hyt
    cases ht
    rw [List.mem_range'_1] at hy
    rw [List.mem_iff_getElem?]
    refine ⟨y - b.1, ?_⟩
    rw [List.getElem?_drop, show b.1 + (y - b.1) = y by omega, List.getElem?_take_of_lt (by omega), hyt]
  have hback : ∀ t ∈ tests, ∃ y ∈ List.range' b.1 (b.2 - b.1), events[y]? = some t := by
    intro t htm
    cases ht
    rw [List.mem_iff_getElem?] at htm
    obtain ⟨k, hk⟩ := htm
    rw [List.getElem?_drop] at hk
    have hlt : b.1 + k < b.1 + (b.2 - b.1) := by
      by_contra hc
      rw [List.getElem?_take_eq_none (not_lt.1 hc)] at hk
      cases hk
    rw [List.getElem?_take_of_lt hlt] at hk
    exact ⟨b.1 + k, by rw [List.mem_range'_1]; omega, hk⟩
  unfold maxEnd at hte
  split at hte
  · cases hte
  rw [npMax_eq_ok_iff] at hte
  obtain ⟨hm, hg⟩ := hte
  rw [hrange] at htest
  refine ⟨first, te, searchRight (events.map Prod.fst) te, hf, htest, ?_, ?_, ?_, ?_, ?_⟩
  · obtain ⟨t, ht1, ht2⟩ := List.mem_filterMap.1 hm
    obtain ⟨y, hy, hyt⟩ := hback t ht1
    exact ⟨y, by rw [htest]; exact hy, t, hyt, ht2⟩
  · intro y hy t hyt e he
    rw [htest] at hy
    exact hg (List.mem_filterMap.2 ⟨t, hsome y hy t hyt, he⟩)
  · have := searchRight_le (events.map Prod.fst) te
    simpa using this
  · intro x ev hx
    have := lt_searchRight_iff (events.map Prod.fst) hs te x ev.1 (by
      rw [List.getElem?_map, hx]; rfl)
    rw [← not_le, ← this, not_lt]
  · intro x
    have htr : ∀ x, x ∈ (events.zipIdx.filter fun r => oLt r.1.2 first.1).map Prod.snd ↔
        ∃ ev e, events[x]? = some ev ∧ ev.2 = some e ∧ e < first.1 := by
      intro x
      constructor
      · intro hx
        obtain ⟨r, hr, rfl⟩ := List.mem_map.1 hx
        obtain ⟨hr1, hr2⟩ := List.mem_filter.1 hr
        have hr3 := List.mem_zipIdx_iff_getElem?.1 hr1
        cases he : r.1.2 with
        | none => rw [he] at hr2; simp [oLt] at hr2
        | some e =>
          rw [he] at hr2
          exact ⟨r.1, e, hr3, he, by simpa [oLt] using hr2⟩
      · rintro ⟨ev, e, hx, he, hlt⟩
        refine List.mem_map.2 ⟨(ev, x), List.mem_filter.2 ⟨List.mem_zipIdx_iff_getElem?.2 hx, ?_⟩, rfl⟩
        simp only [he]
        simpa [oLt] using hlt
    cases h
    simp only
    split
    · rename_i hc
      rw [List.mem_append, htr]
      push_cast
      simp only [hc, true_and]
    · rename_i hc
      rw [htr]
      simp only [hc, false_and, or_false]

/-- C133, full claim for the test side: a test interval that has not ended removes every event that has
not ended before it starts. -/
def OpenTestsPurge : Prop := ∀ (events : List (ℤ × ℤ)) (tests : List Event),
  ∀ i ∈ purgedTrain (events.map closeEv) tests, ∀ ev, events[i]? = some ev →
    ∀ t ∈ tests, t.2 = none → ev.2 < t.1

/-- C133, counterexample for the test side. -/
theorem C133_open_tests_counterexample : ¬ OpenTestsPurge := by
  intro h
  have := h [(5, 6)] [(5, none)] 0 (by decide) (5, 6) rfl (5, none) (by simp) rfl
  simp at this

/-- C133, what holds for the test side: a test interval that has not ended removes nothing (missing: all
it should remove). -/
theorem C133_open_tests_partial (events tests : List Event) :
    purgedTrain events tests = purgedTrain events (tests.filter fun t => t.2.isSome) := by
  have key : ∀ (ts : List Event) (rows : List (Event × ℕ)),
      ts.foldl (fun rows t => rows.filter fun r => !overlaps t r.1) rows =
        (ts.filter fun t => t.2.isSome).foldl (fun rows t => rows.filter fun r => !overlaps t r.1) rows := by
    intro ts
    induction ts with
    | nil => intro rows; rfl
    | cons t ts ih =>
      intro rows
      rw [List.foldl_cons]
      obtain ⟨s, e⟩ := t
      cases e with
      | none =>
        have hf : rows.filter (fun r => !overlaps (s, none) r.1) = rows := by
          rw [List.filter_eq_self]
          intro r _
          unfold overlaps leO oLeO
          simp
        rw [hf, ih rows]
        rfl
      | some e =>
        rw [ih]
        rfl
  unfold purgedTrain
  rw [key]

/-- Every fold of a successful call comes from its bounds. -/
theorem fold_bound (events : List Event) (nSplits : ℤ) (pct : K) (folds : List (List ℕ × List ℕ))
    (h : kfoldSplit nSplits pct (.series true events) = .ok folds) (f : List ℕ × List ℕ) (hf : f ∈ folds) :
    ∃ b : ℕ × ℕ, b.1 < b.2 ∧ b.2 ≤ events.length ∧
      kfoldOne events (pyInt ((events.length : K) * pct)) b = .ok f := by
  have hn0 : 0 < nSplits := by
    by_contra hc
    rw [(C41_raises events nSplits pct).2.1 (not_lt.1 hc)] at h
    cases h
  have hnn : nSplits ≤ events.length := by
    by_contra hc
    rw [(C41_raises events nSplits pct).1 (not_le.1 hc)] at h
    cases h
  obtain ⟨bounds, hb, -, hbd, -⟩ := kfold_bounds events nSplits pct hn0 hnn
  rw [kfoldSplit_series, hb, mapM_eq_ok_iff] at h
  obtain ⟨b, hbm, hbf⟩ : ∃ b ∈ bounds, kfoldOne events (pyInt ((events.length : K) * pct)) b = .ok f := by
    clear hb hbd
    induction h with
    | nil => cases hf
    | @cons b r bs rs hbr _ ih =>
      rcases List.mem_cons.1 hf with rfl | hf
      · exact ⟨b, by simp, hbr⟩
      · obtain ⟨b', h1, h2⟩ := ih hf
        exact ⟨b', by simp [h1], h2⟩
  exact ⟨b, (hbd b hbm).1, (hbd b hbm).2.1, hbf⟩

/-- C210, full claim: of a train and a test event one has ended before the other starts, an event without
an end lasting for ever. -/
def OpenEventsSeparated : Prop := ∀ (events : List Event) (nSplits : ℤ) (folds : List (List ℕ × List ℕ)),
  (events.map Prod.fst).Pairwise (· ≤ ·) →
  kfoldSplit nSplits (0 : ℚ) (.series true events) = .ok folds →
  ∀ f ∈ folds, ∀ x ∈ f.1, ∀ y ∈ f.2, ∀ ev t, events[x]? = some ev → events[y]? = some t →
    (∃ e, ev.2 = some e ∧ e < t.1) ∨ (∃ e, t.2 = some e ∧ e < ev.1)

/-- C210, counterexample: the first test event has not ended, and the fourth event is trained on. -/
theorem C210_open_counterexample : ¬ OpenEventsSeparated := by
  intro h
  have h1 : kfoldSplit 2 (0 : ℚ) (.series true [(0, none), (1, some 1), (2, some 2), (3, some 3)]) =
      .ok [([3], [0, 1]), ([1], [2, 3])] := by decide +kernel
  have h2 := h _ 2 _ (by decide) h1 ([3], [0, 1]) (by simp) 3 (by simp) 0 (by simp) (3, some 3) (0, none)
    rfl rfl
  simp at h2

/-- C210, what holds: a train event ended before every test event starts, or starts after every known end
of a test event; so one that has not ended itself is only trained on if it starts after them (missing:
test events that have not ended keep nothing away). -/
theorem C210_open_partial (events : List Event) (hs : (events.map Prod.fst).Pairwise (· ≤ ·))
    (nSplits : ℤ) (pct : K) (hp : 0 ≤ pct) (folds : List (List ℕ × List ℕ))
    (h : kfoldSplit nSplits pct (.series true events) = .ok folds) :
    ∀ f ∈ folds, ∀ x ∈ f.1, ∃ ev, events[x]? = some ev ∧
      ((∃ e, ev.2 = some e ∧ ∀ y ∈ f.2, ∀ t, events[y]? = some t → e < t.1) ∨
        (∀ y ∈ f.2, ∀ t e, events[y]? = some t → t.2 = some e → e < ev.1)) := by
  intro f hf x hx
  obtain ⟨b, h1, h2, h3⟩ := fold_bound events nSplits pct folds h f hf
  have hint : 0 ≤ pyInt ((events.length : K) * pct) := by
    have h0 : 0 ≤ (events.length : K) * pct := mul_nonneg (Nat.cast_nonneg _) hp
    unfold pyInt
    rw [if_pos h0]
    exact Int.floor_nonneg.2 h0
  obtain ⟨first, te, c, hfi, htest, -, hle, -, hrank, htr⟩ := fold_open events hs _ b h1 h2 f h3
  rcases (htr x).1 hx with ⟨ev, e, hev, he, hlt⟩ | ⟨-, hd⟩
  · refine ⟨ev, hev, Or.inl ⟨e, he, fun y hy t ht => lt_of_lt_of_le hlt ?_⟩⟩
    rw [htest, List.mem_range'_1] at hy
    rcases Nat.eq_or_lt_of_le hy.1 with h4 | h4
    · rw [← h4, hfi] at ht
      cases ht
      exact le_refl _
    · have hyl : y < events.length := by omega
      have := List.pairwise_iff_getElem.1 hs b.1 y (by simp; omega) (by simpa using hyl) h4
      rw [List.getElem?_eq_getElem (by omega)] at hfi ht
      rw [← Option.some.inj hfi, ← Option.some.inj ht]
      simpa using this
  · rw [pyDrop_range _ (by omega)] at hd
    refine ⟨events[x], List.getElem?_eq_getElem hd.2, Or.inr fun y hy t e ht he => ?_⟩
    exact lt_of_le_of_lt (hle y hy t ht e he)
      ((hrank x _ (List.getElem?_eq_getElem hd.2)).2 (by omega))

/-- The hypotheses of C210 are met: open events in both parts. -/
example : kfoldSplit 2 (0 : ℚ) (.series true [(0, some 0), (1, none), (2, some 2), (3, some 4), (4, none),
    (5, some 6), (6, none)]) = .ok [([6], [0, 1, 2, 3]), ([0, 2], [4, 5, 6])] := by decide +kernel

/-- C211, full claim: whatever the embargo, no event is trained on and tested in the same fold. -/
def AnyEmbargoDisjoint : Prop := ∀ (events : List (ℤ × ℤ)) (nSplits : ℤ) (pct : ℚ)
  (folds : List (List ℕ × List ℕ)), (events.map Prod.fst).Pairwise (· ≤ ·) → (∀ e ∈ events, e.1 ≤ e.2) →
  kfoldSplit nSplits pct (.series true (events.map closeEv)) = .ok folds →
  ∀ f ∈ folds, ∀ x ∈ f.1, x ∉ f.2

/-- C211, counterexample: with an embargo of minus one half the first test event is trained on. -/
theorem C211_negative_counterexample : ¬ AnyEmbargoDisjoint := by
  intro h
  have h1 : kfoldSplit 2 (-1 / 2 : ℚ) (.series true ([(0, 0), (1, 1), (2, 2), (3, 3)].map closeEv)) =
      .ok [([1, 2, 3], [0, 1]), ([0, 1], [2, 3])] := by decide +kernel
  exact h _ 2 _ _ (by decide) (by decide) h1 ([1, 2, 3], [0, 1]) (by simp) 1 (by simp) (by simp)

/-- C211, what holds: an embargo that is not negative, or by less than one event, leaves the two sets
disjoint (missing: other negative ones, which are not refused). -/
theorem C211_negative_partial (events : List (ℤ × ℤ)) (hs : (events.map Prod.fst).Pairwise (· ≤ ·))
    (he : ∀ e ∈ events, e.1 ≤ e.2) (nSplits : ℤ) (pct : K) (hp : -1 < (events.length : K) * pct)
    (folds : List (List ℕ × List ℕ))
    (h : kfoldSplit nSplits pct (.series true (events.map closeEv)) = .ok folds) :
    ∀ f ∈ folds, ∀ x ∈ f.1, x ∉ f.2 := by
  have key : ∀ q : K, 0 ≤ q → kfoldSplit nSplits q (.series true (events.map closeEv)) = .ok folds →
      ∀ f ∈ folds, ∀ x ∈ f.1, x ∉ f.2 := fun q hq hk f hf =>
    (C42_no_leak events hs he nSplits q hq folds hk f hf).2.1
  rcases le_or_gt 0 pct with h0 | h0
  · exact key pct h0 h
  · apply key 0 le_rfl
    have : pyInt ((events.length : K) * pct) = pyInt ((events.length : K) * 0) := by
      rw [mul_zero]
      have e0 : pyInt (0 : K) = 0 := by simp [pyInt]
      rw [e0]
      have hle : (events.length : K) * pct ≤ 0 :=
        mul_nonpos_of_nonneg_of_nonpos (Nat.cast_nonneg _) h0.le
      unfold pyInt
      split
      · rename_i h5
        rw [le_antisymm hle h5, Int.floor_zero]
      · rw [Int.ceil_eq_iff]
        exact ⟨by simpa using hp, by simpa using hle⟩
    rw [kfoldSplit_series] at h ⊢
    unfold kfoldEvents at h ⊢
    rw [List.length_map] at h ⊢
    rwa [this] at h

/-- C211, what a negative embargo does: with `c` the first event past the test ends, the second part of
the train set starts `k = -int(n·pct)` rows earlier than without embargo; if that is before the first row,
it is the last `k - c - 1` rows. -/
theorem C211_negative_rows (events : List Event) (hs : (events.map Prod.fst).Pairwise (· ≤ ·))
    (nSplits : ℤ) (pct : K) (k : ℕ) (hk : (events.length : K) * pct ≤ -(k : K))
    (hk' : -(k : K) - 1 < (events.length : K) * pct) (folds : List (List ℕ × List ℕ))
    (h : kfoldSplit nSplits pct (.series true events) = .ok folds) :
    ∀ f ∈ folds, ∃ c : ℕ,
      (∀ x ev, events[x]? = some ev →
        (c ≤ x ↔ ∀ y ∈ f.2, ∀ t e, events[y]? = some t → t.2 = some e → e < ev.1)) ∧
      ∀ x < events.length, (∀ ev, events[x]? = some ev → ∀ e, ev.2 = some e →
          ∃ y ∈ f.2, ∃ t, events[y]? = some t ∧ t.1 ≤ e) →
        (x ∈ f.1 ↔ c + 1 < events.length ∧
          ((k ≤ c + 1 ∧ c + 1 ≤ x + k) ∨ (c + 1 < k ∧ events.length + c + 1 ≤ x + k))) := by
  intro f hf
  obtain ⟨b, h1, h2, h3⟩ := fold_bound events nSplits pct folds h f hf
  have hemb : pyInt ((events.length : K) * pct) = -(k : ℤ) := by
    unfold pyInt
    split
    · rename_i h5
      have hk0 : (k : K) ≤ 0 := by linarith
      have hk1 : (k : K) = 0 := le_antisymm hk0 (Nat.cast_nonneg _)
      have h6 : (events.length : K) * pct = 0 := le_antisymm (by linarith) h5
      have hk2 : k = 0 := by exact_mod_cast hk1
      rw [h6, Int.floor_zero, hk2]
      rfl
    · rw [Int.ceil_eq_iff]
      push_cast
      exact ⟨hk', hk⟩
  rw [hemb] at h3
  obtain ⟨first, te, c, hfi, htest, hmax, hle, hcn, hrank, htr⟩ := fold_open events hs _ b h1 h2 f h3
  refine ⟨c, ?_, ?_⟩
  · intro x ev hx
    rw [← hrank x ev hx]
    constructor
    · intro hlt y hy t e ht he
      exact lt_of_le_of_lt (hle y hy t ht e he) hlt
    · intro hall
      obtain ⟨y, hy, t, ht, hte⟩ := hmax
      exact hall y hy t te ht hte
  · intro x hxl hx
    rw [htr x]
    have hno : ¬ ∃ ev e, events[x]? = some ev ∧ ev.2 = some e ∧ e < first.1 := by
      rintro ⟨ev, e, hev, he, hlt⟩
      obtain ⟨y, hy, t, ht, hte⟩ := hx ev hev e he
      rw [htest, List.mem_range'_1] at hy
      have : first.1 ≤ t.1 := by
        rcases Nat.eq_or_lt_of_le hy.1 with h4 | h4
        · rw [← h4, hfi] at ht
          cases ht
          exact le_refl _
        · have hyl : y < events.length := by omega
          have := List.pairwise_iff_getElem.1 hs b.1 y (by simp; omega) (by simpa using hyl) h4
          rw [List.getElem?_eq_getElem (by omega)] at hfi ht
          rw [← Option.some.inj hfi, ← Option.some.inj ht]
          simpa using this
      omega
    simp only [hno, false_or]
    apply and_congr_right
    intro hc
    unfold pyDrop
    rw [List.range_eq_range', List.length_range', List.drop_range', List.drop_range']
    split
    · rw [List.mem_range'_1]
      omega
    · rw [List.mem_range'_1]
      omega

/-- The hypotheses of C211 are met, in both directions. -/
example : kfoldSplit 2 (-1 : ℚ) (.series true [(0, some 0), (1, some 1), (2, some 2), (3, some 3), (4, some 4)])
    = .ok [([4], [0, 1, 2]), ([0, 1, 2], [3, 4])] ∧
    kfoldSplit 2 (-3 / 5 : ℚ) (.series true [(0, some 0), (1, some 1), (2, some 2), (3, some 3), (4, some 4)])
    = .ok [([1, 2, 3, 4], [0, 1, 2]), ([0, 1, 2], [3, 4])] := by decide +kernel

end FinML.CV
