import Verif.Bars.LabelModel
import Verif.Bars.LoopProps

/-!
# C178: runs bars and the row labels of the tick frame
-/

namespace FinML.Bars

set_option linter.unusedSectionVars false

section
variable {K : Type} [Field K] [LinearOrder K] [IsStrictOrderedRing K]

theorem runsStepAt_pyGet (p : LoopParams K) (b v : List K) (s : RunsState K) (i : ℕ) :
    runsStepAt p b (pyGet v) s i = runsStep p b v s i := rfl

theorem foldlM_congr {σ : Type} {f g : σ → ℕ → Py σ} :
    ∀ (l : List ℕ) (s : σ), (∀ i ∈ l, ∀ s, f s i = g s i) → l.foldlM f s = l.foldlM g s
  | [], _, _ => rfl
  | a :: l, s, h => by
    rw [List.foldlM_cons, List.foldlM_cons, h a (by simp)]
    congr 1
    funext s'
    exact foldlM_congr l s' fun i hi => h i (by simp [hi])

/-- Only the values at the positions `0, …, n-1` matter. -/
theorem sizes_congr (p : LoopParams K) (r : RunsInit K) (b : List K) {f g : ℕ → Py K}
    (h : ∀ i < b.length, f i = g i) : computeRunsBarSizesAt p r b f = computeRunsBarSizesAt p r b g := by
  unfold computeRunsBarSizesAt runsLoopAt
  cases b with
  | nil => rfl
  | cons x xs =>
    rw [h 0 (by simp)]
    have : (List.range' 1 ((x :: xs).length - 1)).foldlM (runsStepAt p (x :: xs) f) =
        (List.range' 1 ((x :: xs).length - 1)).foldlM (runsStepAt p (x :: xs) g) := by
      funext s
      apply foldlM_congr
      intro i hi s
      unfold runsStepAt
      rw [h i (by simp only [List.mem_range'_1] at hi; simp only [List.length_cons] at hi ⊢; omega)]
    simp only [fun s => congrFun this s]

theorem sizes_pyGet (p : LoopParams K) (r : RunsInit K) (b v : List K) :
    computeRunsBarSizesAt p r b (pyGet v) = computeRunsBarSizes p r b v := rfl

theorem filter_range_zip (v : List K) : ∀ (k : ℕ) (i : ℕ), k ≤ i →
    ((((List.range' k v.length).map fun j : ℕ => (j : ℤ)).zip v).filter fun p => p.1 = (i : ℤ)).map Prod.snd =
      (v[i - k]?).toList := by
  induction v with
  | nil => intro k i _; simp
  | cons x xs ih =>
    intro k i hk
    rw [List.length_cons, List.range'_succ, List.map_cons, List.zip_cons_cons, List.filter_cons]
    by_cases h : k = i
    · subst h
      have : ∀ p ∈ (((List.range' (k + 1) xs.length).map fun j : ℕ => (j : ℤ)).zip xs), ¬ p.1 = (k : ℤ) := by
        intro p hp
        have := List.of_mem_zip hp
        obtain ⟨j, hj, he⟩ := List.mem_map.1 this.1
        rw [List.mem_range'_1] at hj
        rw [← he]
        omega
      rw [if_pos (by simp), List.filter_eq_nil_iff.2 (by simpa using this)]
      simp
    · rw [if_neg (by simpa using h), ih (k + 1) i (by omega)]
      have : i - k = (i - (k + 1)) + 1 := by omega
      rw [this]
      simp

/-- Labels `0, …, n-1` are positions. -/
theorem labelGet_range (v : List K) (i : ℕ) (hi : i < v.length) :
    labelGet ((List.range v.length).map fun j : ℕ => (j : ℤ)) v i = pyGet v i := by
  have h := filter_range_zip v 0 i (Nat.zero_le _)
  rw [Nat.sub_zero] at h
  unfold labelGet pyGet
  rw [List.range_eq_range', h, List.getElem?_eq_getElem hi]
  rfl

/-- The full claim: bars are made from the ticks; the row labels of the frame are immaterial. -/
def LabelsImmaterial (K : Type) [Field K] [LinearOrder K] [IsStrictOrderedRing K] : Prop :=
  ∀ (unit : BarUnit) (minSize : K) (maxSize : Option K) (b0 : K) (ETInit : ℕ)
    (PInit EvBuyInit EvSellInit : Option K) (TSpan bSpan : Option ℕ) (labels labels' : List ℤ)
    (ticks : List (Tick K)), labels.length = ticks.length → labels'.length = ticks.length →
    aggregateRunsBarsFrame unit minSize maxSize b0 ETInit PInit EvBuyInit EvSellInit TSpan bSpan labels ticks =
      aggregateRunsBarsFrame unit minSize maxSize b0 ETInit PInit EvBuyInit EvSellInit TSpan bSpan labels' ticks

/-- C178, what holds: in tick units, and for a frame labelled 0, 1, …, the bars are those of the ticks.
Missing: other labels in volume and dollar units, see `C178_sorted_counterexample`. -/
theorem C178_partial (unit : BarUnit) (minSize : K) (maxSize : Option K) (b0 : K) (ETInit : ℕ)
    (PInit EvBuyInit EvSellInit : Option K) (TSpan bSpan : Option ℕ) (labels : List ℤ) (ticks : List (Tick K))
    (h : unit = .tick ∨ labels = (List.range ticks.length).map fun j : ℕ => (j : ℤ)) :
    aggregateRunsBarsFrame unit minSize maxSize b0 ETInit PInit EvBuyInit EvSellInit TSpan bSpan labels ticks =
      aggregateRunsBars unit minSize maxSize b0 ETInit PInit EvBuyInit EvSellInit TSpan bSpan ticks := by
  unfold aggregateRunsBarsFrame aggregateRunsBars
  cases hv : tradedQty unit ticks with
  | error e => rfl
  | ok v =>
    have hl := tradedQty_length hv
    have : ∀ (p : LoopParams K) (r : RunsInit K),
        computeRunsBarSizesAt p r (tickRule b0 (ticks.map Tick.price)) (qtyAt unit labels v) =
          computeRunsBarSizes p r (tickRule b0 (ticks.map Tick.price)) v := by
      intro p r
      rw [← sizes_pyGet]
      apply sizes_congr
      intro i hi
      rw [tickRule_length, List.length_map] at hi
      unfold qtyAt
      split_ifs with hu
      · rfl
      · rcases h with h | h
        · exact absurd h hu
        · rw [h, ← hl]
          exact labelGet_range v i (by omega)
    simp only [this, py_bind_ok]
    rfl

theorem foldlM_ok_all {f : RunsState K → ℕ → Py (RunsState K)} :
    ∀ (l : List ℕ) (s t : RunsState K), l.foldlM f s = .ok t → ∀ i ∈ l, ∃ s' t', f s' i = .ok t'
  | [], _, _, _, i, hi => by simp at hi
  | a :: l, s, t, h, i, hi => by
    rw [List.foldlM_cons] at h
    obtain ⟨s1, h1, h2⟩ := py_bind_eq_ok.1 h
    rcases List.mem_cons.1 hi with rfl | hi
    · exact ⟨s, s1, h1⟩
    · exact foldlM_ok_all l s1 t h2 i hi

theorem labelGet_ok {labels : List ℤ} {v : List K} {i : ℕ} {x : K} (h : labelGet labels v i = .ok x) :
    (i : ℤ) ∈ labels := by
  unfold labelGet at h
  split at h
  · simp at h
  · rename_i y hy
    have : y ∈ ((labels.zip v).filter fun p => p.1 = (i : ℤ)).map Prod.snd := by rw [hy]; simp
    obtain ⟨p, hp, _⟩ := List.mem_map.1 this
    rw [List.mem_filter] at hp
    have h2 := (List.of_mem_zip hp.1).1
    have h3 : p.1 = (i : ℤ) := by simpa using hp.2
    rw [← h3]
    exact h2
  · simp at h

/-- C178, which frames are accepted: in volume and dollar units a result needs row labels that are 0, …, n-1
in some order; every other frame raises. -/
theorem C178_accepted_labels_partial (unit : BarUnit) (hu : unit ≠ .tick) (minSize : K) (maxSize : Option K) (b0 : K)
    (ETInit : ℕ) (PInit EvBuyInit EvSellInit : Option K) (TSpan bSpan : Option ℕ) (labels : List ℤ)
    (ticks : List (Tick K)) (hlen : labels.length = ticks.length)
    {res : List (Bar K) × List ℕ × List K × List (Option K)}
    (h : aggregateRunsBarsFrame unit minSize maxSize b0 ETInit PInit EvBuyInit EvSellInit TSpan bSpan labels ticks
      = .ok res) : labels.Perm ((List.range ticks.length).map fun j : ℕ => (j : ℤ)) := by
  have hall : ∀ i < ticks.length, (i : ℤ) ∈ labels := by
    unfold aggregateRunsBarsFrame at h
    obtain ⟨v, hv, h⟩ := py_bind_eq_ok.1 h
    have hl := tradedQty_length hv
    simp only at h
    have h' : ∃ (p : LoopParams K) (r : RunsInit K) (q : _),
        computeRunsBarSizesAt p r (tickRule b0 (ticks.map Tick.price)) (qtyAt unit labels v) = .ok q := by
      split_ifs at h with hc
      · cases h
      · simp only [py_pure] at h
        obtain ⟨q, hq, _⟩ := py_bind_eq_ok.1 h
        exact ⟨_, _, _, hq⟩
    obtain ⟨p, r, q, hq⟩ := h'
    unfold computeRunsBarSizesAt at hq
    obtain ⟨s, hs, _⟩ := py_bind_eq_ok.1 hq
    unfold runsLoopAt at hs
    obtain ⟨x0, _, hs⟩ := py_bind_eq_ok.1 hs
    obtain ⟨v0, hv0, hs⟩ := py_bind_eq_ok.1 hs
    intro i hi
    by_cases h0 : i = 0
    · subst h0
      rw [qtyAt, if_neg hu] at hv0
      exact labelGet_ok hv0
    · obtain ⟨s', t', ht⟩ := foldlM_ok_all _ _ _ hs i (by
        rw [List.mem_range'_1, tickRule_length, List.length_map]; omega)
      unfold runsStepAt at ht
      obtain ⟨_, _, ht⟩ := py_bind_eq_ok.1 ht
      obtain ⟨q, hq, _⟩ := py_bind_eq_ok.1 ht
      rw [qtyAt, if_neg hu] at hq
      exact labelGet_ok hq
  have hnd : ((List.range ticks.length).map fun j : ℕ => (j : ℤ)).Nodup :=
    List.nodup_range.map fun a b h => by simpa using h
  have hsub : ((List.range ticks.length).map fun j : ℕ => (j : ℤ)) ⊆ labels := by
    intro z hz
    obtain ⟨j, hj, rfl⟩ := List.mem_map.1 hz
    exact hall j (List.mem_range.1 hj)
  exact ((List.subperm_of_subset hnd hsub).perm_of_length_le (by simp [hlen])).symm

end

/-- Five trades sorted by time, as rows of a frame that was read in another order. -/
def sortedTicks : List (Tick ℚ) := [⟨0, 10, 1⟩, ⟨1, 9, 1⟩, ⟨2, 10, 1⟩, ⟨3, 11, 5⟩, ⟨4, 12, 1⟩]

/-- C178: sorting a frame by time keeps the old row labels, and the volumes are then looked up in the old
order: other bars than for the same ticks with fresh labels. -/
theorem C178_sorted_counterexample : ¬ LabelsImmaterial ℚ := by
  intro h
  have := h .volume 0 none 1 1 (some (1 / 2)) (some 8) (some 8) none none [0, 1, 2, 3, 4] [0, 1, 3, 2, 4] sortedTicks
    rfl rfl
  revert this
  decide +kernel

/-- Labels of a slice of a longer frame raise KeyError. -/
example : aggregateRunsBarsFrame (K := ℚ) .volume 0 none 1 1 (some (1 / 2)) (some 8) (some 8) none none
    [4, 5, 6, 7, 8] sortedTicks = .error .keyError := by decide +kernel

/-- A frame for `C178_partial` and `C178_accepted_labels_partial`, and the bars of the sorted frame. -/
example : (aggregateRunsBarsFrame (K := ℚ) .volume 0 none 1 1 (some (1 / 2)) (some 8) (some 8) none none
      [0, 1, 2, 3, 4] sortedTicks).map (fun r => r.2.1) = .ok [0, 0, 0, 0, 1] ∧
    (aggregateRunsBarsFrame (K := ℚ) .volume 0 none 1 1 (some (1 / 2)) (some 8) (some 8) none none
      [0, 1, 3, 2, 4] sortedTicks).map (fun r => r.2.1) = .ok [0, 0, 0, 1, 1] := by
  decide +kernel

end FinML.Bars
