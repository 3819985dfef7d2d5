import Verif.FracDiff.Props

/-! # Property C197: differenced values when observations are appended -/

set_option linter.unusedSectionVars false

namespace FinML.FracDiff

variable {K : Type} [Field K] [LinearOrder K] [IsStrictOrderedRing K]

/-- The labelled values of column `nm`. -/
def rowsOf (fr : Frame K) (nm : String) : List (ℤ × Option K) :=
  (fr.cols.filter fun c => c.1 = nm).flatMap fun c => fr.index.zip c.2

/-- The values computed from the first `n` observations are still there when all are used. -/
def HistoryKept (f : Frame ℚ → Py (Frame ℚ)) : Prop :=
  ∀ (index : List ℤ) (nm : String) (x : List ℚ) (n : ℕ) (out out' : Frame ℚ),
    index.Pairwise (· < ·) → x.length = index.length →
    f (completeFrame (index.take n) [(nm, x.take n)]) = .ok out →
    f (completeFrame index [(nm, x)]) = .ok out' → ∀ p ∈ rowsOf out nm, p ∈ rowsOf out' nm

/-- C197, full claim: appending observations keeps the values computed before. -/
def AppendKeeps : Prop := ∀ d thr : ℚ, 0 ≤ thr → thr ≤ 1 →
  HistoryKept (fun fr => fracDiffExpanding fr d thr) ∧ HistoryKept fun fr => fracDiffFixed fr d thr

/-- C197, counterexamples: with threshold 2/5 the first value of the expanding method is dropped after a
second observation; with threshold 0 the fixed window grows with the series. -/
theorem C197_append_counterexample :
    ¬ AppendKeeps ∧ (¬ ∀ d thr : ℚ, 0 ≤ thr → thr ≤ 1 → HistoryKept fun fr => fracDiffExpanding fr d thr) ∧
    ¬ ∀ d thr : ℚ, 0 ≤ thr → thr ≤ 1 → HistoryKept fun fr => fracDiffFixed fr d thr := by
  have h1 : ¬ ∀ d thr : ℚ, 0 ≤ thr → thr ≤ 1 → HistoryKept fun fr => fracDiffExpanding fr d thr := by
    intro h
    have := h 1 (2 / 5) (by norm_num) (by norm_num) [0, 1] "a" [3, 4] 1 (completeFrame [0] [("a", [3])])
      (completeFrame [1] [("a", [1])]) (by decide) (by decide) (by decide +kernel) (by decide +kernel)
    revert this
    decide +kernel
  have h2 : ¬ ∀ d thr : ℚ, 0 ≤ thr → thr ≤ 1 → HistoryKept fun fr => fracDiffFixed fr d thr := by
    intro h
    have := h 1 0 (by norm_num) (by norm_num) [0, 1] "a" [3, 4] 1 (completeFrame [0] [("a", [3])])
      (completeFrame [1] [("a", [1])]) (by decide) (by decide) (by decide +kernel) (by decide +kernel)
    revert this
    decide +kernel
  exact ⟨fun h => h1 fun d thr h0 h1 => (h d thr h0 h1).1, h1, h2⟩

theorem numSkips_mono (d thr : K) (h0 : 0 ≤ thr) (h1 : thr ≤ 1) (n N : ℕ) (hn : n ≤ N) :
    numSkips (getWeights d n) thr ≤ numSkips (getWeights d N) thr := by
  by_contra hlt
  push Not at hlt
  have hle := numSkips_le d thr n
  generalize hi : numSkips (getWeights d N) thr = i at *
  have hin : i < n := by omega
  have a := (lt_numSkips d thr h0 n i hin).1 hlt
  have b : ¬ thr * totalWeight d N < tailLoss d N i := by
    rw [← lt_numSkips d thr h0 N i (by omega), hi]
    exact lt_irrefl _
  apply b
  have t1 : tailLoss d N i = tailLoss d n i + ∑ k ∈ Finset.Ico n N, |lagWeight d k| := by
    unfold tailLoss
    rw [Finset.sum_Ico_consecutive _ (by omega) hn]
  have t2 : totalWeight d N = totalWeight d n + ∑ k ∈ Finset.Ico n N, |lagWeight d k| := by
    unfold totalWeight
    rw [Finset.range_eq_Ico, Finset.range_eq_Ico, Finset.sum_Ico_consecutive _ (Nat.zero_le _) hn]
  have hs : (0 : K) ≤ ∑ k ∈ Finset.Ico n N, |lagWeight d k| := Finset.sum_nonneg fun _ _ => abs_nonneg _
  rw [t1, t2]
  nlinarith

theorem getD_take_lt (x : List K) (n j : ℕ) (h : j < n) : (x.take n).getD j 0 = x.getD j 0 := by
  rw [List.getD_eq_getElem?_getD, List.getD_eq_getElem?_getD, List.getElem?_take_of_lt h]

theorem range_map_take (f g : ℕ → K) (n N : ℕ) (h : n ≤ N) (hfg : ∀ i < n, f i = g i) :
    (List.range n).map f = ((List.range N).map g).take n := by
  rw [← List.map_take, List.take_range, Nat.min_eq_left h]
  apply List.map_congr_left
  intro i hi
  exact hfg i (List.mem_range.1 hi)

theorem differenced_take (d : K) (x : List K) (n : ℕ) (hn : n ≤ x.length) :
    differenced d (x.take n) = (differenced d x).take n := by
  unfold differenced
  rw [List.length_take, Nat.min_eq_left hn]
  apply range_map_take _ _ _ _ hn
  intro i hi
  unfold diffAt
  apply Finset.sum_congr rfl
  intro k _
  rw [getD_take_lt x n _ (by omega)]

theorem valid_one (index : List ℤ) (nm : String) (x : List K) (hs : index.Pairwise (· < ·))
    (hx : x.length = index.length) : Valid index [(nm, x)] :=
  ⟨hs, by simp, by simpa using hx⟩

theorem valid_take (index : List ℤ) (nm : String) (x : List K) (hs : index.Pairwise (· < ·))
    (hx : x.length = index.length) (n : ℕ) : Valid (index.take n) [(nm, x.take n)] :=
  valid_one _ nm _ (hs.sublist (List.take_sublist _ _)) (by simp [hx])

/-- C197, what holds for the expanding method: no value is changed by appending observations; the first
`m' - m` values are dropped, none if the threshold is 1 (missing: these values). -/
theorem C197_append_expanding_partial (index : List ℤ) (nm : String) (x : List K)
    (hs : index.Pairwise (· < ·)) (hx : x.length = index.length) (n : ℕ) (hn : n ≤ index.length) (d thr : K)
    (h0 : 0 ≤ thr) (h1 : thr ≤ 1) :
    ∃ (m m' : ℕ) (y : List K), m ≤ m' ∧ (thr = 1 → m' = 0) ∧ y.length = index.length ∧
      fracDiffExpanding (completeFrame (index.take n) [(nm, x.take n)]) d thr =
        .ok (completeFrame ((index.take n).drop m) [(nm, (y.take n).drop m)]) ∧
      fracDiffExpanding (completeFrame index [(nm, x)]) d thr =
        .ok (completeFrame (index.drop m') [(nm, y.drop m')]) := by
  refine ⟨_, _, differenced d x, numSkips_mono d thr h0 h1 n index.length hn, ?_, ?_, ?_,
    expanding_complete index _ (valid_one index nm x hs hx) d thr h0 h1 _ rfl⟩
  · rintro rfl
    exact numSkips_one d _
  · rw [length_differenced, hx]
  · have h := expanding_complete (index.take n) _ (valid_take index nm x hs hx n) d thr h0 h1 _ rfl
    rw [h]
    simp only [mapCols, List.map_cons, List.map_nil, differenced_take d x n (by omega), List.length_take,
      Nat.min_eq_left hn]

/-- C197, what holds for the fixed width: if the window of the first `n` observations was cut by the
threshold, appending observations changes nothing.  Otherwise there was at most one value, the window
was `n` long, and the value is either kept or dropped (missing: the dropped one). -/
theorem C197_append_fixed_partial (index : List ℤ) (nm : String) (x : List K)
    (hs : index.Pairwise (· < ·)) (hx : x.length = index.length) (n : ℕ) (hn : n ≤ index.length) (d thr : K)
    (w w' : ℕ) (hw : IsWidth d thr n w) (hw' : IsWidth d thr index.length w') :
    w ≤ w' ∧ (w + 1 < n → w = w') ∧
    ∃ y y' : List K, y.length = n ∧ y'.length = index.length ∧
      fracDiffFixed (completeFrame (index.take n) [(nm, x.take n)]) d thr =
        .ok (completeFrame ((index.take n).drop w) [(nm, y.drop w)]) ∧
      fracDiffFixed (completeFrame index [(nm, x)]) d thr =
        .ok (completeFrame (index.drop w') [(nm, y'.drop w')]) ∧
      (w = w' → y = y'.take n) ∧ (w ≠ w' → n ≤ w' ∧ y.length ≤ w + 1) := by
  have hle : w ≤ w' := by
    by_contra hlt
    push Not at hlt
    have a := hw.2.1 (w' + 1) (by omega) (by omega)
    have b := hw'.2.2 (by have := hw.1; omega)
    exact absurd b (not_lt.2 a)
  have hcut : w + 1 < n → w = w' := by
    intro hlt
    by_contra hne
    have a := hw.2.2 hlt
    have b := hw'.2.1 (w + 1) (by omega) (by omega)
    exact absurd a (not_lt.2 b)
  have hwt : IsWidth d thr (index.take n).length w := by
    rw [List.length_take, Nat.min_eq_left hn]; exact hw
  refine ⟨hle, hcut, (List.range (x.take n).length).map (diffWidth d w (x.take n)),
    (List.range x.length).map (diffWidth d w' x), by simp; omega, by simp [hx], ?_, ?_, ?_, ?_⟩
  · exact fixed_complete _ _ (valid_take index nm x hs hx n) d thr w hwt
  · exact fixed_complete _ _ (valid_one index nm x hs hx) d thr w' hw'
  · rintro rfl
    rw [List.length_take, Nat.min_eq_left (by omega)]
    apply range_map_take _ _ _ _ (by omega)
    intro i hi
    unfold diffWidth
    apply Finset.sum_congr rfl
    intro k _
    rw [getD_take_lt x n _ (by omega)]
  · intro hne
    have h1 := hw.1
    have h2 : ¬ w + 1 < n := fun h => hne (hcut h)
    simp
    omega

/-- Window of two observations, cut by the threshold 1/4: the values at 3 and 4 stay. -/
example : IsWidth (1 / 2 : ℚ) (1 / 4) 3 1 ∧
    fracDiffFixed (completeFrame [1, 3, 4] [("a", [(2 : ℚ), 5, 4])]) (1 / 2) (1 / 4) =
      .ok (completeFrame [3, 4] [("a", [4, 3 / 2])]) ∧
    fracDiffFixed (completeFrame [1, 3, 4, 7] [("a", [(2 : ℚ), 5, 4, 8])]) (1 / 2) (1 / 4) =
      .ok (completeFrame [3, 4, 7] [("a", [4, 3 / 2, 6])]) := by
  refine ⟨⟨by decide, ?_, ?_⟩, by decide +kernel, by decide +kernel⟩
  · intro k h1 h2
    obtain rfl : k = 1 := by omega
    norm_num [lagWeight, gbinom, abs_of_nonneg]
  · intro _
    norm_num [lagWeight, gbinom, Finset.prod_range_succ, abs_of_nonneg, Nat.factorial]

end FinML.FracDiff
