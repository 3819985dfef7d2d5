import Verif.FracDiff.AdfModel
import Verif.Labels.Lemmas
import Verif.Weights.BootProps

/-! # Property C200: wrong arguments of differencing and labelling raise -/

set_option linter.unusedSectionVars false

namespace FinML

variable {K : Type} [Field K] [LinearOrder K] [IsStrictOrderedRing K]

namespace FracDiff

/-- C200, expanding differencing: a threshold that is not a fraction is refused by the assertion,
whatever the table. -/
theorem C200_threshold (fr : Frame K) (d thr : K) (h : thr < 0 ∨ 1 < thr) :
    fracDiffExpanding fr d thr = .error .assertionError := by
  unfold fracDiffExpanding
  rw [if_neg]
  rintro ⟨h0, h1⟩
  rcases h with h | h <;> linarith

/-- C200, both kinds of differencing: a table without columns has nothing to join, ValueError. -/
theorem C200_no_columns (index : List ℤ) (d thr : K) :
    (0 ≤ thr → thr ≤ 1 → fracDiffExpanding (⟨index, []⟩ : Frame K) d thr = .error .valueError) ∧
    fracDiffFixed (⟨index, []⟩ : Frame K) d thr = .error .valueError := by
  constructor
  · intro h0 h1
    unfold fracDiffExpanding
    rw [if_pos ⟨h0, h1⟩]
    rfl
  · rfl

/-- C200, the test of stationarity: a test that gives no 5% critical value cannot be tabulated, KeyError. -/
theorem C200_critical (adfuller : List ℝ → Py AdfOut) (index : List ℤ) (prices : List (Option ℝ)) (d : ℝ)
    (hno : ∀ x res, adfuller x = .ok res → ∀ p ∈ res.crit, p.1 ≠ "5%") (r : AdfRow) :
    adfOne adfuller index prices d ≠ .ok r ∧
    ∀ logs fd fdCol kept vals res, prices.mapM logPrice = .ok logs →
      fracDiffFixed ⟨index, [("price", logs)]⟩ d (1 / 100) = .ok fd → pyGet fd.cols 0 = .ok fdCol →
      fd.index.mapM (locRow (index.zip logs)) = .ok kept → fdCol.2.mapM adfInput = .ok vals →
      adfuller vals = .ok res → adfOne adfuller index prices d = .error .keyError := by
  have hc : ∀ x res, adfuller x = .ok res → critical res.crit = .error .keyError := by
    intro x res hx
    unfold critical
    rw [List.find?_eq_none.2 (by
      intro p hp
      simpa using hno x res hx p hp)]
    rfl
  constructor
  · intro h
    unfold adfOne at h
    obtain ⟨logs, -, h⟩ := py_bind_eq_ok.1 h
    obtain ⟨fd, -, h⟩ := py_bind_eq_ok.1 h
    obtain ⟨fdCol, -, h⟩ := py_bind_eq_ok.1 h
    obtain ⟨kept, -, h⟩ := py_bind_eq_ok.1 h
    obtain ⟨vals, -, h⟩ := py_bind_eq_ok.1 h
    obtain ⟨res, hr, h⟩ := py_bind_eq_ok.1 h
    rw [hc vals res hr] at h
    cases h
  · intro logs fd fdCol kept vals res h1 h2 h3 h4 h5 h6
    unfold adfOne
    rw [h1, py_bind_ok, h2, py_bind_ok, h3, py_bind_ok, h4, py_bind_ok, h5, py_bind_ok, h6, py_bind_ok,
      hc vals res h6]
    rfl

/-- Two rows. -/
example : fracDiffExpanding (⟨[0, 1], [("a", [some 1, some 2])]⟩ : Frame ℚ) (1 / 2) 2 =
    .error .assertionError := C200_threshold _ _ _ (by norm_num)

end FracDiff

namespace Labels

theorem atLabel_none {α : Type} (l : List (ℤ × α)) (t : ℤ) (h : t ∉ l.map Prod.fst) :
    atLabel l t = .error .keyError := by
  unfold atLabel
  rw [List.find?_eq_none.2]
  intro p hp hpt
  exact h (List.mem_map.2 ⟨p, hp, by simpa using hpt⟩)

theorem atLabel_some {α : Type} (l : List (ℤ × α)) (t : ℤ) (h : t ∈ l.map Prod.fst) :
    ∃ x, atLabel l t = .ok x := by
  unfold atLabel
  cases hf : l.find? fun p => p.1 = t with
  | some p => exact ⟨p.2, rfl⟩
  | none =>
    obtain ⟨p, hp, hpt⟩ := List.mem_map.1 h
    have := List.find?_eq_none.1 hf p hp
    simp [hpt] at this

theorem mapM_atLabel {α : Type} (l : List (ℤ × α)) (ts : List ℤ) (h : ∃ t ∈ ts, t ∉ l.map Prod.fst) :
    (ts.mapM fun t => do
      let x ← atLabel l t
      return (t, x)) = (.error .keyError : Py (List (ℤ × α))) := by
  induction ts with
  | nil => obtain ⟨t, ht, -⟩ := h; cases ht
  | cons t ts ih =>
    rw [mapM_cons_py]
    by_cases ht : t ∈ l.map Prod.fst
    · obtain ⟨x, hx⟩ := atLabel_some l t ht
      rw [hx]
      rw [ih]
      · rfl
      · obtain ⟨u, hu, hn⟩ := h
        rcases List.mem_cons.1 hu with rfl | hu
        · exact absurd ht hn
        · exact ⟨u, hu, hn⟩
    · rw [atLabel_none l t ht]
      rfl

/-- C200, event returns: an event without a target raises KeyError before any price is looked at. -/
theorem C200_no_target (prices : List (Row K)) (starts : List ℤ) (targets : Series (Option K)) (ptMul slMul : K)
    (expiries : Option (Series (Option ℤ))) (minTarget : K) (sides : Option (Series ℤ))
    (hp : (prices.map Row.time).Pairwise (· < ·)) (hs : starts.Nodup)
    (h : ∃ t ∈ starts, t ∉ targets.map Prod.fst) :
    getEventReturns prices starts targets ptMul slMul expiries minTarget sides = .error .keyError := by
  unfold getEventReturns
  rw [if_neg (by tauto), mapM_atLabel targets starts h]
  rfl

/-- C200, event returns: an event whose target is large enough and that has no side, though sides are
given, raises KeyError. -/
theorem C200_no_side (prices : List (Row K)) (starts : List ℤ) (targets : Series (Option K)) (ptMul slMul : K)
    (expiries : Option (Series (Option ℤ))) (minTarget : K) (sides : Series ℤ)
    (hp : (prices.map Row.time).Pairwise (· < ·)) (hs : starts.Nodup)
    (hall : ∀ t ∈ starts, t ∈ targets.map Prod.fst) (hu : (targets.map Prod.fst).Nodup)
    (h : ∃ t ∈ starts, t ∉ sides.map Prod.fst ∧ ∃ x, (t, some x) ∈ targets ∧ minTarget < x) :
    getEventReturns prices starts targets ptMul slMul expiries minTarget (some sides) = .error .keyError := by
  unfold getEventReturns
  rw [if_neg (by tauto)]
  have h1 : ∃ ts : List (ℤ × Option K), (starts.mapM fun t => do
      let x ← atLabel targets t
      return (t, x)) = (.ok ts : Py _) ∧ ∀ p ∈ targets, p.1 ∈ starts → p ∈ ts := by
    clear h hp hs
    induction starts with
    | nil => exact ⟨[], rfl, by simp⟩
    | cons t l ih =>
      obtain ⟨ts, h1, h2⟩ := ih fun u hu => hall u (by simp [hu])
      obtain ⟨x, hx⟩ := atLabel_some targets t (hall t (by simp))
      refine ⟨(t, x) :: ts, ?_, ?_⟩
      · rw [mapM_cons_py, h1, hx]; rfl
      · intro p hp hpt
        rcases List.mem_cons.1 hpt with h | h
        · have : p.2 = x := by
            unfold atLabel at hx
            cases hf : targets.find? fun p => p.1 = t with
            | none => rw [hf] at hx; cases hx
            | some q =>
              rw [hf] at hx
              cases hx
              have hq := List.find?_some hf
              have hqm := List.mem_of_find?_eq_some hf
              have := (List.inj_on_of_nodup_map hu) hp hqm (by rw [h]; exact (of_decide_eq_true hq).symm)
              rw [this]
          have : p = (t, x) := by rw [← this, ← h]
          rw [this]; simp
        · exact List.mem_cons_of_mem _ (h2 p hp h)
  obtain ⟨ts, h1, h2⟩ := h1
  rw [h1]
  obtain ⟨t, ht, hts, x, hx, hlt⟩ := h
  have hmem : (t, some x) ∈ ts.filter fun p => gtNan p.2 (some minTarget) := by
    refine List.mem_filter.2 ⟨h2 _ hx ht, ?_⟩
    simp [gtNan, hlt]
  have h3 : ((ts.filter fun p => gtNan p.2 (some minTarget)).mapM fun p => do
      let x ← atLabel sides p.1
      return (p.1, x)) = (.error .keyError : Py (List (ℤ × ℤ))) := by
    have := mapM_atLabel sides ((ts.filter fun p => gtNan p.2 (some minTarget)).map Prod.fst)
      ⟨t, List.mem_map.2 ⟨_, hmem, rfl⟩, hts⟩
    rw [List.mapM_map] at this
    exact this
  simp only [py_bind_ok]
  rw [h3]
  rfl

/-- Two bars, events at both, a target for the first only. -/
example : getEventReturns ([⟨0, some 1, some 2, some 1, some 2⟩, ⟨1, some 2, some 3, some 2, some 3⟩] :
    List (Row ℚ)) [0, 1] [(0, some (1 / 10))] 1 1 none 0 none = .error .keyError :=
  C200_no_target _ _ _ _ _ _ _ _ (by decide) (by decide) ⟨1, by simp, by simp⟩

/-- One event with a side for another time. -/
example : getEventReturns ([⟨0, some 1, some 2, some 1, some 2⟩, ⟨1, some 2, some 3, some 2, some 3⟩] :
    List (Row ℚ)) [0] [(0, some (1 / 10))] 1 1 none 0 (some [(1, 1)]) = .error .keyError :=
  C200_no_side _ _ _ _ _ _ _ _ (by decide) (by decide) (by simp) (by simp)
    ⟨0, by simp, by simp, 1 / 10, by simp, by norm_num⟩

end Labels

namespace Weights

/-- C200, sequential bootstrap: without events, or with an event that spans no bar, the first draw is
refused by ValueError, whatever the random source. -/
theorem C200_bootstrap (choice : List ℕ → List K → ℕ) (cols : List (List ℕ)) (size : Option ℕ)
    (hn : size.getD cols.length ≠ 0) (h : cols = [] ∨ ∃ c ∈ cols, ∀ x ∈ c, x = 0) :
    sampleSequentialBootstrap choice cols size = .error .valueError := by
  have hp : trialProbs (K := K) cols [] = .error .valueError := by
    rcases h with rfl | ⟨c, hc, h0⟩
    · simp [trialProbs]
    · obtain ⟨i, hi, rfl⟩ := List.getElem_of_mem hc
      have hu : trialUniqueness (K := K) cols [] i = none := by
        have hf : (uniquenessCol (K := K) [cols[i]] cols[i]).filter isPos = [] := by
          rw [List.filter_eq_nil_iff]
          intro x hx
          unfold uniquenessCol at hx
          obtain ⟨b, -, rfl⟩ := List.mem_map.1 hx
          have : cols[i].getD b 0 = 0 := by
            rw [List.getD_eq_getElem?_getD]
            cases hb : cols[i][b]? with
            | none => rfl
            | some x => exact h0 x (List.mem_of_getElem? hb)
          have e : (cols[i].getD b 0 : K) = 0 := by rw [this]; simp
          rw [e]
          unfold fdiv isPos
          split <;> simp_all
        have hg : cols.getD i [] = cols[i] := by simp [List.getD_eq_getElem?_getD, hi]
        unfold trialUniqueness getAvgUniqueness selectCols meanPositive
        rw [List.nil_append, List.map_singleton, hg, List.map_singleton, hf]
        simp [meanOpt]
      unfold trialProbs
      have hm : ((List.range cols.length).map fun i : ℕ => trialUniqueness (K := K) cols [] i).mapM id =
          none := by
        have hmem : (none : Option K) ∈ (List.range cols.length).map
            fun i : ℕ => trialUniqueness (K := K) cols [] i :=
          List.mem_map.2 ⟨i, List.mem_range.2 hi, hu⟩
        generalize (List.range cols.length).map (fun i : ℕ => trialUniqueness (K := K) cols [] i) = l at hmem
        induction l with
        | nil => cases hmem
        | cons a l ih =>
          rw [List.mapM_cons]
          rcases List.mem_cons.1 hmem with rfl | hmem
          · rfl
          · rw [ih hmem]
            cases a <;> rfl
      rw [hm]
  unfold sampleSequentialBootstrap
  obtain ⟨n, hn'⟩ := Nat.exists_eq_succ_of_ne_zero hn
  rw [hn', bootstrapLoop, hp]
  rfl

/-- Two events, of which the second starts after the last bar. -/
example (choice : List ℕ → List ℚ → ℕ) :
    sampleSequentialBootstrap choice [[1, 1], [0, 0]] none = .error .valueError :=
  C200_bootstrap choice _ none (by decide) (Or.inr ⟨[0, 0], by simp, by simp⟩)

/-- C200, rare labels: without labels and with a negative number of classes to keep, the rarest label is
looked for in an empty table, ValueError; otherwise no labels stay no labels. -/
theorem C200_no_labels {α : Type} [DecidableEq α] (argmin : List α → α) (minPct : K) (minClasses : ℤ) :
    (minClasses < 0 → dropRareLabels argmin ([] : List α) minPct minClasses = .error .valueError) ∧
    (0 ≤ minClasses → dropRareLabels argmin ([] : List α) minPct minClasses = .ok []) := by
  unfold dropRareLabels dropRareLoop
  constructor
  · intro h
    rw [if_neg (by simpa using h), if_pos rfl]
  · intro h
    rw [if_pos (by simpa using h)]

end Weights

end FinML
