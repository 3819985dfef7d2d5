import Verif.Stats.PboMissModel
import Verif.Stats.MissProps
import Verif.Stats.PboFloatProps

/-! # C373: compute_pbo for strategies with missing returns -/

namespace FinML.Stats

open FinML.Metrics FinML.CV

/-- The returns of a strategy on given rows, some of them missing. -/
def returnsOnMiss (M : List (List (Option ℝ))) (idx : List ℕ) (j : ℕ) : List (Option ℝ) :=
  idx.map fun i => (M.getD i []).getD j (some 0)

/-- The full claim: no strategy all of whose returns on the train rows are known and vary does better there than the
selected one. -/
def KnownBestSelected : Prop :=
  ∀ (argsort : List (FinML.Flt ℝ) → List ℕ), IsArgsortF argsort → ∀ (n : ℕ) (M : List (List (Option ℝ))),
    (∀ r ∈ M, r.length = n) → ∀ (size : ℕ) (ps : List ℕ) (row : PboRowF),
    pboOneMiss (evalSharpeMiss n) argsort M size ps = .ok row → ∀ j < n, ∀ l : List ℝ,
    returnsOnMiss M (pboTrain size ps) j = l.map some → npStd l ≠ 0 → leF (.fin (npAvg l / npStd l)) row.trainBest

theorem sharpeMiss_none (l : List (Option ℝ)) (h : none ∈ l) : sharpeMiss l = .nan := by
  have h0 : meanMiss l = none := by
    unfold meanMiss npSum
    rw [(npSum_foldl l _).1 h]
    rfl
  unfold sharpeMiss
  rw [h0]

theorem meanMiss_some (l : List ℝ) : meanMiss (l.map some) = some (npAvg l) := by
  unfold meanMiss npAvg
  rw [npSum_some, List.length_map]
  rfl

theorem sharpeMiss_some (l : List ℝ) : sharpeMiss (l.map some) = sharpeF l := by
  have h1 : stdMiss (l.map some) = some (npStd l) := by
    unfold stdMiss npStd Metrics.moment
    rw [meanMiss_some, Option.bind_some, List.map_map]
    have : (l.map ((fun o : Option ℝ => o.map fun x => (x - npAvg l) ^ 2) ∘ some)) =
        (l.map fun x => (x - npAvg l) ^ 2).map some := by
      rw [List.map_map]
      rfl
    rw [this, meanMiss_some]
    rfl
  unfold sharpeMiss sharpeF
  rw [meanMiss_some, h1]

theorem rows_getMiss (M : List (List (Option ℝ))) (idx : List ℕ) (h : ∀ i ∈ idx, i < M.length) :
    idx.mapM (pyGet M) = .ok (idx.map fun i => M.getD i []) :=
  mapM_ok_of_forall _ _ _ fun i hi => by
    rw [pyGet_eq_ok_iff, List.getD_eq_getElem?_getD, List.getElem?_eq_getElem (h i hi)]
    rfl

theorem perf_eqMiss (n : ℕ) (M : List (List (Option ℝ))) (idx : List ℕ) :
    evalSharpeMiss n (idx.map fun i => M.getD i []) =
      .ok ((List.range n).map fun j : ℕ => sharpeMiss (returnsOnMiss M idx j)) := by
  unfold evalSharpeMiss returnsOnMiss
  simp only [List.map_map]
  rfl

/-- One choice, opened. -/
theorem pboOneMiss_eq (n : ℕ) (argsort : List (FinML.Flt ℝ) → List ℕ) (M : List (List (Option ℝ))) (size : ℕ)
    (ps : List ℕ) (h : ∀ i ∈ pboTrain size ps, i < M.length) (b : ℕ)
    (hb : npArgmaxF ((List.range n).map fun j : ℕ => sharpeMiss (returnsOnMiss M (pboTrain size ps) j)) = .ok b)
    (hbn : b < n) :
    pboOneMiss (evalSharpeMiss n) argsort M size ps =
      .ok ⟨rankLogit ((rankIn (argsort ((List.range n).map fun j : ℕ =>
          sharpeMiss (returnsOnMiss M (pboTest M.length (pboTrain size ps)) j))) b : ℝ) / (n : ℝ)),
        sharpeMiss (returnsOnMiss M (pboTrain size ps) b),
        sharpeMiss (returnsOnMiss M (pboTest M.length (pboTrain size ps)) b)⟩ := by
  have ht : ∀ i ∈ pboTest M.length (pboTrain size ps), i < M.length := fun i hi => by
    unfold pboTest at hi
    exact List.mem_range.1 (List.mem_filter.1 hi).1
  have g : ∀ f : ℕ → FinML.Flt ℝ, pyGet ((List.range n).map f) b = .ok (f b) := fun f => by
    rw [pyGet_eq_ok_iff, List.getElem?_map, List.getElem?_range hbn]
    rfl
  unfold pboOneMiss
  simp only
  rw [rows_getMiss M _ h, py_bind_ok, rows_getMiss M _ ht, py_bind_ok, perf_eqMiss, py_bind_ok, hb, py_bind_ok, g,
    py_bind_ok, perf_eqMiss, py_bind_ok, g, py_bind_ok, List.length_map, List.length_range]
  rfl

/-- C373.  The first strategy with a missing return on the train rows is selected, whatever the others earn, if those before
it have a return other than zero there. -/
theorem C373_selected (argsort : List (FinML.Flt ℝ) → List ℕ) (n : ℕ) (M : List (List (Option ℝ))) (size : ℕ)
    (ps : List ℕ) (h : ∀ i ∈ pboTrain size ps, i < M.length) (j : ℕ) (hj : j < n)
    (hmiss : none ∈ returnsOnMiss M (pboTrain size ps) j)
    (hfirst : ∀ k < j, ∃ l : List ℝ, returnsOnMiss M (pboTrain size ps) k = l.map some ∧ ∃ x ∈ l, x ≠ 0) :
    pboOneMiss (evalSharpeMiss n) argsort M size ps =
      .ok ⟨rankLogit ((rankIn (argsort ((List.range n).map fun k : ℕ =>
          sharpeMiss (returnsOnMiss M (pboTest M.length (pboTrain size ps)) k))) j : ℝ) / (n : ℝ)), .nan,
        sharpeMiss (returnsOnMiss M (pboTest M.length (pboTrain size ps)) j)⟩ := by
  have hz := sharpeMiss_none _ hmiss
  have hb := npArgmaxF_nan
    ((List.range n).map fun j : ℕ => sharpeMiss (returnsOnMiss M (pboTrain size ps) j)) j (by
      rw [List.getElem?_map, List.getElem?_range hj, Option.map_some, hz]) (by
      intro m hm hc
      rw [List.getElem?_map, List.getElem?_range (hm.trans hj), Option.map_some, Option.some.injEq] at hc
      obtain ⟨l, hl, x, hx, hx0⟩ := hfirst m hm
      rw [hl, sharpeMiss_some, sharpeF_nan] at hc
      exact hx0 (hc x hx))
  rw [pboOneMiss_eq n argsort M size ps h j hb hj, hz]

/-- Two strategies: the first lacks the return of one day, the second gains every day. -/
def gapMatrix : List (List (Option ℝ)) :=
  [[none, some 1], [some (-1), some 2], [some (-1), some 1], [some (-2), some 2]]

/-- C373.  A strategy that always loses is selected, since one of its returns is missing. -/
theorem C373_counterexample : ¬ KnownBestSelected := by
  intro hall
  obtain ⟨argsort, hsort⟩ := exists_argsortF
  have htr : pboTrain 2 [0] = [0, 1] := by decide
  have hrow := C373_selected argsort 2 gapMatrix 2 [0] (by rw [htr]; simp [gapMatrix]) 0 (by norm_num)
    (by rw [htr]; simp [returnsOnMiss, gapMatrix]) (by simp)
  have h2 : returnsOnMiss gapMatrix (pboTrain 2 [0]) 1 = ([1, 2] : List ℝ).map some := by
    rw [htr]; simp [returnsOnMiss, gapMatrix]
  have hs : npStd [1, 2] ≠ 0 := by
    unfold npStd Metrics.moment npAvg
    norm_num
  exact hall argsort hsort 2 gapMatrix (by simp [gapMatrix]) 2 [0] _ hrow 1 (by norm_num) _ h2 hs

/-- C373.  Without missing returns a choice is that of C300.  Missing: returns that are missing, C373_counterexample. -/
theorem C373_complete_partial (argsort : List (FinML.Flt ℝ) → List ℕ) (n : ℕ) (M : List (List ℝ)) (size : ℕ)
    (ps : List ℕ) (row : PboRowF) (h : pboOneF (evalSharpeF n) argsort M size ps = .ok row) :
    pboOneMiss (evalSharpeMiss n) argsort (M.map fun r => r.map some) size ps = .ok row := by
  obtain ⟨hlt, b, hbn, hb, h1, h2, h3⟩ := pboOneF_inv n argsort M size ps row h
  have hr : ∀ (idx : List ℕ) (j : ℕ), returnsOnMiss (M.map fun r => r.map some) idx j = (returnsOn M idx j).map some := by
    intro idx j
    unfold returnsOnMiss returnsOn
    rw [List.map_map]
    apply List.map_congr_left
    intro i _
    have e1 : (M.map fun r => r.map some).getD i [] = (M.getD i []).map (some : ℝ → Option ℝ) := by
      simp only [List.getD_eq_getElem?_getD, List.getElem?_map]
      cases M[i]? <;> rfl
    rw [e1, Function.comp_apply]
    simp only [List.getD_eq_getElem?_getD, List.getElem?_map]
    cases ((M[i]?).getD [])[j]? <;> rfl
  rw [pboOneMiss_eq n argsort _ size ps (by rw [List.length_map]; exact hlt) b (by
    simp only [hr, sharpeMiss_some]; exact hb) hbn]
  simp only [hr, sharpeMiss_some, List.length_map]
  rw [← h1, ← h2, ← h3]

/-- C373.  If no return is missing on the train rows and every strategy trades there, no strategy does better there than the
selected one, whatever is missing on the test rows.  Missing: returns missing on the train rows, C373_selected. -/
theorem C373_known_partial (argsort : List (FinML.Flt ℝ) → List ℕ) (n : ℕ) (hn : 0 < n) (M : List (List (Option ℝ)))
    (size : ℕ) (ps : List ℕ) (h : ∀ i ∈ pboTrain size ps, i < M.length)
    (hk : ∀ k < n, ∃ l : List ℝ, returnsOnMiss M (pboTrain size ps) k = l.map some ∧ ∃ x ∈ l, x ≠ 0) :
    ∃ row, pboOneMiss (evalSharpeMiss n) argsort M size ps = .ok row ∧ ∀ j < n, ∀ l : List ℝ,
      returnsOnMiss M (pboTrain size ps) j = l.map some → npStd l ≠ 0 →
      leF (.fin (npAvg l / npStd l)) row.trainBest := by
  obtain ⟨b, hb⟩ : ∃ b, npArgmaxF ((List.range n).map fun j : ℕ =>
      sharpeMiss (returnsOnMiss M (pboTrain size ps) j)) = .ok b := by
    cases n with
    | zero => omega
    | succ n => rw [List.range_succ_eq_map, List.map_cons]; exact ⟨_, rfl⟩
  have hbn : b < n := by simpa using npArgmaxF_lt _ _ hb
  refine ⟨_, pboOneMiss_eq n argsort M size ps h b hb hbn, fun j hj l hl hs => ?_⟩
  have hmax := npArgmaxF_spec _ b (sharpeMiss (returnsOnMiss M (pboTrain size ps) b)) hb (by
    rw [List.getElem?_map, List.getElem?_range hbn]; rfl) (by
    intro x hx
    obtain ⟨i, hi, rfl⟩ := List.mem_map.1 hx
    obtain ⟨l', hl', y, hy, hy0⟩ := hk i (List.mem_range.1 hi)
    rw [hl', sharpeMiss_some]
    exact fun hc => hy0 ((sharpeF_nan _).1 hc y hy)) _ (List.mem_map.2 ⟨j, List.mem_range.2 hj, rfl⟩)
  have e : sharpeF l = .fin (npAvg l / npStd l) := by
    unfold sharpeF
    exact if_neg hs
  rw [hl, sharpeMiss_some, e] at hmax
  exact hmax

/-- The other half of the matrix has no missing return. -/
example (argsort : List (FinML.Flt ℝ) → List ℕ) : ∃ row,
    pboOneMiss (evalSharpeMiss 2) argsort gapMatrix 2 [1] = .ok row := by
  have htr : pboTrain 2 [1] = [2, 3] := by decide
  obtain ⟨row, hrow, -⟩ := C373_known_partial argsort 2 (by norm_num) gapMatrix 2 [1] (by rw [htr]; simp [gapMatrix]) (by
    intro k hk
    rw [htr]
    have : k = 0 ∨ k = 1 := by omega
    rcases this with rfl | rfl
    · exact ⟨[-1, -2], by simp [returnsOnMiss, gapMatrix], -1, by simp, by norm_num⟩
    · exact ⟨[1, 2], by simp [returnsOnMiss, gapMatrix], 1, by simp, by norm_num⟩)
  exact ⟨row, hrow⟩

end FinML.Stats
