import Verif.Breaks.LevelMissModel
import Verif.Breaks.CusumProps

/-! # The CUSUM test on levels for values with gaps (C368) -/

namespace FinML.Breaks

open FinML.Options

/-- The same values with numbers in the gaps. -/
def FillsSeries (f : List ℝ) (y : List (Option ℝ)) : Prop :=
  f.length = y.length ∧ ∀ (i : ℕ) (x : ℝ), y[i]? = some (some x) → f[i]? = some x

theorem sumM_map (l : List ℝ) : sumM (l.map some) = some l.sum := by
  unfold sumM
  induction l with
  | nil => rfl
  | cons a l ih => rw [List.map_cons, List.foldr_cons, ih, List.sum_cons]; rfl

theorem sumM_none (l : List (Option ℝ)) (h : none ∈ l) : sumM l = none := by
  unfold sumM
  induction l with
  | nil => cases h
  | cons a l ih =>
    rw [List.foldr_cons]
    rcases List.mem_cons.1 h with rfl | h
    · rfl
    · rw [ih h]; cases a <;> rfl

theorem diffM_length (y : List (Option ℝ)) : (diffM y).length = y.length - 1 := by simp [diffM]

theorem diffM_getElem? (y : List (Option ℝ)) (k : ℕ) (a b : Option ℝ) (h1 : y[k]? = some a) (h2 : y[k + 1]? = some b) :
    (diffM y)[k]? = some (subM b a) := by
  unfold diffM
  rw [List.getElem?_zipWith, List.getElem?_tail, h1, h2]

theorem known_of_notMem (y : List (Option ℝ)) (m : ℕ) (h : none ∉ y.take m) (k : ℕ) (hk : k < m) (hkl : k < y.length) :
    ∃ x, y[k]? = some (some x) := by
  cases hx : y[k] with
  | some x => exact ⟨x, by rw [List.getElem?_eq_getElem hkl, hx]⟩
  | none =>
    exfalso
    apply h
    rw [List.mem_iff_getElem?]
    exact ⟨k, by rw [List.getElem?_take, if_pos hk, List.getElem?_eq_getElem hkl, hx]⟩

theorem levelSigmaM_gap (y : List (Option ℝ)) (i : ℕ) (hi : i + 1 < y.length) (h : none ∈ y.take (i + 2)) :
    (levelSigmaM y)[i]? = some none := by
  obtain ⟨k, hk⟩ := List.mem_iff_getElem?.mp h
  rw [List.getElem?_take] at hk
  by_cases hki : k < i + 2
  · rw [if_pos hki] at hk
    have hd : ∃ m, m < i + 1 ∧ (diffM y)[m]? = some none := by
      by_cases hk2 : k < i + 1
      · refine ⟨k, hk2, ?_⟩
        rw [diffM_getElem? y k none y[k + 1] hk (List.getElem?_eq_getElem (by omega))]
        cases y[k + 1] <;> rfl
      · have : k = i + 1 := by omega
        subst this
        refine ⟨i, by omega, ?_⟩
        rw [diffM_getElem? y i y[i] none (List.getElem?_eq_getElem (by omega)) hk]
        rfl
    obtain ⟨m, hm, hd⟩ := hd
    unfold levelSigmaM
    simp only []
    rw [List.getElem?_map, List.getElem?_range (by rw [List.length_map, diffM_length]; omega), Option.map_some, sumM_none]
    · rfl
    · rw [List.mem_iff_getElem?]
      exact ⟨m, by rw [List.getElem?_take, if_pos hm, List.getElem?_map, hd]; rfl⟩
  · rw [if_neg hki] at hk
    cases hk

theorem levelSigmaM_known (y : List (Option ℝ)) (f : List ℝ) (hf : FillsSeries f y) (i : ℕ) (hi : i + 1 < y.length)
    (h : none ∉ y.take (i + 2)) : (levelSigmaM y)[i]? = ((levelSigma f)[i]?).map some := by
  have hl := hf.1
  have hsq : ((diffM y).map fun d => d.map fun x => x ^ 2).take (i + 1) =
      (((npDiff f).map fun d => d ^ 2).take (i + 1)).map some := by
    apply List.ext_getElem?
    intro k
    rw [List.getElem?_take, List.getElem?_map (l := List.take _ _), List.getElem?_take]
    by_cases hk : k < i + 1
    · rw [if_pos hk, if_pos hk, List.getElem?_map, List.getElem?_map]
      obtain ⟨a, ha⟩ := known_of_notMem y _ h k (by omega) (by omega)
      obtain ⟨b, hb⟩ := known_of_notMem y _ h (k + 1) (by omega) (by omega)
      rw [diffM_getElem? y k _ _ ha hb, npDiff_getElem? f k (by omega)]
      simp [subM, List.getD_eq_getElem?_getD, hf.2 _ _ ha, hf.2 _ _ hb]
    · rw [if_neg hk, if_neg hk]; rfl
  unfold levelSigmaM levelSigma npCumsum
  simp only []
  rw [List.getElem?_map, List.getElem?_range (by rw [List.length_map, diffM_length]; omega), Option.map_some, hsq, sumM_map,
    List.getElem?_mapIdx, List.getElem?_map, List.getElem?_range (by rw [List.length_map, npDiff_length]; omega)]
  rfl

/-- C368.  The statistic at a time is NaN if a value until then is missing, also one before the reference; otherwise it is that
for any numbers in the gaps. -/
theorem C368_stats (y : List (Option ℝ)) (f : List ℝ) (hf : FillsSeries f y) (n : ℕ) (h2 : 2 ≤ y.length) (hn : n < y.length) :
    ∃ res res', levelsCusumStatsM y n = .ok (some (res, res.map pvalue)) ∧
      levelsCusumStats f n = .ok (some (res', res'.map pvalue)) ∧ res.length = y.length - n - 1 ∧
      ∀ j, j < y.length - n - 1 → (none ∈ y.take (n + 2 + j) → res[j]? = some .nan) ∧
        (none ∉ y.take (n + 2 + j) → res[j]? = res'[j]?) := by
  have hl := hf.1
  have hsl : (levelSigmaM y).length = y.length - 1 := by simp [levelSigmaM, diffM_length]
  refine ⟨((y.drop (n + 1)).zip ((levelSigmaM y).drop n)).mapIdx fun j x =>
      levelStatM x.1 y[n] x.2 (√((n : ℝ) + j + 2 - (n + 1))), levelStats f n (f.getD n 0), ?_,
    levels_ok f n (by omega) (by omega), ?_, ?_⟩
  · unfold levelsCusumStatsM
    rw [if_neg (by omega), pyGet, List.getElem?_eq_getElem hn]
    rfl
  · simp [hsl]; omega
  · intro j hj
    have h1 : (y.drop (n + 1))[j]? = some y[n + 1 + j] := by
      rw [List.getElem?_drop, List.getElem?_eq_getElem (by omega)]
    constructor
    · intro hm
      have hs : ((levelSigmaM y).drop n)[j]? = some none := by
        rw [List.getElem?_drop]
        exact levelSigmaM_gap y (n + j) (by omega) (by rw [show n + j + 2 = n + 2 + j by omega]; exact hm)
      rw [List.getElem?_mapIdx, List.zip, List.getElem?_zipWith, h1, hs]
      simp only [Option.map_some, Option.some.injEq]
      cases y[n + 1 + j] <;> cases y[n] <;> rfl
    · intro hm
      obtain ⟨a, ha⟩ := known_of_notMem y _ hm (n + 1 + j) (by omega) (by omega)
      obtain ⟨b, hb⟩ := known_of_notMem y _ hm n (by omega) (by omega)
      have hb' : y[n] = some b := by rw [List.getElem?_eq_getElem hn] at hb; exact Option.some_inj.1 hb
      have ha' : y[n + 1 + j] = some a := by
        rw [List.getElem?_eq_getElem (by omega)] at ha; exact Option.some_inj.1 ha
      have hs := levelSigmaM_known y f hf (n + j) (by omega) (by rw [show n + j + 2 = n + 2 + j by omega]; exact hm)
      have hfs : ∃ s, (levelSigma f)[n + j]? = some s :=
        ⟨_, List.getElem?_eq_getElem (by rw [levelSigma_length]; omega)⟩
      obtain ⟨s, hfs⟩ := hfs
      rw [hfs, Option.map_some] at hs
      unfold levelStats
      rw [List.getElem?_mapIdx, List.getElem?_mapIdx, List.zip, List.getElem?_zipWith, List.zip, List.getElem?_zipWith, h1,
        List.getElem?_drop, hs, List.getElem?_drop, hf.2 _ _ ha, List.getElem?_drop, hfs]
      simp only [Option.map_some, Option.some.injEq, ha', hb']
      rw [List.getD_eq_getElem?_getD, hf.2 _ _ hb]
      rfl

/-- A gap at the third of four values, the first as reference: one time before the gap, two from it on. -/
example : ∃ res, levelsCusumStatsM [some 1, some 2, none, some 3] 0 = .ok (some (res, res.map pvalue)) ∧
    res[0]? = some (.fin 1) ∧ res[1]? = some .nan ∧ res[2]? = some .nan := by
  obtain ⟨res, res', h1, _, _, h4⟩ := C368_stats [some 1, some 2, none, some 3] [1, 2, 7, 3]
    ⟨rfl, by
      intro i x h
      match i, h with
      | 0, h => simpa using h
      | 1, h => simpa using h
      | 2, h => simp at h
      | 3, h => simpa using h
      | n + 4, h => simp at h⟩ 0 (by simp) (by simp)
  have h5 : res'[0]? = some (.fin 1) := by
    rename_i h2 _
    rw [levels_ok _ _ (by simp) (by simp)] at h2
    simp only [Except.ok.injEq, Option.some.injEq, Prod.mk.injEq] at h2
    rw [← h2.1, levelStats_eq]
    simp [meanSqChange, FExt.div]
    norm_num
  refine ⟨res, h1, ?_, (h4 1 (by simp)).1 (by simp), (h4 2 (by simp)).1 (by simp)⟩
  rw [(h4 0 (by simp)).2 (by simp), h5]

end FinML.Breaks
