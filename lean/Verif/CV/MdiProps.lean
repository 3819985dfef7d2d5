import Verif.CV.ScoreProps

/-! # What the mean decrease of impurity measures (C265-C267) -/

namespace FinML.CV

open Classical

/-- The importances of feature `j` in the trees that use it. -/
noncomputable def used (trees : List (List ℝ)) (j : ℕ) : List ℝ :=
  (trees.map fun t => t.getD j 0).filter fun v => v ≠ 0

/-- The sum of the average importances of all features that are used. -/
noncomputable def totalMean (trees : List (List ℝ)) (n : ℕ) : ℝ :=
  (((List.range n).map fun j : ℕ => npMean (used trees j)).filterMap id).sum

/-- A row of the result. -/
theorem mdi_row {trees : List (List ℝ)} {n : ℕ} {rows : List (Option ℝ × Option ℝ)} (h : mdi trees n = .ok rows)
    {j : ℕ} {row : Option ℝ × Option ℝ} (hj : rows[j]? = some row) :
    j < n ∧ row = (scaled (totalMean trees n) (npMean (used trees j)),
      scaled (totalMean trees n) ((stdSample (used trees j)).map (· * (trees.length : ℝ) ^ (-(1 / 2 : ℝ))))) := by
  unfold mdi at h
  split_ifs at h
  simp only [Except.ok.injEq] at h
  subst h
  rw [List.getElem?_zip_eq_some, List.map_map, List.map_map, List.getElem?_map, List.getElem?_map] at hj
  obtain ⟨h1, h2⟩ := hj
  by_cases hn : j < n
  · rw [List.getElem?_range hn] at h1 h2
    refine ⟨hn, Prod.ext ?_ ?_⟩
    · exact (Option.some.inj h1).symm
    · exact (Option.some.inj h2).symm
  · rw [List.getElem?_eq_none (by simp; omega)] at h1
    cases h1

theorem mdi_ok {trees : List (List ℝ)} {n : ℕ} (ht : trees ≠ []) (hl : ∀ t ∈ trees, t.length = n) :
    ∃ rows, mdi trees n = .ok rows ∧ rows.length = n := by
  unfold mdi
  rw [if_neg (by
    rintro (⟨h, -⟩ | ⟨t, h1, h2⟩)
    · exact ht h
    · exact h2 (hl t h1))]
  exact ⟨_, rfl, by simp⟩

theorem npMean_ne {l : List ℝ} (h : l ≠ []) : npMean l = some (l.sum / (l.length : ℝ)) := by
  unfold npMean; rw [if_neg h]

theorem scaled_some {a x : ℝ} (ha : a ≠ 0) : scaled a (some x) = some (x / a) := by
  simp [scaled, fdiv, ha]

/-! ## C265: better in every tree -/

/-- C265, full claim: a feature at least as important as another one in every tree is ranked at least as high. -/
def BetterInEveryTree : Prop := ∀ (trees : List (List ℝ)) (n j k : ℕ) (rows : List (Option ℝ × Option ℝ)) (x y : ℝ) (e e' : Option ℝ),
  (∀ t ∈ trees, ∀ v ∈ t, 0 ≤ v) → (∀ t ∈ trees, t.getD k 0 ≤ t.getD j 0) → mdi trees n = .ok rows →
  rows[j]? = some (some x, e) → rows[k]? = some (some y, e') → y ≤ x

/-- C265, counterexample: the second feature is used in the first tree only, which is then the only one that
counts for it; the first feature is as important there and is used in the second tree as well. -/
theorem C265_better_counterexample : ¬ BetterInEveryTree := by
  intro h
  obtain ⟨rows, hr, hlen⟩ := mdi_ok (trees := [[1 / 2, 1 / 2], [1 / 4, 0]]) (n := 2) (by simp) (by simp)
  have u0 : used [[1 / 2, 1 / 2], [1 / 4, 0]] 0 = [1 / 2, 1 / 4] := by norm_num [used]
  have u1 : used [[1 / 2, 1 / 2], [1 / 4, 0]] 1 = [1 / 2] := by norm_num [used]
  have ht : totalMean [[1 / 2, 1 / 2], [1 / 4, 0]] 2 = 7 / 8 := by
    rw [totalMean, show List.range 2 = [0, 1] from rfl]
    simp only [List.map_cons, List.map_nil, u0, u1, npMean_ne (List.cons_ne_nil _ _)]
    simp only [List.filterMap_cons, List.filterMap_nil, id]
    norm_num
  obtain ⟨r0, h0⟩ : ∃ r, rows[0]? = some r := ⟨_, List.getElem?_eq_getElem (by omega)⟩
  obtain ⟨r1, h1⟩ : ∃ r, rows[1]? = some r := ⟨_, List.getElem?_eq_getElem (by omega)⟩
  obtain ⟨-, e0⟩ := mdi_row hr h0
  obtain ⟨-, e1⟩ := mdi_row hr h1
  rw [ht, u0, npMean_ne (by simp), scaled_some (by norm_num)] at e0
  rw [ht, u1, npMean_ne (by simp), scaled_some (by norm_num)] at e1
  have := h [[1 / 2, 1 / 2], [1 / 4, 0]] 2 0 1 rows _ _ _ _ (by
    intro t ht v hv
    simp only [List.mem_cons, List.not_mem_nil, or_false] at ht
    rcases ht with rfl | rfl <;> simp only [List.mem_cons, List.not_mem_nil, or_false] at hv <;>
      rcases hv with rfl | rfl <;> norm_num) (by
    intro t ht
    simp only [List.mem_cons, List.not_mem_nil, or_false] at ht
    rcases ht with rfl | rfl <;> norm_num) hr (h0.trans (by rw [e0])) (h1.trans (by rw [e1]))
  norm_num at this

theorem used_len_sum (trees : List (List ℝ)) (j k : ℕ) (hle : ∀ t ∈ trees, t.getD k 0 ≤ t.getD j 0)
    (hu : ∀ t ∈ trees, t.getD j 0 = 0 ↔ t.getD k 0 = 0) :
    (used trees j).length = (used trees k).length ∧ (used trees k).sum ≤ (used trees j).sum := by
  induction trees with
  | nil => simp [used]
  | cons t ts ih =>
    obtain ⟨i1, i2⟩ := ih (fun t ht => hle t (by simp [ht])) fun t ht => hu t (by simp [ht])
    have hu0 := hu t (by simp)
    have hl0 := hle t (by simp)
    unfold used at i1 i2 ⊢
    simp only [List.map_cons, List.filter_cons, decide_eq_true_eq]
    by_cases hz : t.getD j 0 = 0
    · rw [if_neg (not_not.2 hz), if_neg (not_not.2 (hu0.1 hz))]
      exact ⟨i1, i2⟩
    · rw [if_pos hz, if_pos (fun h => hz (hu0.2 h))]
      simp only [List.length_cons, List.sum_cons]
      exact ⟨by omega, by linarith⟩

/-- The sum of the averages is positive as soon as one of them is a number. -/
theorem total_pos {trees : List (List ℝ)} {n : ℕ} (hnn : ∀ t ∈ trees, ∀ v ∈ t, 0 ≤ v) {j : ℕ} (hj : j < n)
    (hne : used trees j ≠ []) : 0 < totalMean trees n := by
  have hpos : ∀ i v, v ∈ used trees i → 0 < v := by
    intro i v hv
    obtain ⟨h1, h2⟩ := List.mem_filter.1 hv
    obtain ⟨t, ht, rfl⟩ := List.mem_map.1 h1
    refine lt_of_le_of_ne ?_ (Ne.symm (by simpa using h2))
    rw [List.getD_eq_getElem?_getD]
    cases hx : t[i]? with
    | none => simp
    | some x => simpa using hnn t ht x (List.mem_of_getElem? hx)
  have hm : ∀ i v, npMean (used trees i) = some v → 0 < v := by
    intro i v hv
    by_cases h : used trees i = []
    · rw [h] at hv; simp [npMean] at hv
    · rw [npMean_ne h] at hv
      cases hv
      refine div_pos ?_ (by exact_mod_cast List.length_pos_iff.2 h)
      obtain ⟨a, l, hal⟩ := List.exists_cons_of_ne_nil h
      have ha := hpos i a (by rw [hal]; simp)
      have hl : 0 ≤ l.sum := List.sum_nonneg fun x hx => (hpos i x (by rw [hal]; simp [hx])).le
      rw [hal, List.sum_cons]
      linarith
  have hmem : ∃ m, m ∈ ((List.range n).map fun j : ℕ => npMean (used trees j)).filterMap id ∧ 0 < m := by
    refine ⟨_, List.mem_filterMap.2 ⟨_, List.mem_map.2 ⟨j, List.mem_range.2 hj, npMean_ne hne⟩, rfl⟩, hm j _ (npMean_ne hne)⟩
  obtain ⟨m, hm1, hm2⟩ := hmem
  refine lt_of_lt_of_le hm2 (List.single_le_sum ?_ _ hm1)
  intro x hx
  obtain ⟨o, ho, hox⟩ := List.mem_filterMap.1 hx
  obtain ⟨i, -, hi⟩ := List.mem_map.1 ho
  subst hi
  exact (hm i x hox).le

/-- C265 (partial).  What holds instead: the claim is true for two features used in the same trees.  Missing:
features that are used in different trees. -/
theorem C265_better_partial (trees : List (List ℝ)) (n j k : ℕ) (rows : List (Option ℝ × Option ℝ)) (x y : ℝ)
    (e e' : Option ℝ) (hnn : ∀ t ∈ trees, ∀ v ∈ t, 0 ≤ v) (hle : ∀ t ∈ trees, t.getD k 0 ≤ t.getD j 0)
    (hu : ∀ t ∈ trees, t.getD j 0 = 0 ↔ t.getD k 0 = 0) (h : mdi trees n = .ok rows)
    (hx : rows[j]? = some (some x, e)) (hy : rows[k]? = some (some y, e')) : y ≤ x := by
  obtain ⟨hj, ex⟩ := mdi_row h hx
  obtain ⟨hk, ey⟩ := mdi_row h hy
  have ex := congrArg Prod.fst ex
  have ey := congrArg Prod.fst ey
  simp only at ex ey
  have hne : used trees j ≠ [] := by
    intro h0; rw [h0] at ex; simp [npMean, scaled] at ex
  have hne' : used trees k ≠ [] := by
    intro h0; rw [h0] at ey; simp [npMean, scaled] at ey
  have htp := total_pos hnn hj hne
  rw [npMean_ne hne, scaled_some htp.ne'] at ex
  rw [npMean_ne hne', scaled_some htp.ne'] at ey
  cases ex
  cases ey
  obtain ⟨h1, h2⟩ := used_len_sum trees j k hle hu
  rw [h1]
  exact div_le_div_of_nonneg_right (div_le_div_of_nonneg_right h2 (by positivity)) htp.le

/-- A forest of two trees that both use both features. -/
example : (∀ t ∈ [[3 / 4, 1 / 4], [2 / 3, 1 / 3]], t.getD 1 0 ≤ t.getD 0 (0 : ℝ)) ∧
    ∀ t ∈ [[3 / 4, 1 / 4], [2 / 3, 1 / 3]], t.getD 0 (0 : ℝ) = 0 ↔ t.getD 1 0 = 0 := by
  constructor <;> · intro t ht; simp only [List.mem_cons, List.not_mem_nil, or_false] at ht; rcases ht with rfl | rfl <;> norm_num

/-! ## C266: the error of the importance -/

/-- C266, full claim: relative to the mean, the reported error is the standard error of the average over the
trees that use the feature, their standard deviation divided by the root of their number. -/
def ErrorOfMean : Prop := ∀ (trees : List (List ℝ)) (n j : ℕ) (rows : List (Option ℝ × Option ℝ)) (m e s : ℝ),
  (∀ t ∈ trees, ∀ v ∈ t, 0 ≤ v) → mdi trees n = .ok rows → rows[j]? = some (some m, some e) →
  stdSample (used trees j) = some s →
  e / m = (s / √((used trees j).length)) / ((used trees j).sum / (used trees j).length)

theorem rpow_neg_half (n : ℕ) : (n : ℝ) ^ (-(1 / 2 : ℝ)) = 1 / √n := by
  rw [Real.rpow_neg (by positivity), ← Real.sqrt_eq_rpow, one_div]

/-- C266, counterexample: a feature used in two of eight trees, with importances 1 and 3.  The deviation of the two
is divided by the root of 8 instead of 2. -/
theorem C266_error_counterexample : ¬ ErrorOfMean := by
  intro h
  set trees : List (List ℝ) := [[1], [3], [0], [0], [0], [0], [0], [0]] with htrees
  obtain ⟨rows, hr, hlen⟩ := mdi_ok (trees := trees) (n := 1) (by simp [htrees]) (by simp [htrees])
  have u0 : used trees 0 = [1, 3] := by norm_num [used, htrees]
  have ht : totalMean trees 1 = 2 := by
    rw [totalMean, show List.range 1 = [0] from rfl]
    simp only [List.map_cons, List.map_nil, u0, npMean_ne (List.cons_ne_nil _ _)]
    simp only [List.filterMap_cons, List.filterMap_nil, id]
    norm_num
  have hs : stdSample (used trees 0) = some √2 := by
    rw [u0, stdSample, if_neg (by simp)]
    norm_num
  obtain ⟨r0, h0⟩ : ∃ r, rows[0]? = some r := ⟨_, List.getElem?_eq_getElem (by omega)⟩
  obtain ⟨-, e0⟩ := mdi_row hr h0
  rw [ht, hs, u0, npMean_ne (by simp), Option.map_some, scaled_some (by norm_num), scaled_some (by norm_num),
    show trees.length = 8 from rfl, rpow_neg_half] at e0
  have := h trees 1 0 rows _ _ √2 (by
    intro t ht v hv
    simp only [htrees, List.mem_cons, List.not_mem_nil, or_false] at ht
    rcases ht with rfl | rfl | rfl | rfl | rfl | rfl | rfl | rfl <;> simp at hv <;> rw [hv] <;> norm_num) hr
    (h0.trans (by rw [e0])) hs
  rw [u0] at this
  have h2 : √(2 : ℝ) ≠ 0 := by positivity
  have h8 : √((8 : ℕ) : ℝ) = 2 * √2 := by
    rw [show ((8 : ℕ) : ℝ) = 2 ^ 2 * 2 by norm_num, Real.sqrt_mul (by norm_num), Real.sqrt_sq (by norm_num)]
  rw [h8] at this
  norm_num at this

/-- C266 (partial).  What holds instead: the claim is true for a feature used in every tree.  Missing: features
that some tree does not use, whose error is too small by the root of the fraction of the trees that use them. -/
theorem C266_error_partial (trees : List (List ℝ)) (n j : ℕ) (rows : List (Option ℝ × Option ℝ)) (m e s : ℝ)
    (hnn : ∀ t ∈ trees, ∀ v ∈ t, 0 ≤ v) (h : mdi trees n = .ok rows) (hj : rows[j]? = some (some m, some e))
    (hs : stdSample (used trees j) = some s) :
    e / m = √((used trees j).length / trees.length) *
      ((s / √((used trees j).length)) / ((used trees j).sum / (used trees j).length)) ∧
    ((∀ t ∈ trees, t.getD j 0 ≠ 0) →
      e / m = (s / √((used trees j).length)) / ((used trees j).sum / (used trees j).length)) := by
  obtain ⟨hjn, e0⟩ := mdi_row h hj
  have hne : used trees j ≠ [] := by
    intro h0; rw [h0] at hs; simp [stdSample] at hs
  have htp := total_pos hnn hjn hne
  rw [hs, npMean_ne hne, Option.map_some, scaled_some htp.ne', scaled_some htp.ne', rpow_neg_half] at e0
  simp only [Prod.mk.injEq, Option.some.injEq] at e0
  obtain ⟨rfl, rfl⟩ := e0
  have hu : 0 < ((used trees j).length : ℝ) := by exact_mod_cast List.length_pos_iff.2 hne
  have hut : (used trees j).length ≤ trees.length := by
    unfold used
    exact (List.length_filter_le _ _).trans (by simp)
  have hT : 0 < (trees.length : ℝ) := by
    have : ((used trees j).length : ℝ) ≤ trees.length := by exact_mod_cast hut
    linarith
  have key : s * (1 / √(trees.length : ℝ)) / totalMean trees n /
      ((used trees j).sum / ((used trees j).length : ℝ) / totalMean trees n) =
      √((used trees j).length / trees.length) *
      ((s / √((used trees j).length)) / ((used trees j).sum / (used trees j).length)) := by
    rw [Real.sqrt_div hu.le]
    have h1 : √((used trees j).length : ℝ) ≠ 0 := (Real.sqrt_pos.2 hu).ne'
    have h2 : √(trees.length : ℝ) ≠ 0 := (Real.sqrt_pos.2 hT).ne'
    have h3 := htp.ne'
    have h4 := hu.ne'
    field_simp
  refine ⟨key, fun hall => ?_⟩
  rw [key]
  have hlen : (used trees j).length = trees.length := by
    unfold used
    rw [List.filter_eq_self.2 (by
      intro v hv
      obtain ⟨t, ht, rfl⟩ := List.mem_map.1 hv
      simpa using hall t ht), List.length_map]
  rw [hlen, div_self hT.ne', Real.sqrt_one, one_mul]

/-! ## C267: what has no influence -/

theorem used_perm {trees trees' : List (List ℝ)} (h : trees.Perm trees') (j : ℕ) :
    (used trees j).Perm (used trees' j) := (h.map _).filter _

theorem npMean_perm {l l' : List ℝ} (h : l.Perm l') : npMean l = npMean l' := by
  unfold npMean
  rw [h.sum_eq, h.length_eq]
  by_cases hl : l = []
  · rw [if_pos hl, if_pos (by rw [hl] at h; exact List.nil_perm.1 h)]
  · rw [if_neg hl, if_neg (fun h' => hl (by rw [h'] at h; exact List.perm_nil.1 h))]

theorem stdSample_perm {l l' : List ℝ} (h : l.Perm l') : stdSample l = stdSample l' := by
  unfold stdSample
  rw [h.sum_eq, h.length_eq, (h.map _).sum_eq]

/-- C267.  The order of the trees has no influence. -/
theorem C267_trees (trees trees' : List (List ℝ)) (h : trees.Perm trees') (n : ℕ) : mdi trees n = mdi trees' n := by
  unfold mdi
  have h1 : (trees = [] ∧ n ≠ 0) ∨ (∃ t ∈ trees, t.length ≠ n) ↔ (trees' = [] ∧ n ≠ 0) ∨ ∃ t ∈ trees', t.length ≠ n := by
    have he : trees = [] ↔ trees' = [] := by
      constructor
      · rintro rfl; exact List.nil_perm.1 h
      · rintro rfl; exact List.perm_nil.1 h
    simp only [he, h.mem_iff]
  have hm : ∀ j, npMean (present (treeColumn trees j)) = npMean (present (treeColumn trees' j)) :=
    fun j => npMean_perm (used_perm h j)
  have hs : ∀ j, stdSample (present (treeColumn trees j)) = stdSample (present (treeColumn trees' j)) :=
    fun j => stdSample_perm (used_perm h j)
  simp only [hm, hs, h.length_eq]
  by_cases hc : (trees = [] ∧ n ≠ 0) ∨ ∃ t ∈ trees, t.length ≠ n
  · rw [if_pos hc, if_pos (h1.1 hc)]
  · rw [if_neg hc, if_neg (fun h' => hc (h1.2 h'))]

/-- C267.  The features may come in any order: each keeps its row.  `sigma j` is the new position of feature `j`. -/
theorem C267_features (trees trees' : List (List ℝ)) (n : ℕ) (sigma : ℕ → ℕ) (hn : trees ≠ [])
    (hl : ∀ t ∈ trees, t.length = n) (hl' : ∀ t ∈ trees', t.length = n)
    (hs : (List.range n).Perm ((List.range n).map sigma))
    (hcol : ∀ j < n, (trees.map fun t => t.getD j 0) = trees'.map fun t => t.getD (sigma j) 0) (h0 : 0 < n) :
    ∃ rows rows', mdi trees n = .ok rows ∧ mdi trees' n = .ok rows' ∧ ∀ j < n, rows[j]? = rows'[sigma j]? := by
  have hlen : trees.length = trees'.length := by
    have := congrArg List.length (hcol 0 h0)
    simpa using this
  have hn' : trees' ≠ [] := by
    rintro rfl
    exact hn (List.length_eq_zero_iff.1 (by simpa using hlen))
  obtain ⟨rows, hr, hrl⟩ := mdi_ok hn hl
  obtain ⟨rows', hr', hrl'⟩ := mdi_ok hn' hl'
  refine ⟨rows, rows', hr, hr', fun j hj => ?_⟩
  have hu : ∀ i < n, used trees i = used trees' (sigma i) := fun i hi => by unfold used; rw [hcol i hi]
  have ht : totalMean trees n = totalMean trees' n := by
    unfold totalMean
    have e : ((List.range n).map fun j : ℕ => npMean (used trees j)) =
        ((List.range n).map sigma).map fun j : ℕ => npMean (used trees' j) := by
      rw [List.map_map]
      exact List.map_congr_left fun i hi => by rw [Function.comp, hu i (List.mem_range.1 hi)]
    rw [e]
    exact (((hs.symm.map _).filterMap _)).sum_eq
  have hsj : sigma j < n := List.mem_range.1 (hs.symm.subset (List.mem_map.2 ⟨j, List.mem_range.2 hj, rfl⟩))
  obtain ⟨r, h1⟩ : ∃ r, rows[j]? = some r := ⟨_, List.getElem?_eq_getElem (by omega)⟩
  obtain ⟨r', h1'⟩ : ∃ r, rows'[sigma j]? = some r := ⟨_, List.getElem?_eq_getElem (by omega)⟩
  rw [h1, h1', (mdi_row hr h1).2, (mdi_row hr' h1').2, ht, hu j hj, hlen]

theorem used_scale (trees : List (List ℝ)) (c : ℝ) (hc : c ≠ 0) (j : ℕ) :
    used (trees.map fun t => t.map (c * ·)) j = (used trees j).map (c * ·) := by
  unfold used
  rw [List.map_map]
  have e : ((fun t : List ℝ => t.getD j 0) ∘ fun t : List ℝ => t.map (c * ·)) = fun t : List ℝ => c * t.getD j 0 := by
    funext t
    simp only [Function.comp, List.getD_eq_getElem?_getD, List.getElem?_map]
    cases t[j]? <;> simp
  rw [e]
  induction trees with
  | nil => rfl
  | cons t ts ih =>
    simp only [List.map_cons, List.filter_cons, decide_eq_true_eq]
    by_cases hz : t.getD j 0 = 0
    · rw [if_neg (by simp only [hz, mul_zero, not_true_eq_false, ne_eq, not_false_eq_true]), if_neg (not_not.2 hz), ih]
    · rw [if_pos (mul_ne_zero hc hz), if_pos hz, ih, List.map_cons]

/-- C267.  The unit in which the trees measure impurity has no influence. -/
theorem C267_unit (trees : List (List ℝ)) (n : ℕ) (c : ℝ) (hc : 0 < c) :
    mdi (trees.map fun t => t.map (c * ·)) n = mdi trees n := by
  have hm : ∀ j, npMean (used (trees.map fun t => t.map (c * ·)) j) = (npMean (used trees j)).map (c * ·) := by
    intro j
    rw [used_scale trees c hc.ne']
    unfold npMean
    by_cases h : used trees j = []
    · simp [h]
    · rw [if_neg h, if_neg (by simpa using h), List.length_map, List.sum_map_mul_left, List.map_id', mul_div_assoc]
      rfl
  have hsd : ∀ j, stdSample (used (trees.map fun t => t.map (c * ·)) j) = (stdSample (used trees j)).map (c * ·) := by
    intro j
    rw [used_scale trees c hc.ne']
    generalize used trees j = l
    unfold stdSample
    rw [List.length_map]
    by_cases h : l.length < 2
    · rw [if_pos h, if_pos h]; rfl
    · rw [if_neg h, if_neg h, List.sum_map_mul_left, List.map_id', List.map_map]
      have e : ((fun x => (x - c * l.sum / (l.length : ℝ)) ^ 2) ∘ (c * ·)) =
          fun x => c ^ 2 * (x - l.sum / (l.length : ℝ)) ^ 2 := by
        funext x; simp only [Function.comp]; ring
      rw [e, List.sum_map_mul_left, mul_div_assoc, Real.sqrt_mul (by positivity), Real.sqrt_sq hc.le]
      rfl
  have ht : totalMean (trees.map fun t => t.map (c * ·)) n = c * totalMean trees n := by
    unfold totalMean
    simp only [hm]
    induction List.range n with
    | nil => simp
    | cons i l ih =>
      simp only [List.map_cons, List.filterMap_cons]
      cases npMean (used trees i) with
      | none => exact ih
      | some v =>
        simp only [Option.map_some, id, List.sum_cons]
        refine (congrArg (c * v + ·) ih).trans ?_
        exact (mul_add c v _).symm
  have hsc : ∀ (a : ℝ) (v : Option ℝ), scaled (c * a) (v.map (c * ·)) = scaled a v := by
    intro a v
    cases v with
    | none => rfl
    | some v =>
      unfold scaled fdiv
      simp only [Option.map_some, Option.bind_some]
      by_cases ha : a = 0
      · simp [ha]
      · rw [if_neg ha, if_neg (mul_ne_zero hc.ne' ha), mul_div_mul_left _ _ hc.ne']
  unfold mdi
  have h1 : ((trees.map fun t => t.map (c * ·)) = [] ∧ n ≠ 0) ∨ (∃ t ∈ trees.map fun t => t.map (c * ·), t.length ≠ n) ↔
      (trees = [] ∧ n ≠ 0) ∨ ∃ t ∈ trees, t.length ≠ n := by
    simp
  by_cases hcnd : (trees = [] ∧ n ≠ 0) ∨ ∃ t ∈ trees, t.length ≠ n
  · rw [if_pos hcnd, if_pos (h1.2 hcnd)]
  · rw [if_neg hcnd, if_neg (fun h' => hcnd (h1.1 h'))]
    have e1 : ((List.range n).map fun j : ℕ => npMean (present (treeColumn (trees.map fun t => t.map (c * ·)) j))) =
        ((List.range n).map fun j : ℕ => npMean (present (treeColumn trees j))).map (Option.map (c * ·)) := by
      rw [List.map_map]; exact List.map_congr_left fun j _ => hm j
    have e2 : (((List.range n).map fun j : ℕ => npMean (present (treeColumn (trees.map fun t => t.map (c * ·)) j))).filterMap id).sum =
        c * (((List.range n).map fun j : ℕ => npMean (present (treeColumn trees j))).filterMap id).sum := ht
    have e3 : ((List.range n).map fun j : ℕ => (stdSample (present (treeColumn (trees.map fun t => t.map (c * ·)) j))).map
          (· * ((trees.map fun t => t.map (c * ·)).length : ℝ) ^ (-(1 / 2 : ℝ)))) =
        ((List.range n).map fun j : ℕ => (stdSample (present (treeColumn trees j))).map
          (· * (trees.length : ℝ) ^ (-(1 / 2 : ℝ)))).map (Option.map (c * ·)) := by
      rw [List.map_map]
      refine List.map_congr_left fun j _ => ?_
      have := hsd j
      simp only [Function.comp]
      rw [show stdSample (present (treeColumn (trees.map fun t => t.map (c * ·)) j)) = _ from this, List.length_map,
        Option.map_map, Option.map_map]
      congr 1
      funext x
      simp only [Function.comp]
      ring
    simp only
    rw [e2, e1, e3]
    refine congrArg Except.ok (congrArg₂ List.zip ?_ ?_)
    · rw [List.map_map]
      exact List.map_congr_left fun v _ => hsc _ v
    · rw [List.map_map]
      exact List.map_congr_left fun v _ => hsc _ v

end FinML.CV
