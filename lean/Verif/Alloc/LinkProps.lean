import Verif.Alloc.HrpProps
import Verif.Alloc.TreeProps

/-! # Property C335: the most correlated instruments in the order of hierarchical risk parity -/

namespace FinML.Alloc

/-! ## Specification -/

/-- The distance of two instruments that scipy's `linkage` clusters when it is given a square matrix: the
euclidean distance of the two rows; HRP.py:108. -/
noncomputable def rowDist (n : ℕ) (d : ℕ → ℕ → ℝ) (i j : ℕ) : ℝ :=
  √(((List.range n).map fun k => (d i k - d j k) ^ 2).sum)

/-- Node `c` exists after `k` merges and has not been merged yet. -/
def Current (n : ℕ) (rows : List Row) (k c : ℕ) : Prop :=
  c < n + k ∧ ∀ j r, j < k → rows[j]? = some r → r.left ≠ c ∧ r.right ≠ c

/-- Single linkage, the default of `linkage`: every row merges two clusters which contain the closest pair of
instruments that are not in one cluster yet. -/
def SingleLinkage (n : ℕ) (D : ℕ → ℕ → ℝ) (rows : List Row) : Prop :=
  ValidLinkage n rows ∧ ∀ (k : ℕ) (r : Row), rows[k]? = some r →
    Current n rows k r.left ∧ Current n rows k r.right ∧ ∃ la lb i j,
      Leaves n rows r.left la ∧ Leaves n rows r.right lb ∧ i ∈ la ∧ j ∈ lb ∧
      ∀ p q lp lq, p ≠ q → Current n rows k p → Current n rows k q → Leaves n rows p lp →
        Leaves n rows q lq → ∀ i' ∈ lp, ∀ j' ∈ lq, D i j ≤ D i' j'

/-- Two instruments are neighbours in the order. -/
def SideBySide (a b : ℕ) (order : List ℕ) : Prop := [a, b] <:+: order ∨ [b, a] <:+: order

/-- The pair `a`, `b` has a higher correlation than every other pair. -/
def MostCorrelated (n : ℕ) (x : List (ℕ → ℝ)) (a b : ℕ) : Prop :=
  a < n ∧ b < n ∧ a ≠ b ∧ ∀ i < n, ∀ j < n, i ≠ j → ¬ (i = a ∧ j = b) → ¬ (i = b ∧ j = a) →
    sampleCorr x i j < sampleCorr x a b

/-- C335, the full claim: the most correlated instruments become neighbours. -/
def MostCorrelatedSideBySide : Prop :=
  ∀ (n : ℕ) (x : List (ℕ → ℝ)) (rows : List Row) (order : List ℕ) (a b : ℕ),
    (∀ i < n, 0 < sampleCov x i i) → SingleLinkage n (rowDist n (corrToDist (sampleCorr x))) rows →
    quasiDiagonalize rows = .ok order → MostCorrelated n x a b → SideBySide a b order

/-! ## Lemmas -/

theorem leaves_item {n : ℕ} {rows : List Row} {c : ℕ} {l : List ℕ} (h : Leaves n rows c l) (hc : c < n) :
    l = [c] := leaves_unique n rows c l [c] h (Leaves.item c hc)

theorem first_merge_infix {n : ℕ} {rows : List Row} (hv : ValidLinkage n rows) {r : Row}
    (hr : rows[0]? = some r) (hl : r.left < n) (hrt : r.right < n) {c : ℕ} {l : List ℕ}
    (h : Leaves n rows c l) (ha : c ≠ r.left) (hb : c ≠ r.right) :
    (r.left ∉ l ∧ r.right ∉ l) ∨ [r.left, r.right] <:+: l := by
  induction h with
  | item c hc =>
    left
    simp only [List.mem_singleton]
    exact ⟨fun h => ha h.symm, fun h => hb h.symm⟩
  | merge k s la lb hs hla hlb iha ihb =>
    by_cases hk : k = 0
    · subst hk
      rw [hr, Option.some.injEq] at hs
      subst hs
      right
      rw [leaves_item hla hl, leaves_item hlb hrt]
      exact List.infix_refl _
    · have hne : ∀ u ∈ [r.left, r.right], ∀ v ∈ [s.left, s.right], u ≠ v := by
        have hnd := hv.once
        obtain ⟨rest, rfl⟩ : ∃ rest, rows = r :: rest := by
          cases rows with
          | nil => simp at hr
          | cons r' rest => exact ⟨rest, by simp at hr; rw [hr]⟩
        obtain ⟨k', rfl⟩ : ∃ k', k = k' + 1 := ⟨k - 1, by omega⟩
        rw [List.getElem?_cons_succ] at hs
        rw [List.flatMap_cons, List.nodup_append] at hnd
        intro u hu v hv
        exact hnd.2.2 u hu v (List.mem_flatMap.2 ⟨s, List.mem_of_getElem? hs, hv⟩)
      have h1 := iha (fun h => hne _ (by simp) s.left (by simp) h.symm)
        (fun h => hne _ (by simp) s.left (by simp) h.symm)
      have h2 := ihb (fun h => hne _ (by simp) s.right (by simp) h.symm)
        (fun h => hne _ (by simp) s.right (by simp) h.symm)
      rcases h1 with h1 | h1
      · rcases h2 with h2 | h2
        · left
          rw [List.mem_append, List.mem_append]
          exact ⟨not_or.2 ⟨h1.1, h2.1⟩, not_or.2 ⟨h1.2, h2.2⟩⟩
        · right
          exact h2.trans (List.suffix_append _ _).isInfix
      · right
        exact h1.trans (List.prefix_append _ _).isInfix

/-- A pair that is strictly closest becomes neighbours. -/
theorem closest_side {n : ℕ} {D : ℕ → ℕ → ℝ} {rows : List Row} (h : SingleLinkage n D rows) {order : List ℕ}
    (ho : quasiDiagonalize rows = .ok order) {a b : ℕ} (ha : a < n) (hb : b < n) (hab : a ≠ b)
    (hmin : ∀ i < n, ∀ j < n, i ≠ j → ¬ (i = a ∧ j = b) → ¬ (i = b ∧ j = a) → D a b < D i j) :
    SideBySide a b order := by
  obtain ⟨hv, hall⟩ := h
  have hn := hv.two_le
  have hlen := hv.length
  have h0 : 0 < rows.length := by omega
  have hr := List.getElem?_eq_getElem h0
  generalize rows[0] = r at hr
  obtain ⟨hcl, hcr, la, lb, i, j, hla, hlb, hi, hj, hle⟩ := hall 0 r hr
  have hl : r.left < n := by simpa using hcl.1
  have hrt : r.right < n := by simpa using hcr.1
  have hlr : r.left ≠ r.right := by
    have hnd := hv.once
    cases rows with
    | nil => simp at hr
    | cons r' rest =>
      simp only [List.getElem?_cons_zero, Option.some.injEq] at hr
      subst hr
      rw [List.flatMap_cons, List.nodup_append] at hnd
      simpa using hnd.1
  have hcur : ∀ c < n, Current n rows 0 c := fun c hc => ⟨by simpa using hc, fun j r hj _ => by omega⟩
  rw [leaves_item hla hl, List.mem_singleton] at hi
  rw [leaves_item hlb hrt, List.mem_singleton] at hj
  subst hi hj
  have hD : D r.left r.right ≤ D a b := hle a b [a] [b] hab (hcur a ha) (hcur b hb) (Leaves.item a ha)
    (Leaves.item b hb) a (by simp) b (by simp)
  have hpair : (r.left = a ∧ r.right = b) ∨ (r.left = b ∧ r.right = a) := by
    by_contra hc
    rw [not_or] at hc
    exact absurd (hmin _ hl _ hrt hlr hc.1 hc.2) (not_lt.2 hD)
  obtain ⟨order', ho', hleaves, hperm⟩ := C79_quasi_diagonalize n rows hv
  rw [ho, Except.ok.injEq] at ho'
  subst ho'
  have hroot : ∀ c < n, 2 * n - 2 ≠ c := fun c hc => by omega
  rcases first_merge_infix hv hr hl hrt hleaves (hroot _ hl) (hroot _ hrt) with h1 | h1
  · exact absurd (hperm.mem_iff.2 (List.mem_range.2 hl)) h1.1
  · rcases hpair with ⟨e1, e2⟩ | ⟨e1, e2⟩
    · rw [e1, e2] at h1
      exact Or.inl h1
    · rw [e1, e2] at h1
      exact Or.inr h1

theorem most_le_one {n : ℕ} {x : List (ℕ → ℝ)} (hpos : ∀ i < n, 0 < sampleCov x i i) {a b : ℕ} (ha : a < n)
    (hb : b < n) : sampleCorr x a b ≤ 1 := by
  have h := C78_sampleCorr n x hpos
  have h1 := corr_form n (sampleCorr x) h a b b ha hb hb 1 (-1) 0
  linarith

theorem most_dist {n : ℕ} {x : List (ℕ → ℝ)} (hpos : ∀ i < n, 0 < sampleCov x i i) {a b : ℕ}
    (hm : MostCorrelated n x a b) : ∀ i < n, ∀ j < n, i ≠ j → ¬ (i = a ∧ j = b) → ¬ (i = b ∧ j = a) →
      corrToDist (sampleCorr x) a b < corrToDist (sampleCorr x) i j := by
  intro i hi j hj hij h1 h2
  have := hm.2.2.2 i hi j hj hij h1 h2
  have hle := most_le_one hpos hm.1 hm.2.1
  unfold corrToDist
  exact Real.sqrt_lt_sqrt (by linarith) (by linarith)

/-! ## C335 -/

/-- C335.  If the encoded distances themselves are clustered, `_quasi_diagonalize` makes the most correlated
instruments neighbours, for any number of instruments. -/
theorem C335_distances (n : ℕ) (x : List (ℕ → ℝ)) (rows : List Row) (order : List ℕ) (a b : ℕ)
    (hpos : ∀ i < n, 0 < sampleCov x i i) (hlink : SingleLinkage n (corrToDist (sampleCorr x)) rows)
    (ho : quasiDiagonalize rows = .ok order) (hm : MostCorrelated n x a b) : SideBySide a b order :=
  closest_side hlink ho hm.1 hm.2.1 hm.2.2.1 (most_dist hpos hm)

theorem triangle_rows (p q r : ℝ) (hp : 0 ≤ p) (hr : 0 ≤ r) (h : p < q) :
    2 * p ^ 2 + (q - r) ^ 2 < 2 * q ^ 2 + (p - r) ^ 2 := by
  nlinarith [mul_nonneg (sub_nonneg.2 h.le) hr, mul_pos (sub_pos.2 h) (lt_of_le_of_lt hp h)]

/-- C335 (partial).  With at most three instruments the most correlated ones become neighbours.  Missing: more
instruments, because `linkage` takes the matrix of distances for coordinates of the instruments. -/
theorem C335_neighbours_partial (n : ℕ) (hn : n ≤ 3) (x : List (ℕ → ℝ)) (rows : List Row) (order : List ℕ)
    (a b : ℕ) (hpos : ∀ i < n, 0 < sampleCov x i i)
    (hlink : SingleLinkage n (rowDist n (corrToDist (sampleCorr x))) rows)
    (ho : quasiDiagonalize rows = .ok order) (hm : MostCorrelated n x a b) : SideBySide a b order := by
  refine closest_side hlink ho hm.1 hm.2.1 hm.2.2.1 ?_
  have hd := most_dist hpos hm
  have hcorr := C78_sampleCorr n x hpos
  obtain ⟨ha, hb, hab, -⟩ := hm
  have hsym : ∀ i < n, ∀ j < n, corrToDist (sampleCorr x) i j = corrToDist (sampleCorr x) j i := fun i hi j hj => by
    unfold corrToDist
    rw [hcorr.symm i hi j hj]
  have hself : ∀ i < n, corrToDist (sampleCorr x) i i = 0 := fun i hi => by
    unfold corrToDist
    rw [hcorr.diag i hi]
    simp
  have hnn : ∀ i j, 0 ≤ corrToDist (sampleCorr x) i j := fun i j => Real.sqrt_nonneg _
  intro i hi j hj hij h1 h2
  generalize corrToDist (sampleCorr x) = d at hd hsym hself hnn
  have hn3 : n = 3 := by omega
  subst hn3
  unfold rowDist
  apply Real.sqrt_lt_sqrt (List.sum_nonneg (by simp only [List.mem_map]; rintro _ ⟨k, -, rfl⟩; positivity))
  have hlt := hd i hi j hj hij h1 h2
  have e : ∀ u v, (List.map (fun k => (d u k - d v k) ^ 2) (List.range 3)).sum =
      (d u 0 - d v 0) ^ 2 + (d u 1 - d v 1) ^ 2 + (d u 2 - d v 2) ^ 2 := by
    intro u v
    simp [List.range_succ]
    ring
  rw [e, e]
  have s1 := hsym 1 (by omega) 0 (by omega)
  have s2 := hsym 2 (by omega) 0 (by omega)
  have s3 := hsym 2 (by omega) 1 (by omega)
  have z0 := hself 0 (by omega)
  have z1 := hself 1 (by omega)
  have z2 := hself 2 (by omega)
  have t1 := triangle_rows (d 0 1) (d 0 2) (d 1 2) (hnn _ _) (hnn _ _)
  have t2 := triangle_rows (d 0 1) (d 1 2) (d 0 2) (hnn _ _) (hnn _ _)
  have t3 := triangle_rows (d 0 2) (d 0 1) (d 1 2) (hnn _ _) (hnn _ _)
  have t4 := triangle_rows (d 0 2) (d 1 2) (d 0 1) (hnn _ _) (hnn _ _)
  have t5 := triangle_rows (d 1 2) (d 0 1) (d 0 2) (hnn _ _) (hnn _ _)
  have t6 := triangle_rows (d 1 2) (d 0 2) (d 0 1) (hnn _ _) (hnn _ _)
  have hcase : ∀ u < 3, ∀ v < 3, u ≠ v → u = 0 ∧ v = 1 ∨ u = 0 ∧ v = 2 ∨ u = 1 ∧ v = 0 ∨ u = 1 ∧ v = 2 ∨ u = 2 ∧ v = 0 ∨ u = 2 ∧ v = 1 := by omega
  rcases hcase a ha b hb hab with ⟨rfl, rfl⟩ | ⟨rfl, rfl⟩ | ⟨rfl, rfl⟩ | ⟨rfl, rfl⟩ | ⟨rfl, rfl⟩ | ⟨rfl, rfl⟩ <;>
  rcases hcase i hi j hj hij with ⟨rfl, rfl⟩ | ⟨rfl, rfl⟩ | ⟨rfl, rfl⟩ | ⟨rfl, rfl⟩ | ⟨rfl, rfl⟩ | ⟨rfl, rfl⟩ <;>
    first
    | exact absurd ⟨rfl, rfl⟩ h1
    | exact absurd ⟨rfl, rfl⟩ h2
    | (clear hd hsym hself hnn h1 h2 hij hab hcase e hi hj ha hb
       simp only [s1, s2, s3, z0, z1, z2] at hlt ⊢
       first
       | (have := t1 hlt; linarith)
       | (have := t2 hlt; linarith)
       | (have := t3 hlt; linarith)
       | (have := t4 hlt; linarith)
       | (have := t5 hlt; linarith)
       | (have := t6 hlt; linarith))

/-- Returns of four instruments on four days.  The directions of the instruments lie on a circle in the order
2, 0, 1, 3, and 0 and 1 are a little closer than the other neighbours. -/
noncomputable def circleReturns : List (ℕ → ℝ) :=
  [fun i => [1 / 5, 7 / 5, -17 / 13, 7 / 13].getD i 0, fun i => [7 / 5, 1 / 5, 7 / 13, -17 / 13].getD i 0,
   fun i => [-7 / 5, -1 / 5, -7 / 13, 17 / 13].getD i 0, fun i => [-1 / 5, -7 / 5, 17 / 13, -7 / 13].getD i 0]

/-- The linkage: 0 with 2, 1 with 3, then the rest. -/
def circleRows : List Row := [⟨0, 2, 2⟩, ⟨1, 3, 2⟩, ⟨4, 5, 4⟩]

theorem circle_mean (i : ℕ) (hi : i < 4) : colMean circleReturns i = 0 := by
  unfold colMean circleReturns
  interval_cases i <;> norm_num

theorem circle_var (i : ℕ) (hi : i < 4) : sampleCov circleReturns i i = 4 / 3 := by
  unfold sampleCov
  rw [circle_mean i hi]
  unfold circleReturns
  interval_cases i <;> norm_num

/-- The correlations. -/
noncomputable def circleCorr (i j : ℕ) : ℝ :=
  ([[1, 7 / 25, 16 / 65, -56 / 65], [7 / 25, 1, -56 / 65, 16 / 65], [16 / 65, -56 / 65, 1, -119 / 169],
    [-56 / 65, 16 / 65, -119 / 169, 1]].getD i []).getD j 0

theorem circle_corr (i j : ℕ) (hi : i < 4) (hj : j < 4) : sampleCorr circleReturns i j = circleCorr i j := by
  unfold sampleCorr
  rw [circle_var i hi, circle_var j hj, Real.mul_self_sqrt (by norm_num)]
  unfold sampleCov
  rw [circle_mean i hi, circle_mean j hj]
  unfold circleReturns circleCorr
  interval_cases i <;> interval_cases j <;> norm_num

/-- The distances; `u` stands for `1/√130`. -/
noncomputable def circleDist (u : ℝ) (i j : ℕ) : ℝ :=
  ([[0, 3 / 5, 7 * u, 11 * u], [3 / 5, 0, 11 * u, 7 * u], [7 * u, 11 * u, 0, 12 / 13],
    [11 * u, 7 * u, 12 / 13, 0]].getD i []).getD j 0

theorem circle_table (u : ℝ) :
    circleDist u 0 0 = 0 ∧ circleDist u 0 1 = 3 / 5 ∧ circleDist u 0 2 = 7 * u ∧ circleDist u 0 3 = 11 * u ∧
    circleDist u 1 0 = 3 / 5 ∧ circleDist u 1 1 = 0 ∧ circleDist u 1 2 = 11 * u ∧ circleDist u 1 3 = 7 * u ∧
    circleDist u 2 0 = 7 * u ∧ circleDist u 2 1 = 11 * u ∧ circleDist u 2 2 = 0 ∧ circleDist u 2 3 = 12 / 13 ∧
    circleDist u 3 0 = 11 * u ∧ circleDist u 3 1 = 7 * u ∧ circleDist u 3 2 = 12 / 13 ∧ circleDist u 3 3 = 0 :=
  ⟨rfl, rfl, rfl, rfl, rfl, rfl, rfl, rfl, rfl, rfl, rfl, rfl, rfl, rfl, rfl, rfl⟩

theorem circle_dist (u : ℝ) (hu : 0 < u) (hu2 : u ^ 2 = 1 / 130) (i j : ℕ) (hi : i < 4) (hj : j < 4) :
    corrToDist (sampleCorr circleReturns) i j = circleDist u i j := by
  unfold corrToDist
  rw [circle_corr i j hi hj]
  have key : (1 - circleCorr i j) / 2 = circleDist u i j ^ 2 ∧ 0 ≤ circleDist u i j := by
    unfold circleCorr circleDist
    interval_cases i <;> interval_cases j <;> simp [mul_pow, hu2, hu.le] <;> norm_num
  rw [key.1, Real.sqrt_sq key.2]

theorem circle_rowDist (u : ℝ) (hu : 0 < u) (hu2 : u ^ 2 = 1 / 130) (i j : ℕ) (hi : i < 4) (hj : j < 4) :
    rowDist 4 (corrToDist (sampleCorr circleReturns)) i j =
      √((circleDist u i 0 - circleDist u j 0) ^ 2 + (circleDist u i 1 - circleDist u j 1) ^ 2 +
        (circleDist u i 2 - circleDist u j 2) ^ 2 + (circleDist u i 3 - circleDist u j 3) ^ 2) := by
  unfold rowDist
  congr 1
  simp only [List.range_succ, List.range_zero, List.nil_append, List.cons_append, List.map_cons, List.map_nil,
    List.sum_cons, List.sum_nil]
  rw [circle_dist u hu hu2 i 0 hi (by omega), circle_dist u hu hu2 i 1 hi (by omega),
    circle_dist u hu hu2 i 2 hi (by omega), circle_dist u hu hu2 i 3 hi (by omega),
    circle_dist u hu hu2 j 0 hj (by omega), circle_dist u hu hu2 j 1 hj (by omega),
    circle_dist u hu hu2 j 2 hj (by omega), circle_dist u hu hu2 j 3 hj (by omega)]
  ring

theorem circle_le (i j i' j' : ℕ) (hi : i < 4) (hj : j < 4) (hi' : i' < 4) (hj' : j' < 4)
    (h : ∀ u : ℝ, 877 / 10000 < u → u < 878 / 10000 → u ^ 2 = 1 / 130 →
      (circleDist u i 0 - circleDist u j 0) ^ 2 + (circleDist u i 1 - circleDist u j 1) ^ 2 +
        (circleDist u i 2 - circleDist u j 2) ^ 2 + (circleDist u i 3 - circleDist u j 3) ^ 2 ≤
      (circleDist u i' 0 - circleDist u j' 0) ^ 2 + (circleDist u i' 1 - circleDist u j' 1) ^ 2 +
        (circleDist u i' 2 - circleDist u j' 2) ^ 2 + (circleDist u i' 3 - circleDist u j' 3) ^ 2) :
    rowDist 4 (corrToDist (sampleCorr circleReturns)) i j ≤
      rowDist 4 (corrToDist (sampleCorr circleReturns)) i' j' := by
  have hu : (0 : ℝ) < √(1 / 130) := Real.sqrt_pos.2 (by norm_num)
  have hu2 : √(1 / 130) ^ 2 = 1 / 130 := Real.sq_sqrt (by norm_num)
  rw [circle_rowDist _ hu hu2 i j hi hj, circle_rowDist _ hu hu2 i' j' hi' hj']
  apply Real.sqrt_le_sqrt
  apply h _ _ _ hu2
  · exact Real.lt_sqrt_of_sq_lt (by norm_num)
  · exact (Real.sqrt_lt' (by norm_num)).2 (by norm_num)

theorem circle_leaves : Leaves 4 circleRows 4 [0, 2] ∧ Leaves 4 circleRows 5 [1, 3] :=
  ⟨Leaves.merge 0 ⟨0, 2, 2⟩ [0] [2] rfl (Leaves.item 0 (by decide)) (Leaves.item 2 (by decide)),
   Leaves.merge 1 ⟨1, 3, 2⟩ [1] [3] rfl (Leaves.item 1 (by decide)) (Leaves.item 3 (by decide))⟩

/-- The leaves of the nodes of `circleRows`. -/
def circleLeaves (c : ℕ) : List ℕ := [[0], [1], [2], [3], [0, 2], [1, 3]].getD c []

theorem circle_leaf {c : ℕ} (hc : c < 6) {l : List ℕ} (h : Leaves 4 circleRows c l) : l = circleLeaves c := by
  refine leaves_unique 4 circleRows c l _ h ?_
  interval_cases c
  · exact Leaves.item 0 (by decide)
  · exact Leaves.item 1 (by decide)
  · exact Leaves.item 2 (by decide)
  · exact Leaves.item 3 (by decide)
  · exact circle_leaves.1
  · exact circle_leaves.2

theorem circle_valid : ValidLinkage 4 circleRows where
  two_le := by decide
  length := rfl
  earlier := by
    intro k r h
    have hk : k < 3 := by
      by_contra hc
      rw [List.getElem?_eq_none (by simp [circleRows]; omega)] at h
      cases h
    interval_cases k <;> · cases h; decide
  once := by decide
  counts := by
    intro k r h
    have hk : k < 3 := by
      by_contra hc
      rw [List.getElem?_eq_none (by simp [circleRows]; omega)] at h
      cases h
    interval_cases k <;> · cases h; decide

theorem circle_min (i j s : ℕ) (hi : i < 4) (hj : j < 4) (hij : i ≠ j) (hs : s = 0 ∨ s = 1) :
    rowDist 4 (corrToDist (sampleCorr circleReturns)) s (s + 2) ≤
      rowDist 4 (corrToDist (sampleCorr circleReturns)) i j := by
  refine circle_le s (s + 2) i j (by omega) (by omega) hi hj fun u h1 h2 h3 => ?_
  have e : ∀ s, s = 0 ∨ s = 1 → (circleDist u s 0 - circleDist u (s + 2) 0) ^ 2 +
      (circleDist u s 1 - circleDist u (s + 2) 1) ^ 2 + (circleDist u s 2 - circleDist u (s + 2) 2) ^ 2 +
      (circleDist u s 3 - circleDist u (s + 2) 3) ^ 2 =
      (7 * u) ^ 2 + (3 / 5 - 11 * u) ^ 2 + (7 * u) ^ 2 + (11 * u - 12 / 13) ^ 2 := by
    rintro s (rfl | rfl)
    · change (0 - 7 * u) ^ 2 + (3 / 5 - 11 * u) ^ 2 + (7 * u - 0) ^ 2 + (11 * u - 12 / 13) ^ 2 = _
      ring
    · change (3 / 5 - 11 * u) ^ 2 + (0 - 7 * u) ^ 2 + (11 * u - 12 / 13) ^ 2 + (7 * u - 0) ^ 2 = _
      ring
  rw [e s hs]
  clear e
  obtain ⟨t00, t01, t02, t03, t10, t11, t12, t13, t20, t21, t22, t23, t30, t31, t32, t33⟩ := circle_table u
  have hcase : (i = 0 ∨ i = 1 ∨ i = 2 ∨ i = 3) ∧ (j = 0 ∨ j = 1 ∨ j = 2 ∨ j = 3) := by omega
  obtain ⟨rfl | rfl | rfl | rfl, rfl | rfl | rfl | rfl⟩ := hcase <;>
    first
    | exact absurd rfl hij
    | (rw [t00, t01, t02, t03, t10, t11, t12, t13]; linarith)
    | (rw [t00, t01, t02, t03, t20, t21, t22, t23]; linarith)
    | (rw [t00, t01, t02, t03, t30, t31, t32, t33]; linarith)
    | (rw [t10, t11, t12, t13, t20, t21, t22, t23]; linarith)
    | (rw [t10, t11, t12, t13, t30, t31, t32, t33]; linarith)
    | (rw [t20, t21, t22, t23, t30, t31, t32, t33]; linarith)

theorem circle_across (i j : ℕ)
    (h : (i = 0 ∨ i = 2) ∧ (j = 1 ∨ j = 3) ∨ (i = 1 ∨ i = 3) ∧ (j = 0 ∨ j = 2)) :
    rowDist 4 (corrToDist (sampleCorr circleReturns)) 0 1 ≤
      rowDist 4 (corrToDist (sampleCorr circleReturns)) i j := by
  refine circle_le 0 1 i j (by omega) (by omega) (by omega) (by omega) fun u h1 h2 h3 => ?_
  obtain ⟨t00, t01, t02, t03, t10, t11, t12, t13, t20, t21, t22, t23, t30, t31, t32, t33⟩ := circle_table u
  rcases h with ⟨rfl | rfl, rfl | rfl⟩ | ⟨rfl | rfl, rfl | rfl⟩
  · exact le_refl _
  · rw [t00, t01, t02, t03, t10, t11, t12, t13, t30, t31, t32, t33]; linarith
  · rw [t00, t01, t02, t03, t10, t11, t12, t13, t20, t21, t22, t23]; linarith
  · rw [t00, t01, t02, t03, t10, t11, t12, t13, t20, t21, t22, t23, t30, t31, t32, t33]; linarith
  · rw [t00, t01, t02, t03, t10, t11, t12, t13]; linarith
  · rw [t00, t01, t02, t03, t10, t11, t12, t13, t20, t21, t22, t23]; linarith
  · rw [t00, t01, t02, t03, t10, t11, t12, t13, t30, t31, t32, t33]; linarith
  · rw [t00, t01, t02, t03, t10, t11, t12, t13, t20, t21, t22, t23, t30, t31, t32, t33]; linarith

theorem circle_single : SingleLinkage 4 (rowDist 4 (corrToDist (sampleCorr circleReturns))) circleRows := by
  refine ⟨circle_valid, fun k r h => ?_⟩
  have hk : k < 3 := by
    by_contra hc
    rw [List.getElem?_eq_none (by simp [circleRows]; omega)] at h
    cases h
  have c0 : ∀ c k, 1 ≤ k → Current 4 circleRows k c → c ≠ 0 ∧ c ≠ 2 := fun c k hk hc => by
    have := hc.2 0 ⟨0, 2, 2⟩ (by omega) rfl
    exact ⟨fun h => this.1 h.symm, fun h => this.2 h.symm⟩
  have c1 : ∀ c k, 2 ≤ k → Current 4 circleRows k c → c ≠ 1 ∧ c ≠ 3 := fun c k hk hc => by
    have := hc.2 1 ⟨1, 3, 2⟩ (by omega) rfl
    exact ⟨fun h => this.1 h.symm, fun h => this.2 h.symm⟩
  interval_cases k
  · cases h
    refine ⟨⟨by decide, fun j r hj => by omega⟩, ⟨by decide, fun j r hj => by omega⟩, [0], [2], 0, 2,
      Leaves.item 0 (by decide), Leaves.item 2 (by decide), by simp, by simp, ?_⟩
    intro p q lp lq hpq hp hq hlp hlq i hi j hj
    have hp4 : p < 4 := by simpa using hp.1
    have hq4 : q < 4 := by simpa using hq.1
    rw [leaves_item hlp hp4, List.mem_singleton] at hi
    rw [leaves_item hlq hq4, List.mem_singleton] at hj
    subst hi hj
    exact circle_min i j 0 hp4 hq4 hpq (Or.inl rfl)
  · cases h
    have hcur : ∀ c, c = 1 ∨ c = 3 → Current 4 circleRows 1 c := by
      rintro c hc
      refine ⟨by omega, fun j r hj hr => ?_⟩
      obtain rfl : j = 0 := by omega
      cases hr
      simp only
      omega
    refine ⟨hcur 1 (Or.inl rfl), hcur 3 (Or.inr rfl), [1], [3], 1, 3, Leaves.item 1 (by decide),
      Leaves.item 3 (by decide), by simp, by simp, ?_⟩
    intro p q lp lq hpq hp hq hlp hlq i hi j hj
    have hp5 : p < 5 := by simpa using hp.1
    have hq5 : q < 5 := by simpa using hq.1
    obtain ⟨p0, p2⟩ := c0 p 1 le_rfl hp
    obtain ⟨q0, q2⟩ := c0 q 1 le_rfl hq
    rw [circle_leaf (by omega) hlp] at hi
    rw [circle_leaf (by omega) hlq] at hj
    have key : i < 4 ∧ j < 4 ∧ i ≠ j := by
      unfold circleLeaves at hi hj
      interval_cases p <;> interval_cases q <;> simp at hi hj p0 p2 q0 q2 hpq <;> omega
    exact circle_min i j 1 key.1 key.2.1 key.2.2 (Or.inr rfl)
  · cases h
    have hcur : ∀ c, c = 4 ∨ c = 5 → Current 4 circleRows 2 c := by
      rintro c hc
      refine ⟨by omega, fun j r hj hr => ?_⟩
      interval_cases j
      · cases hr
        simp only
        omega
      · cases hr
        simp only
        omega
    refine ⟨hcur 4 (Or.inl rfl), hcur 5 (Or.inr rfl), [0, 2], [1, 3], 0, 1, circle_leaves.1,
      circle_leaves.2, by simp, by simp, ?_⟩
    intro p q lp lq hpq hp hq hlp hlq i hi j hj
    have hp5 : p < 6 := by simpa using hp.1
    have hq5 : q < 6 := by simpa using hq.1
    obtain ⟨p0, p2⟩ := c0 p 2 (by omega) hp
    obtain ⟨q0, q2⟩ := c0 q 2 (by omega) hq
    obtain ⟨p1, p3⟩ := c1 p 2 le_rfl hp
    obtain ⟨q1, q3⟩ := c1 q 2 le_rfl hq
    rw [circle_leaf (by omega) hlp] at hi
    rw [circle_leaf (by omega) hlq] at hj
    have key : (i = 0 ∨ i = 2) ∧ (j = 1 ∨ j = 3) ∨ (i = 1 ∨ i = 3) ∧ (j = 0 ∨ j = 2) := by
      unfold circleLeaves at hi hj
      have hp' : p = 4 ∨ p = 5 := by omega
      have hq' : q = 4 ∨ q = 5 := by omega
      rcases hp' with rfl | rfl <;> rcases hq' with rfl | rfl <;> simp at hi hj hpq <;> omega
    exact circle_across i j key

/-- C335 (refuted).  Of the four instruments of `circleReturns` 0 and 1 are the most correlated, but the order
is 0, 2, 1, 3 and the first bisection parts them. -/
theorem C335_neighbours_counterexample : ¬ MostCorrelatedSideBySide := by
  intro h
  have hm : MostCorrelated 4 circleReturns 0 1 := by
    refine ⟨by decide, by decide, by decide, fun i hi j hj hij h1 h2 => ?_⟩
    rw [circle_corr i j hi hj, circle_corr 0 1 (by decide) (by decide)]
    unfold circleCorr
    interval_cases i <;> interval_cases j <;>
      first
      | exact absurd rfl hij
      | exact absurd ⟨rfl, rfl⟩ h1
      | exact absurd ⟨rfl, rfl⟩ h2
      | norm_num
  have := h 4 circleReturns circleRows [0, 2, 1, 3] 0 1
    (fun i hi => by rw [circle_var i hi]; norm_num) circle_single (by decide +kernel) hm
  revert this
  unfold SideBySide
  decide

/-! ## The hypotheses hold -/

theorem three_single (D : ℕ → ℕ → ℝ) (hs : ∀ i j, D i j = D j i) (h1 : D 0 1 ≤ D 0 2) (h2 : D 0 2 ≤ D 1 2) :
    SingleLinkage 3 D [⟨0, 1, 2⟩, ⟨2, 3, 3⟩] := by
  have hlt : ∀ (k : ℕ) (r : Row), [⟨0, 1, 2⟩, ⟨2, 3, 3⟩][k]? = some r → k < 2 := by
    intro k r h
    by_contra hc
    rw [List.getElem?_eq_none (by simp; omega)] at h
    cases h
  refine ⟨⟨by decide, rfl, ?_, by decide, ?_⟩, ?_⟩
  · intro k r h
    have := hlt k r h
    interval_cases k <;> · cases h; decide
  · intro k r h
    have := hlt k r h
    interval_cases k <;> · cases h; decide
  have l3 : Leaves 3 [⟨0, 1, 2⟩, ⟨2, 3, 3⟩] 3 [0, 1] :=
    Leaves.merge 0 ⟨0, 1, 2⟩ [0] [1] rfl (Leaves.item 0 (by decide)) (Leaves.item 1 (by decide))
  intro k r h
  have := hlt k r h
  have e1 := hs 1 0
  have e2 := hs 2 0
  have e3 := hs 2 1
  interval_cases k
  · cases h
    refine ⟨⟨by decide, fun j r hj => by omega⟩, ⟨by decide, fun j r hj => by omega⟩, [0], [1], 0, 1,
      Leaves.item 0 (by decide), Leaves.item 1 (by decide), by simp, by simp, ?_⟩
    intro p q lp lq hpq hp hq hlp hlq i hi j hj
    have hp3 : p < 3 := by simpa using hp.1
    have hq3 : q < 3 := by simpa using hq.1
    rw [leaves_item hlp hp3, List.mem_singleton] at hi
    rw [leaves_item hlq hq3, List.mem_singleton] at hj
    subst hi hj
    interval_cases i <;> interval_cases j <;> first | exact absurd rfl hpq | linarith
  · cases h
    have hcur : ∀ c, c = 2 ∨ c = 3 → Current 3 [⟨0, 1, 2⟩, ⟨2, 3, 3⟩] 1 c := by
      rintro c hc
      refine ⟨by omega, fun j r hj hr => ?_⟩
      obtain rfl : j = 0 := by omega
      cases hr
      simp only
      omega
    refine ⟨hcur 2 (Or.inl rfl), hcur 3 (Or.inr rfl), [2], [0, 1], 2, 0, Leaves.item 2 (by decide),
      l3, by simp, by simp, ?_⟩
    intro p q lp lq hpq hp hq hlp hlq i hi j hj
    have hp4 : p < 4 := by simpa using hp.1
    have hq4 : q < 4 := by simpa using hq.1
    have hp0 := hp.2 0 ⟨0, 1, 2⟩ (by omega) rfl
    have hq0 := hq.2 0 ⟨0, 1, 2⟩ (by omega) rfl
    simp only at hp0 hq0
    have hp' : p = 2 ∨ p = 3 := by omega
    have hq' : q = 2 ∨ q = 3 := by omega
    rcases hp' with rfl | rfl <;> rcases hq' with rfl | rfl
    · exact absurd rfl hpq
    · rw [leaves_item hlp (by decide), List.mem_singleton] at hi
      rw [leaves_unique _ _ _ _ _ hlq l3] at hj
      simp only [List.mem_cons, List.not_mem_nil, or_false] at hj
      rcases hj with rfl | rfl
      · rw [hi]
      · rw [hi]
        linarith
    · rw [leaves_item hlq (by decide), List.mem_singleton] at hj
      rw [leaves_unique _ _ _ _ _ hlp l3] at hi
      simp only [List.mem_cons, List.not_mem_nil, or_false] at hi
      rcases hi with rfl | rfl <;> rw [hj] <;> linarith
    · exact absurd rfl hpq

/-- The first three instruments of `circleReturns` meet the hypotheses of both theorems. -/
example : (∀ i < 3, 0 < sampleCov circleReturns i i) ∧ MostCorrelated 3 circleReturns 0 1 ∧
    SingleLinkage 3 (corrToDist fun i j => sampleCorr circleReturns (i % 3) (j % 3)) [⟨0, 1, 2⟩, ⟨2, 3, 3⟩] ∧
    SingleLinkage 3 (rowDist 3 (corrToDist (sampleCorr circleReturns))) [⟨0, 1, 2⟩, ⟨2, 3, 3⟩] ∧
    quasiDiagonalize [⟨0, 1, 2⟩, ⟨2, 3, 3⟩] = .ok [2, 0, 1] := by
  have hu : (0 : ℝ) < √(1 / 130) := Real.sqrt_pos.2 (by norm_num)
  have hu2 : √(1 / 130) ^ 2 = 1 / 130 := Real.sq_sqrt (by norm_num)
  have hlo : (877 / 10000 : ℝ) < √(1 / 130) := Real.lt_sqrt_of_sq_lt (by norm_num)
  have hhi : √(1 / 130) < (878 / 10000 : ℝ) := (Real.sqrt_lt' (by norm_num)).2 (by norm_num)
  generalize √(1 / 130) = u at hu hu2 hlo hhi
  have hd := fun i j (hi : i < 4) (hj : j < 4) => circle_dist u hu hu2 i j hi hj
  obtain ⟨t00, t01, t02, t03, t10, t11, t12, t13, t20, t21, t22, t23, t30, t31, t32, t33⟩ := circle_table u
  refine ⟨fun i hi => by rw [circle_var i (by omega)]; norm_num, ⟨by decide, by decide, by decide, ?_⟩, ?_, ?_,
    by decide +kernel⟩
  · intro i hi j hj hij h1 h2
    rw [circle_corr i j (by omega) (by omega), circle_corr 0 1 (by decide) (by decide)]
    unfold circleCorr
    interval_cases i <;> interval_cases j <;>
      first
      | exact absurd rfl hij
      | exact absurd ⟨rfl, rfl⟩ h1
      | exact absurd ⟨rfl, rfl⟩ h2
      | norm_num
  · apply three_single
    · intro i j
      have hc := C78_sampleCorr 3 circleReturns fun i hi => by rw [circle_var i (by omega)]; norm_num
      unfold corrToDist
      simp only
      rw [hc.symm (i % 3) (Nat.mod_lt _ (by decide)) (j % 3) (Nat.mod_lt _ (by decide))]
    · change corrToDist (sampleCorr circleReturns) 0 1 ≤ corrToDist (sampleCorr circleReturns) 0 2
      rw [hd 0 1 (by decide) (by decide), hd 0 2 (by decide) (by decide), t01, t02]
      linarith
    · change corrToDist (sampleCorr circleReturns) 0 2 ≤ corrToDist (sampleCorr circleReturns) 1 2
      rw [hd 0 2 (by decide) (by decide), hd 1 2 (by decide) (by decide), t02, t12]
      linarith
  · have e : ∀ i j, i < 4 → j < 4 → rowDist 3 (corrToDist (sampleCorr circleReturns)) i j =
        √((circleDist u i 0 - circleDist u j 0) ^ 2 + (circleDist u i 1 - circleDist u j 1) ^ 2 +
          (circleDist u i 2 - circleDist u j 2) ^ 2) := by
      intro i j hi hj
      unfold rowDist
      congr 1
      simp only [List.range_succ, List.range_zero, List.nil_append, List.cons_append, List.map_cons,
        List.map_nil, List.sum_cons, List.sum_nil]
      rw [hd i 0 hi (by omega), hd i 1 hi (by omega), hd i 2 hi (by omega), hd j 0 hj (by omega),
        hd j 1 hj (by omega), hd j 2 hj (by omega)]
      ring
    apply three_single
    · intro i j
      unfold rowDist
      congr 2
      apply List.map_congr_left
      intro k _
      ring
    · rw [e 0 1 (by decide) (by decide), e 0 2 (by decide) (by decide), t00, t01, t02, t10, t11, t12, t20, t21, t22]
      apply Real.sqrt_le_sqrt
      linarith
    · rw [e 0 2 (by decide) (by decide), e 1 2 (by decide) (by decide), t00, t01, t02, t10, t11, t12, t20, t21, t22]
      apply Real.sqrt_le_sqrt
      linarith

end FinML.Alloc
