import Verif.Options.ChainProps

/-!
# C240: the implied risk-free rate when some quotes are wrong
-/

namespace FinML.Options

open FinML.Filters (npMedian)

theorem count_below {s : List ℝ} (hs : s.Pairwise (· ≤ ·)) {i : ℕ} (hi : i < s.length) {r : ℝ}
    (h : s[i] < r) : s.count r + (i + 1) ≤ s.length := by
  have h0 : (s.take (i + 1)).count r = 0 := by
    rw [List.count_eq_zero]
    intro hm
    obtain ⟨j, hj, he⟩ := List.mem_iff_getElem.1 hm
    rw [List.length_take] at hj
    rw [List.getElem_take] at he
    have hle : s[j] ≤ s[i] := by
      rcases Nat.lt_or_ge j i with hlt | hge
      · exact List.pairwise_iff_getElem.1 hs j i _ _ hlt
      · obtain rfl : j = i := by omega
        exact le_rfl
    rw [he] at hle
    linarith
  have h1 : s.count r = (s.drop (i + 1)).count r := by
    conv_lhs => rw [← List.take_append_drop (i + 1) s]
    rw [List.count_append, h0, Nat.zero_add]
  have h2 := List.count_le_length (a := r) (l := s.drop (i + 1))
  rw [List.length_drop] at h2
  omega

theorem count_above {s : List ℝ} (hs : s.Pairwise (· ≤ ·)) {i : ℕ} (hi : i < s.length) {r : ℝ}
    (h : r < s[i]) : s.count r ≤ i := by
  have h0 : (s.drop i).count r = 0 := by
    rw [List.count_eq_zero]
    intro hm
    obtain ⟨j, hj, he⟩ := List.mem_iff_getElem.1 hm
    rw [List.getElem_drop] at he
    rw [List.length_drop] at hj
    have hle : s[i] ≤ s[i + j] := by
      rcases Nat.eq_zero_or_pos j with rfl | hp
      · simp
      · exact List.pairwise_iff_getElem.1 hs i (i + j) _ _ (by omega)
    rw [he] at hle
    linarith
  have h1 : s.count r = (s.take i).count r := by
    conv_lhs => rw [← List.take_append_drop i s]
    rw [List.count_append, h0, Nat.add_zero]
  have h2 := List.count_le_length (a := r) (l := s.take i)
  rw [List.length_take] at h2
  omega

/-- A value that more than half of a list have is its median. -/
theorem npMedian_majority (l : List ℝ) (r : ℝ) (h : l.length < 2 * l.count r) : npMedian l = r := by
  obtain ⟨s, hsd⟩ : ∃ s, l.insertionSort (· ≤ ·) = s := ⟨_, rfl⟩
  have hs : s.Pairwise (· ≤ ·) := hsd ▸ List.pairwise_insertionSort _ _
  have hp : s.Perm l := hsd ▸ List.perm_insertionSort _ _
  have hlen : s.length = l.length := hp.length_eq
  have hc : s.count r = l.count r := hp.count_eq r
  have hcl := List.count_le_length (a := r) (l := l)
  have mid : ∀ i, i < s.length → (l.length ≤ s.count r + i) → (i < s.count r) → s.getD i 0 = r := by
    intro i hi h1 h2
    rw [List.getD_eq_getElem _ _ hi]
    rcases lt_trichotomy s[i] r with h3 | h3 | h3
    · have := count_below hs hi h3; omega
    · exact h3
    · have := count_above hs hi h3; omega
  unfold npMedian
  simp only [hsd]
  split_ifs with hodd
  · exact mid _ (by omega) (by omega) (by omega)
  · rw [mid (l.length / 2 - 1) (by omega) (by omega) (by omega),
      mid (l.length / 2) (by omega) (by omega) (by omega)]
    ring

/-- The quotes of one common strike satisfy put-call parity with the rate `r`. -/
def RowParity (s0 t d r : ℝ) (row : ℝ × ℝ × ℝ) : Prop :=
  row.2.1 + row.1 * Real.exp (-(r * t)) + d = row.2.2 + s0

theorem rfRate_parity {s0 t d r : ℝ} (ht : t ≠ 0) {row : ℝ × ℝ × ℝ} (hk : 0 < row.1)
    (h : RowParity s0 t d r row) : rfRate s0 t d row = .ok (row.1, some r) := by
  unfold RowParity at h
  have hx : row.2.2 + s0 - row.2.1 - d = row.1 * Real.exp (-(r * t)) := by linarith
  unfold rfRate
  simp only [hx]
  have hpos : 0 < row.1 * Real.exp (-(r * t)) := mul_pos hk (Real.exp_pos _)
  have hq : row.1 * Real.exp (-(r * t)) / row.1 = Real.exp (-(r * t)) := by field_simp
  rw [if_neg (by push Not; exact ⟨hk.ne', ht, hpos.ne'⟩), hq, if_pos (Real.exp_pos _), Real.log_exp]
  congr 3
  field_simp

open Classical in
/-- C240.  If the quotes of more than half of the common strikes satisfy put-call parity with the same rate,
that rate is the median, however wrong the others are. -/
theorem C240_majority {calls puts : List (Option ℝ × Option ℝ)} {s0 t d r : ℝ} (ht : t ≠ 0)
    (hk : ∀ row ∈ callput calls puts, 0 < row.1)
    (hmaj : (callput calls puts).length <
      2 * ((callput calls puts).filter fun row => decide (RowParity s0 t d r row)).length)
    (m : Option ℝ) (rates : List (ℝ × Option ℝ))
    (h : impliedRiskFreeRate calls puts s0 t d = .ok (m, rates)) : m = some r := by
  unfold impliedRiskFreeRate at h
  rw [py_bind_eq_ok] at h
  obtain ⟨rs, h1, h2⟩ := h
  simp only [py_pure, Except.ok.injEq, Prod.mk.injEq] at h2
  obtain ⟨rfl, rfl⟩ := h2
  rw [mapM_eq_ok_iff] at h1
  generalize callput calls puts = rows at h1 hk hmaj
  have key : (rows.filter fun row => decide (RowParity s0 t d r row)).length ≤
      (rs.map Prod.snd).reduceOption.count r ∧ (rs.map Prod.snd).reduceOption.length ≤ rows.length := by
    clear hmaj
    induction h1 with
    | nil => simp
    | @cons row x rows' rs' hab _ ih =>
      obtain ⟨ih1, ih2⟩ := ih (fun row hr => hk row (List.mem_cons_of_mem _ hr))
      by_cases hpar : RowParity s0 t d r row
      · rw [rfRate_parity ht (hk row (by simp)) hpar] at hab
        cases hab
        rw [List.filter_cons_of_pos (by simpa using hpar), List.map_cons, List.reduceOption_cons_of_some]
        simp only [List.length_cons, List.count_cons_self]
        omega
      · rw [List.filter_cons_of_neg (by simpa using hpar), List.map_cons]
        cases hx : x.2 with
        | none => rw [List.reduceOption_cons_of_none]; simp only [List.length_cons]; omega
        | some v =>
          rw [List.reduceOption_cons_of_some]
          simp only [List.length_cons]
          have := List.count_le_count_cons (a := r) (b := v) (l := (rs'.map Prod.snd).reduceOption)
          omega
  have hcnt : (rs.map Prod.snd).reduceOption.length < 2 * (rs.map Prod.snd).reduceOption.count r := by omega
  unfold seriesMedian
  rw [if_neg (by intro h0; rw [h0] at hcnt; simp at hcnt), npMedian_majority _ r hcnt]

/-- C240.  The median lies between the smallest and the largest rate of the strikes. -/
theorem C240_range {calls puts : List (Option ℝ × Option ℝ)} {s0 t d lo hi x : ℝ}
    (rates : List (ℝ × Option ℝ)) (h : impliedRiskFreeRate calls puts s0 t d = .ok (some x, rates))
    (hb : ∀ p ∈ rates, ∀ v, p.2 = some v → lo ≤ v ∧ v ≤ hi) : lo ≤ x ∧ x ≤ hi := by
  unfold impliedRiskFreeRate at h
  rw [py_bind_eq_ok] at h
  obtain ⟨rs, h1, h2⟩ := h
  simp only [py_pure, Except.ok.injEq, Prod.mk.injEq] at h2
  obtain ⟨h3, rfl⟩ := h2
  unfold seriesMedian at h3
  split_ifs at h3 with hne
  simp only [Option.some.injEq] at h3
  subst h3
  have hall : ∀ v ∈ (rs.map Prod.snd).reduceOption, lo ≤ v ∧ v ≤ hi := by
    intro v hv
    rw [List.reduceOption_mem_iff] at hv
    obtain ⟨p, hp, he⟩ := List.mem_map.1 hv
    exact hb p hp v he
  generalize (rs.map Prod.snd).reduceOption = l at hall hne
  obtain ⟨s, hsd⟩ : ∃ s, l.insertionSort (· ≤ ·) = s := ⟨_, rfl⟩
  have hp : s.Perm l := hsd ▸ List.perm_insertionSort _ _
  have hlen : s.length = l.length := hp.length_eq
  have hpos : 0 < l.length := List.length_pos_iff.2 hne
  have mid : ∀ i, i < s.length → lo ≤ s.getD i 0 ∧ s.getD i 0 ≤ hi := by
    intro i hi'
    rw [List.getD_eq_getElem _ _ hi']
    exact hall _ (hp.mem_iff.1 (List.getElem_mem hi'))
  unfold npMedian
  simp only [hsd]
  split_ifs with hodd
  · exact mid _ (by omega)
  · obtain ⟨a1, a2⟩ := mid (l.length / 2 - 1) (by omega)
    obtain ⟨b1, b2⟩ := mid (l.length / 2) (by omega)
    constructor <;> linarith

/-- A case: three strikes at rate 0, of which the third is mispriced. -/
example : RowParity 100 1 0 0 (90, 12, 2) ∧ RowParity 100 1 0 0 (100, 5, 5) ∧
    ¬ RowParity 100 1 0 0 (110, 9, 10) := by
  unfold RowParity
  simp
  norm_num

end FinML.Options
