import Verif.FracDiff.LevelProps

/-! # Property C334: what a fixed window leaves out -/

namespace FinML.FracDiff

variable {K : Type} [Field K] [LinearOrder K] [IsStrictOrderedRing K]

open Finset

omit [LinearOrder K] [IsStrictOrderedRing K] in
/-- What the lags after `w` contribute. -/
theorem left_out (d : K) (x : List K) (w i : ℕ) (h : w ≤ i) :
    diffAt d x i - ∑ k ∈ range (w + 1), lagWeight d k * x.getD (i - k) 0 =
      ∑ k ∈ Ico (w + 1) (i + 1), lagWeight d k * x.getD (i - k) 0 := by
  unfold diffAt
  rw [← sum_range_add_sum_Ico _ (show w + 1 ≤ i + 1 by omega)]
  ring

theorem left_out_weights (d : K) (w i : ℕ) (h : w ≤ i) :
    ∑ k ∈ Ico (w + 1) (i + 1), -lagWeight d k = kept d w - kept d i := by
  rw [sum_neg_distrib, ← sum_lagWeight, ← sum_lagWeight,
    ← sum_range_add_sum_Ico _ (show w + 1 ≤ i + 1 by omega)]
  ring

/-- C334.  For an order between 0 and 1 and a series within `±M`, each value of `frac_diff_fixed` differs from
that of `frac_diff_expanding` by at most `M` times what the two leave of a constant level, hence by at most
`M·threshold·(width + 1)/order`; for a series without negative values it is never the smaller one. -/
theorem C334_error (index : List ℤ) (hs : index.Pairwise (· < ·)) (nm : String) (x : List K)
    (hlen : x.length = index.length) (d thr M : K) (h0 : 0 < d) (h1 : d < 1) (hthr : 0 ≤ thr)
    (hx : ∀ v ∈ x, |v| ≤ M) (w : ℕ) (hw : IsWidth d thr index.length w) :
    ∃ y z, fracDiffExpanding (completeFrame index [(nm, x)]) d 1 = .ok (completeFrame index [(nm, y)]) ∧
      fracDiffFixed (completeFrame index [(nm, x)]) d thr = .ok (completeFrame (index.drop w) [(nm, z)]) ∧
      ∀ i, w ≤ i → i < index.length → ∃ a b, y[i]? = some a ∧ z[i - w]? = some b ∧
        |b - a| ≤ M * (∏ j ∈ range w, (1 - d / ((j : K) + 1)) - ∏ j ∈ range i, (1 - d / ((j : K) + 1))) ∧
        d * |b - a| ≤ M * (thr * ((w : K) + 1)) ∧ ((∀ v ∈ x, 0 ≤ v) → a ≤ b) := by
  have hv : Valid index [(nm, x)] := ⟨hs, by simp, by simpa using hlen⟩
  obtain ⟨out, hf, hall⟩ := C68_values index _ hv d thr w hw
  cases hall with
  | cons ho hr =>
    cases hr
    rename_i o
    obtain ⟨nm', z⟩ := o
    obtain ⟨rfl, hl, hval⟩ := ho
    refine ⟨differenced d x, z, C66_no_skip index _ hv d, hf, fun i hwi hi => ?_⟩
    have ha : (differenced d x)[i]? = some (diffAt d x i) := by
      rw [differenced, List.getElem?_map, List.getElem?_range (by omega), Option.map_some]
    refine ⟨_, _, ha, hval i hwi hi, ?_⟩
    simp only
    have hM : 0 ≤ M := by
      have : x ≠ [] := by
        rintro rfl
        simp at hlen
        omega
      obtain ⟨v, hv⟩ := List.exists_mem_of_ne_nil x this
      exact (abs_nonneg v).trans (hx v hv)
    have hb : ∀ j, |x.getD j 0| ≤ M := by
      intro j
      rw [List.getD_eq_getElem?_getD]
      rcases h : x[j]? with _ | v
      · simpa using hM
      · exact hx v (List.mem_of_getElem? h)
    have hneg : ∀ k ∈ Ico (w + 1) (i + 1), lagWeight d k < 0 := by
      intro k hk
      obtain ⟨j, rfl⟩ : ∃ j, k = j + 1 := ⟨k - 1, by rw [mem_Ico] at hk; omega⟩
      exact lagWeight_neg h0 h1 j
    have e := left_out d x w i hwi
    have hbound : |(∑ k ∈ range (w + 1), lagWeight d k * x.getD (i - k) 0) - diffAt d x i| ≤
        M * (kept d w - kept d i) := by
      rw [abs_sub_comm, e, ← left_out_weights d w i hwi, mul_sum]
      refine (abs_sum_le_sum_abs _ _).trans (sum_le_sum fun k hk => ?_)
      rw [abs_mul, abs_of_neg (hneg k hk), mul_comm]
      exact mul_le_mul_of_nonneg_right (hb _) (neg_nonneg.2 (hneg k hk).le)
    refine ⟨hbound, ?_, fun hpos => ?_⟩
    · have hp : (0 : K) < (w : K) + 1 := by positivity
      have hkey : d * (kept d w - kept d i) ≤ thr * ((w : K) + 1) := by
        rcases Nat.lt_or_ge (w + 1) index.length with hn | hn
        · have hcut : |lagWeight d (w + 1)| < thr := hw.2.2 hn
          rw [lagWeight_kept, abs_mul, abs_neg, abs_of_pos (div_pos h0 hp), abs_of_pos (kept_pos h1 w)] at hcut
          have h3 : d * kept d w < thr * ((w : K) + 1) := by
            have := mul_lt_mul_of_pos_right hcut hp
            rwa [div_mul_eq_mul_div, div_mul_cancel₀ _ hp.ne'] at this
          have h4 := mul_pos h0 (kept_pos h1 i)
          linarith
        · have : i = w := by omega
          rw [this, sub_self, mul_zero]
          exact mul_nonneg hthr hp.le
      calc d * |(∑ k ∈ range (w + 1), lagWeight d k * x.getD (i - k) 0) - diffAt d x i|
          ≤ d * (M * (kept d w - kept d i)) := mul_le_mul_of_nonneg_left hbound h0.le
        _ = M * (d * (kept d w - kept d i)) := by ring
        _ ≤ M * (thr * ((w : K) + 1)) := mul_le_mul_of_nonneg_left hkey hM
    · have hp : ∀ j, 0 ≤ x.getD j 0 := by
        intro j
        rw [List.getD_eq_getElem?_getD]
        rcases h : x[j]? with _ | v
        · simp
        · exact hpos v (List.mem_of_getElem? h)
      have : ∑ k ∈ Ico (w + 1) (i + 1), lagWeight d k * x.getD (i - k) 0 ≤ 0 :=
        sum_nonpos fun k hk => mul_nonpos_of_nonpos_of_nonneg (hneg k hk).le (hp _)
      linarith

/-- C334.  The bound is met by a constant series. -/
theorem C334_sharp (index : List ℤ) (hs : index.Pairwise (· < ·)) (nm : String) (c d thr : K)
    (w : ℕ) (hw : IsWidth d thr index.length w) :
    ∃ y z, fracDiffExpanding (completeFrame index [(nm, List.replicate index.length c)]) d 1 =
        .ok (completeFrame index [(nm, y)]) ∧
      fracDiffFixed (completeFrame index [(nm, List.replicate index.length c)]) d thr =
        .ok (completeFrame (index.drop w) [(nm, z)]) ∧
      ∀ i, w ≤ i → i < index.length → ∃ a b, y[i]? = some a ∧ z[i - w]? = some b ∧
        b - a = c * (∏ j ∈ range w, (1 - d / ((j : K) + 1)) - ∏ j ∈ range i, (1 - d / ((j : K) + 1))) := by
  obtain ⟨y, hy, he, hval, -⟩ := C248_level index hs nm c d
  obtain ⟨v, hf, hv, -⟩ := C248_fixed index hs nm c d thr w hw
  refine ⟨y, _, he, hf, fun i hwi hi => ⟨_, v, hval i hi, ?_, ?_⟩⟩
  · rw [List.getElem?_replicate, if_pos (by omega)]
  · rw [hv]
    ring

/-- The hypotheses hold: order 1/2, threshold 1/4, three observations, width 1. -/
example : IsWidth (1 / 2 : ℚ) (1 / 4) [1, 3, 4].length 1 ∧
    fracDiffExpanding (completeFrame [1, 3, 4] [("a", [(2 : ℚ), 5, 4])]) (1 / 2) 1 =
      .ok (completeFrame [1, 3, 4] [("a", [2, 4, 5 / 4])]) ∧
    fracDiffFixed (completeFrame [1, 3, 4] [("a", [(2 : ℚ), 5, 4])]) (1 / 2) (1 / 4) =
      .ok (completeFrame [3, 4] [("a", [4, 3 / 2])]) := by
  refine ⟨?_, by decide +kernel, by decide +kernel⟩
  obtain ⟨w, ⟨h1, h2⟩, -⟩ := C68_weights (1 / 2 : ℚ) (1 / 4) 3
  have h3 : (getWeightsFixed (1 / 2 : ℚ) (1 / 4) 3).length = 2 := by decide +kernel
  rw [h2] at h3
  simp at h3
  subst h3
  exact h1

end FinML.FracDiff
