import Verif.FracDiff.Props
import Verif.FracDiff.AdfProps
import Mathlib.Analysis.PSeries

/-! # Property C248: differencing of an order between 0 and 1 -/

namespace FinML.FracDiff

variable {K : Type} [Field K] [LinearOrder K] [IsStrictOrderedRing K]

open Finset

/-! ## Specification -/

/-- The part of a constant level left after differencing with the lags `0 … i`. -/
def kept (d : K) (i : ℕ) : K := ∏ j ∈ range i, (1 - d / ((j : K) + 1))

/-! ## Lemmas -/

omit [LinearOrder K] [IsStrictOrderedRing K] in
theorem kept_succ (d : K) (i : ℕ) : kept d (i + 1) = kept d i * (1 - d / ((i : K) + 1)) := prod_range_succ _ _

theorem lagWeight_kept (d : K) (i : ℕ) : lagWeight d (i + 1) = -(d / ((i : K) + 1)) * kept d i := by
  induction i with
  | zero => rw [lagWeight_succ, lagWeight_zero]; simp [kept]
  | succ i ih =>
    have h1 : ((i : K) + 1) ≠ 0 := by positivity
    have h2 : ((i : K) + 1 + 1) ≠ 0 := by positivity
    rw [lagWeight_succ, ih, kept_succ]
    push_cast
    field_simp
    ring

theorem sum_lagWeight (d : K) (i : ℕ) : ∑ k ∈ range (i + 1), lagWeight d k = kept d i := by
  induction i with
  | zero => simp [kept, lagWeight_zero]
  | succ i ih =>
    rw [sum_range_succ, ih, lagWeight_kept, kept_succ]
    ring

theorem factor_pos {d : K} (h1 : d < 1) (j : ℕ) : 0 < 1 - d / ((j : K) + 1) := by
  have hj : (0 : K) ≤ j := Nat.cast_nonneg j
  have hp : (0 : K) < (j : K) + 1 := by positivity
  rw [sub_pos, div_lt_one hp]
  linarith

theorem kept_pos {d : K} (h1 : d < 1) (i : ℕ) : 0 < kept d i :=
  prod_pos fun j _ => factor_pos h1 j

theorem kept_succ_lt {d : K} (h0 : 0 < d) (h1 : d < 1) (i : ℕ) : kept d (i + 1) < kept d i := by
  rw [kept_succ]
  have hp : (0 : K) < (i : K) + 1 := by positivity
  have := mul_pos (kept_pos h1 i) (div_pos h0 hp)
  linarith [mul_sub (kept d i) 1 (d / ((i : K) + 1))]

theorem lagWeight_neg {d : K} (h0 : 0 < d) (h1 : d < 1) (k : ℕ) : lagWeight d (k + 1) < 0 := by
  rw [lagWeight_kept, neg_mul, neg_lt_zero]
  exact mul_pos (div_pos h0 (by positivity)) (kept_pos h1 k)

theorem kept_inv {d : K} (h0 : 0 < d) (h1 : d < 1) (i : ℕ) :
    kept d i * (1 + d * ∑ j ∈ range i, 1 / ((j : K) + 1)) ≤ 1 := by
  induction i with
  | zero => simp [kept]
  | succ i ih =>
    rw [kept_succ, sum_range_succ]
    set S := ∑ j ∈ range i, 1 / ((j : K) + 1) with hS
    have hS0 : 0 ≤ S := sum_nonneg fun j _ => by positivity
    have hp : (0 : K) < (i : K) + 1 := by positivity
    have hx : 0 < d / ((i : K) + 1) := div_pos h0 hp
    have e : d * (S + 1 / ((i : K) + 1)) = d * S + d / ((i : K) + 1) := by ring
    rw [e]
    set x := d / ((i : K) + 1)
    have hk := kept_pos h1 i
    have hf : 0 ≤ 1 - x := (factor_pos h1 i).le
    have h2 : (1 - x) * (1 + (d * S + x)) ≤ 1 + d * S := by
      nlinarith [mul_nonneg h0.le hS0, mul_nonneg hx.le (mul_nonneg h0.le hS0), mul_self_nonneg x]
    calc kept d i * (1 - x) * (1 + (d * S + x)) = kept d i * ((1 - x) * (1 + (d * S + x))) := by ring
      _ ≤ kept d i * (1 + d * S) := mul_le_mul_of_nonneg_left h2 hk.le
      _ ≤ 1 := ih

/-! ## The properties -/

/-- C248, weights: for an order between 0 and 1, lag 0 has weight 1, every other lag a negative weight, each
smaller in size than the one before, and together they never outweigh lag 0. -/
theorem C248_weights {d : K} (h0 : 0 < d) (h1 : d < 1) (n : ℕ) (hn : 1 ≤ n) :
    (getWeights d n)[n - 1]? = some 1 ∧
    (∀ k, 1 ≤ k → k < n → ∃ v v' : K, (getWeights d n)[n - 1 - k]? = some v ∧
      (getWeights d n)[n - 1 - (k - 1)]? = some v' ∧ v < 0 ∧ |v| < |v'|) ∧
    0 < (getWeights d n).sum := by
  have hw : ∀ k < n, (getWeights d n)[n - 1 - k]? = some (lagWeight d k) := (C65_weights d n hn).2
  refine ⟨by simpa [lagWeight_zero] using hw 0 hn, fun k hk hkn => ?_, ?_⟩
  · obtain ⟨j, rfl⟩ : ∃ j, k = j + 1 := ⟨k - 1, by omega⟩
    refine ⟨_, _, hw _ hkn, hw _ (by omega), lagWeight_neg h0 h1 j, ?_⟩
    rw [lagWeight_ratio, Nat.add_sub_cancel]
    have hj : (0 : K) ≤ j := Nat.cast_nonneg j
    have hne : 0 < |lagWeight d j| := by
      rw [abs_pos]
      cases j with
      | zero => rw [lagWeight_zero]; exact one_ne_zero
      | succ j => exact (lagWeight_neg h0 h1 j).ne
    refine mul_lt_of_lt_one_right hne ((div_lt_one (by positivity)).2 ?_)
    rw [abs_lt]
    constructor <;> linarith
  · obtain ⟨m, rfl⟩ : ∃ m, n = m + 1 := ⟨n - 1, by omega⟩
    rw [getWeights_eq, List.sum_reverse, show max 1 (m + 1) = m + 1 by omega]
    exact lt_of_lt_of_eq (kept_pos h1 m) (sum_lagWeight d m).symm

theorem diffAt_const (d c : K) (n i : ℕ) (hi : i < n) : diffAt d (List.replicate n c) i = c * kept d i := by
  unfold diffAt
  rw [← sum_lagWeight, mul_sum]
  refine sum_congr rfl fun k _ => ?_
  rw [List.getD_eq_getElem?_getD, List.getElem?_replicate, if_pos (by omega)]
  exact mul_comm _ _

/-- C248, expanding window: a constant level `c` becomes `c (1 - d)(1 - d/2)…(1 - d/i)` at observation `i`;
for a positive level and an order between 0 and 1 the values stay positive and fall all the time. -/
theorem C248_level (index : List ℤ) (hs : index.Pairwise (· < ·)) (nm : String) (c d : K) :
    ∃ y : List K, y.length = index.length ∧
      fracDiffExpanding (completeFrame index [(nm, List.replicate index.length c)]) d 1 =
        .ok (completeFrame index [(nm, y)]) ∧
      (∀ i < index.length, y[i]? = some (c * ∏ j ∈ range i, (1 - d / ((j : K) + 1)))) ∧
      (0 < c → 0 < d → d < 1 → (∀ v ∈ y, 0 < v) ∧ y.Pairwise (· > ·)) := by
  have hv : Valid index [(nm, List.replicate index.length c)] := ⟨hs, by simp, by simp⟩
  have hg : ∀ i < index.length, (differenced d (List.replicate index.length c))[i]? = some (c * kept d i) := by
    intro i hi
    rw [differenced, List.getElem?_map, List.length_replicate, List.getElem?_range hi, Option.map_some,
      diffAt_const _ _ _ _ hi]
  refine ⟨differenced d (List.replicate index.length c), by simp [differenced],
    C66_no_skip index _ hv d, hg, fun hc h0 h1 => ⟨fun v hm => ?_, ?_⟩⟩
  · obtain ⟨i, hi, rfl⟩ := List.mem_iff_getElem.1 hm
    have hi' : i < index.length := by simpa [differenced] using hi
    have := hg i hi'
    rw [List.getElem?_eq_getElem hi, Option.some.injEq] at this
    rw [this]
    exact mul_pos hc (kept_pos h1 i)
  · rw [List.pairwise_iff_getElem]
    intro i j hi hj hij
    have hi' : i < index.length := by simpa [differenced] using hi
    have hj' : j < index.length := by simpa [differenced] using hj
    have e1 := hg i hi'
    have e2 := hg j hj'
    rw [List.getElem?_eq_getElem hi, Option.some.injEq] at e1
    rw [List.getElem?_eq_getElem hj, Option.some.injEq] at e2
    rw [e1, e2]
    exact mul_lt_mul_of_pos_left (strictAnti_nat_of_succ_lt (kept_succ_lt h0 h1) hij) hc

/-- C248, the level fades: whatever share `ε`, from some observation on (the same for all series) less than
this share of a positive level is left. -/
theorem C248_fades {d : ℝ} (h0 : 0 < d) (h1 : d < 1) {ε : ℝ} (hε : 0 < ε) :
    ∃ N : ℕ, ∀ (index : List ℤ) (nm : String) (c : ℝ), index.Pairwise (· < ·) → 0 < c →
      ∃ y : List ℝ, fracDiffExpanding (completeFrame index [(nm, List.replicate index.length c)]) d 1 =
        .ok (completeFrame index [(nm, y)]) ∧ ∀ i v, N ≤ i → y[i]? = some v → 0 < v ∧ v < ε * c := by
  have ht := Real.tendsto_sum_range_one_div_nat_succ_atTop
  obtain ⟨N, hN⟩ := Filter.eventually_atTop.1 (ht.eventually_ge_atTop (1 / (d * ε)))
  refine ⟨N, fun index nm c hs hc => ?_⟩
  obtain ⟨y, hy, he, hval, -⟩ := C248_level index hs nm c d
  refine ⟨y, he, fun i v hi hv => ?_⟩
  obtain ⟨hl, -⟩ := List.getElem?_eq_some_iff.1 hv
  have e := hval i (by omega)
  rw [hv, Option.some.injEq] at e
  have hk : 0 < kept d i := kept_pos h1 i
  have hb := kept_inv h0 h1 i
  have hS := hN i hi
  set S := ∑ j ∈ range i, 1 / ((j : ℝ) + 1)
  have h3 : 1 ≤ d * ε * S := by
    rw [div_le_iff₀ (mul_pos h0 hε)] at hS
    linarith
  have h4 : kept d i < ε := by
    by_contra h
    push Not at h
    have hdS : 0 ≤ d * S := by
      by_contra hneg
      push Not at hneg
      nlinarith
    nlinarith
  rw [e]
  exact ⟨mul_pos hc hk, by rw [mul_comm]; exact mul_lt_mul_of_pos_right h4 hc⟩

/-- C248, fixed window: a constant level `c` becomes the constant `c (1 - d)(1 - d/2)…(1 - d/w)`, `w` being the
width; a positive level never becomes zero for an order between 0 and 1. -/
theorem C248_fixed (index : List ℤ) (hs : index.Pairwise (· < ·)) (nm : String) (c d thr : K) (w : ℕ)
    (hw : IsWidth d thr index.length w) :
    ∃ v : K, fracDiffFixed (completeFrame index [(nm, List.replicate index.length c)]) d thr =
        .ok (completeFrame (index.drop w) [(nm, List.replicate (index.length - w) v)]) ∧
      v = c * ∏ j ∈ range w, (1 - d / ((j : K) + 1)) ∧ (0 < c → 0 < d → d < 1 → 0 < v ∧ v ≤ c) := by
  have hv : Valid index [(nm, List.replicate index.length c)] := ⟨hs, by simp, by simp⟩
  obtain ⟨out, h1, h2⟩ := C68_values index _ hv d thr w hw
  refine ⟨c * kept d w, ?_, rfl, fun hc h0 hd => ⟨mul_pos hc (kept_pos hd w), ?_⟩⟩
  · cases h2 with
    | cons ho hr =>
      cases hr
      rename_i o
      obtain ⟨o1, o2⟩ := o
      obtain ⟨rfl, hl, hval⟩ := ho
      rw [h1]
      congr 4
      refine List.eq_replicate_iff.2 ⟨hl, fun b hb => ?_⟩
      obtain ⟨i, hi, rfl⟩ := List.mem_iff_getElem.1 hb
      have hi' : i < o2.length := hi
      have hl' : o2.length = index.length - w := hl
      have := hval (i + w) (by omega) (by omega)
      rw [Nat.add_sub_cancel, List.getElem?_eq_getElem hi, Option.some.injEq] at this
      rw [this, ← sum_lagWeight, mul_sum]
      refine sum_congr rfl fun k hk => ?_
      rw [mem_range] at hk
      rw [List.getD_eq_getElem?_getD, List.getElem?_replicate, if_pos (by omega)]
      exact mul_comm _ _
  · refine mul_le_of_le_one_right hc.le ?_
    refine prod_le_one (fun j _ => (factor_pos hd j).le) fun j _ => ?_
    have : 0 ≤ d / ((j : K) + 1) := div_nonneg h0.le (by positivity)
    linarith

theorem diffAt_bounds {d : K} (h0 : 0 < d) (h1 : d < 1) {x : List K} {M : K} (hx : ∀ v ∈ x, 0 ≤ v ∧ v ≤ M)
    (hM : 0 ≤ M) (i : ℕ) :
    x.getD i 0 - M * (1 - kept d i) ≤ diffAt d x i ∧ diffAt d x i ≤ x.getD i 0 := by
  have hb : ∀ j, 0 ≤ x.getD j 0 ∧ x.getD j 0 ≤ M := by
    intro j
    rw [List.getD_eq_getElem?_getD]
    rcases h : x[j]? with _ | v
    · exact ⟨le_rfl, hM⟩
    · exact hx v (List.mem_of_getElem? h)
  have e : diffAt d x i = x.getD i 0 + ∑ k ∈ range i, lagWeight d (k + 1) * x.getD (i - (k + 1)) 0 := by
    unfold diffAt
    rw [sum_range_succ']
    simp only [lagWeight_zero, one_mul, Nat.sub_zero]
    ring
  have e2 : kept d i = 1 + ∑ k ∈ range i, lagWeight d (k + 1) := by
    rw [← sum_lagWeight, sum_range_succ', lagWeight_zero]
    ring
  constructor
  · have : ∑ k ∈ range i, lagWeight d (k + 1) * M ≤
        ∑ k ∈ range i, lagWeight d (k + 1) * x.getD (i - (k + 1)) 0 :=
      sum_le_sum fun k _ => mul_le_mul_of_nonpos_left (hb _).2 (lagWeight_neg h0 h1 k).le
    rw [← sum_mul] at this
    rw [e, e2]
    linarith
  · have : ∑ k ∈ range i, lagWeight d (k + 1) * x.getD (i - (k + 1)) 0 ≤ 0 :=
      sum_nonpos fun k _ => mul_nonpos_of_nonpos_of_nonneg (lagWeight_neg h0 h1 k).le (hb _).1
    rw [e]
    linarith

/-- C248, any series: for values between 0 and `M`, each differenced value lies below the observation, and by at
most `M` less the part of the level that is kept. -/
theorem C248_bounds (index : List ℤ) (hs : index.Pairwise (· < ·)) (nm : String) {x : List K} {d M : K}
    (hl : x.length = index.length) (h0 : 0 < d) (h1 : d < 1) (hx : ∀ v ∈ x, 0 ≤ v ∧ v ≤ M) :
    ∃ y : List K, fracDiffExpanding (completeFrame index [(nm, x)]) d 1 = .ok (completeFrame index [(nm, y)]) ∧
      ∀ i u, x[i]? = some u → ∃ v, y[i]? = some v ∧ v ≤ u ∧
        u - M * (1 - ∏ j ∈ range i, (1 - d / ((j : K) + 1))) ≤ v := by
  have hv : Valid index [(nm, x)] := ⟨hs, by simp, by simpa using hl⟩
  refine ⟨differenced d x, C66_no_skip index _ hv d, fun i u hu => ?_⟩
  obtain ⟨hi, -⟩ := List.getElem?_eq_some_iff.1 hu
  have hm := hx u (List.mem_of_getElem? hu)
  have := diffAt_bounds h0 h1 hx (hm.1.trans hm.2) i
  rw [List.getD_eq_getElem?_getD, hu, Option.getD_some] at this
  refine ⟨diffAt d x i, ?_, this.2, this.1⟩
  rw [differenced, List.getElem?_map, List.getElem?_range hi, Option.map_some]

/-- A level of 8 differenced with order 1/2. -/
example : fracDiffExpanding (completeFrame [1, 2, 3] [("a", [(8 : ℚ), 8, 8])]) (1 / 2) 1 =
      .ok (completeFrame [1, 2, 3] [("a", [8, 4, 3])]) ∧
    fracDiffFixed (completeFrame [1, 2, 3] [("a", [(8 : ℚ), 8, 8])]) (1 / 2) (1 / 4) =
      .ok (completeFrame [2, 3] [("a", [4, 4])]) ∧ getWeights (1 / 2 : ℚ) 3 = [-1 / 8, -1 / 2, 1] := by
  decide +kernel

end FinML.FracDiff
