import Verif.Micro.Model
import Mathlib.Tactic.FieldSimp
import Mathlib.Tactic.NormNum
import Mathlib.Tactic.Positivity
import Mathlib.Tactic.Linarith

/-! # Properties C59-C61 and C135: Roll spread, high-low volatility and Corwin-Schultz estimates -/

set_option linter.unusedSectionVars false

namespace FinML.Micro

/-! ## C59 -/

/-- C59, full claim: spread and noise variance are non-negative. -/
def RollNonneg : Prop := ∀ prices : List ℝ, 4 ≤ prices.length →
  0 ≤ (rollSpread prices).1 ∧ ∀ v, (rollSpread prices).2 = some v → 0 ≤ v

/-- C59, counterexample: a price bouncing between bid and ask. -/
theorem C59_nonneg_counterexample : ¬ RollNonneg := by
  intro h
  have h1 : (rollSpread [0, 1, 0, 1, 0]).2 = some (-5 / 3) := by
    simp only [rollSpread, diff1, npVar, npCov, mean, List.tail_cons, List.zipWith_cons_cons,
      List.zipWith_nil_left, List.dropLast_cons_cons, List.dropLast_singleton, List.length_cons,
      List.length_nil, List.map_cons, List.map_nil, List.sum_cons, List.sum_nil, reduceCtorEq, if_false]
    norm_num
  have := (h [0, 1, 0, 1, 0] (by simp)).2 _ h1
  norm_num at this

theorem diff1_length (l : List ℝ) : (diff1 l).length = l.length - 1 := by
  simp [diff1]

theorem diff1_getD (l : List ℝ) (i : ℕ) (h : i + 1 < l.length) :
    (diff1 l)[i]? = some (l.getD (i + 1) 0 - l.getD i 0) := by
  unfold diff1
  rw [List.getElem?_zipWith, List.getElem?_tail, List.getElem?_eq_getElem h,
    List.getElem?_eq_getElem (by omega)]
  simp [List.getD_eq_getElem?_getD, h, show i < l.length by omega]

theorem list_eq_range (l : List ℝ) (n : ℕ) (f : ℕ → ℝ) (hn : l.length = n)
    (hf : ∀ i < n, l[i]? = some (f i)) : l = (List.range n).map f := by
  apply List.ext_getElem?
  intro i
  by_cases hi : i < n
  · rw [hf i hi, List.getElem?_map, List.getElem?_range hi]; rfl
  · rw [List.getElem?_eq_none (by omega), List.getElem?_eq_none (by simp; omega)]

/-- C59, what holds: the spread is non-negative and is `2√max(0,-cov)` for the sample covariance of
consecutive price changes, the variance is `var + 2 cov` (missing: the sign of the variance, which is
false). -/
theorem C59_nonneg_partial (prices : List ℝ) (n : ℕ) (hn : prices.length = n + 3) (h1 : 1 ≤ n)
    (d : ℕ → ℝ) (hd : ∀ i, d i = prices.getD (i + 1) 0 - prices.getD i 0)
    (m m1 m2 var cov : ℝ)
    (hm : m * ((n : ℝ) + 2) = ∑ i ∈ Finset.range (n + 2), d i)
    (hm1 : m1 * ((n : ℝ) + 1) = ∑ i ∈ Finset.range (n + 1), d i)
    (hm2 : m2 * ((n : ℝ) + 1) = ∑ i ∈ Finset.range (n + 1), d (i + 1))
    (hvar : var * ((n : ℝ) + 2) = ∑ i ∈ Finset.range (n + 2), (d i - m) ^ 2)
    (hcov : cov * (n : ℝ) = ∑ i ∈ Finset.range (n + 1), (d i - m1) * (d (i + 1) - m2)) :
    0 ≤ (rollSpread prices).1 ∧ (rollSpread prices).1 ^ 2 = 4 * max 0 (-cov) ∧
    (rollSpread prices).2 = some (var + 2 * cov) := by
  have hn0 : (0 : ℝ) < n := by exact_mod_cast h1
  have hdp : diff1 prices = (List.range (n + 2)).map d := by
    apply list_eq_range _ _ _ (by rw [diff1_length, hn]; omega)
    intro i hi
    rw [diff1_getD _ _ (by omega), hd]
  have hdrop : (diff1 prices).dropLast = (List.range (n + 1)).map d := by
    rw [hdp, List.range_succ, List.map_append, List.map_singleton, List.dropLast_concat]
  have htail : (diff1 prices).tail = (List.range (n + 1)).map fun i : ℕ => d (i + 1) := by
    rw [hdp, List.range_succ_eq_map, List.map_cons, List.tail_cons, List.map_map]
    rfl
  have hvar' : npVar (diff1 prices) = some var := by
    unfold npVar mean
    rw [hdp, if_neg (by simp), List.map_map, List.length_map, List.length_range,
      list_range_map_sum (n + 2) d]
    have e1 : (∑ j ∈ Finset.range (n + 2), d j) / ((n + 2 : ℕ) : ℝ) = m := by
      rw [← hm]; push_cast; field_simp
    rw [e1, list_range_map_sum]
    congr 1
    simp only [Function.comp_def]
    rw [← hvar]; push_cast; field_simp
  have hcov' : npCov (diff1 prices).dropLast (diff1 prices).tail = some cov := by
    unfold npCov mean
    rw [hdrop, htail, if_neg (by simp; omega)]
    rw [List.length_map, List.length_map, List.length_range, list_range_map_sum, list_range_map_sum]
    have e1 : (∑ j ∈ Finset.range (n + 1), d j) / ((n + 1 : ℕ) : ℝ) = m1 := by
      rw [← hm1]; push_cast; field_simp
    have e2 : (∑ j ∈ Finset.range (n + 1), d (j + 1)) / ((n + 1 : ℕ) : ℝ) = m2 := by
      rw [← hm2]; push_cast; field_simp
    rw [e1, e2, List.zipWith_map, List.zipWith_self, list_range_map_sum, ← hcov]
    congr 1
    push_cast
    rw [add_sub_cancel_right]
    field_simp
  have hres : rollSpread prices = (Real.sqrt (max 0 (-cov)) * 2, some (var + 2 * cov)) := by
    unfold rollSpread
    simp only
    rw [hvar', hcov']
    rfl
  rw [hres]
  refine ⟨by positivity, ?_, rfl⟩
  rw [mul_pow, Real.sq_sqrt (le_max_left _ _)]
  ring

/-- C59, short inputs: fewer than four prices give fewer than two pairs of changes; the spread is then 0
and the variance is not a number. -/
theorem C59_short (prices : List ℝ) (h : prices.length < 4) : rollSpread prices = (0, none) := by
  have hc : npCov (diff1 prices).dropLast (diff1 prices).tail = none := by
    unfold npCov
    rw [if_pos (by rw [List.length_dropLast, diff1_length]; omega)]
  unfold rollSpread
  simp only
  rw [hc]
  simp

example : rollSpread [3, 5, 4] = (0, none) := C59_short _ (by simp)

example : (rollSpread [0, 1, 0, 1, 0]).1 ^ 2 = 16 / 3 := by
  have h := C59_nonneg_partial [0, 1, 0, 1, 0] 2 rfl (by norm_num)
    (fun i => [0, 1, 0, 1, 0].getD (i + 1) 0 - [0, 1, 0, 1, 0].getD i 0) (fun _ => rfl) 0 (1 / 3) (-1 / 3) 1
    (-4 / 3) (by norm_num [Finset.sum_range_succ]) (by norm_num [Finset.sum_range_succ])
    (by norm_num [Finset.sum_range_succ]) (by norm_num [Finset.sum_range_succ])
    (by norm_num [Finset.sum_range_succ])
  rw [h.2.1]
  norm_num

/-! ## C60 -/

/-- Positive high and low. -/
def Pos (bars : List HL) : Prop := ∀ b ∈ bars, 0 < b.high ∧ 0 < b.low

/-- Multiply all prices by `c`. -/
noncomputable def scale (c : ℝ) (b : HL) : HL := ⟨c * b.high, c * b.low⟩

noncomputable def hiAt (bars : List HL) (i : ℕ) : ℝ := (bars.map HL.high).getD i 1

noncomputable def loAt (bars : List HL) (i : ℕ) : ℝ := (bars.map HL.low).getD i 1

theorem hiAt_pos (bars : List HL) (h : Pos bars) (i : ℕ) : 0 < hiAt bars i := by
  unfold hiAt
  rw [List.getD_eq_getElem?_getD, List.getElem?_map]
  cases hb : bars[i]? with
  | none => simp
  | some b => simpa using (h b (List.mem_of_getElem? hb)).1

theorem loAt_pos (bars : List HL) (h : Pos bars) (i : ℕ) : 0 < loAt bars i := by
  unfold loAt
  rw [List.getD_eq_getElem?_getD, List.getElem?_map]
  cases hb : bars[i]? with
  | none => simp
  | some b => simpa using (h b (List.mem_of_getElem? hb)).2

/-- Squared log range of bar `i`. -/
noncomputable def rangeSq (bars : List HL) (i : ℕ) : ℝ := (Real.log (hiAt bars i / loAt bars i)) ^ 2

theorem bars_at (bars : List HL) (i : ℕ) (hi : i < bars.length) :
    bars[i]? = some ⟨hiAt bars i, loAt bars i⟩ := by
  rw [List.getElem?_eq_getElem hi]
  simp [hiAt, loAt, List.getD_eq_getElem?_getD, hi]

theorem has_hlSq (bars : List HL) (h : Pos bars) : Has (bars.map hlSq) bars.length 0 (rangeSq bars) := by
  refine ⟨by simp, ?_⟩
  intro i hi
  have h1 := hiAt_pos bars h i
  have h2 := loAt_pos bars h i
  rw [List.getElem?_map, bars_at bars i hi, Option.map_some]
  simp only [hlSq, logO, h1, h2, if_true, Option.bind_some, Option.map_some, Nat.not_lt_zero, if_false,
    rangeSq]
  rw [Real.log_div h1.ne' h2.ne']

theorem has_ratioSq (bars : List HL) (h : Pos bars) :
    Has (bars.map fun b => hlRatioSq b.high b.low) bars.length 0 (rangeSq bars) := by
  refine ⟨by simp, ?_⟩
  intro i hi
  have h1 := hiAt_pos bars h i
  have h2 := loAt_pos bars h i
  rw [List.getElem?_map, bars_at bars i hi, Option.map_some]
  simp only [hlRatioSq, fdiv, h2.ne', if_false, Option.bind_some, logO, div_pos h1 h2, if_true,
    Option.map_some, Nat.not_lt_zero, rangeSq]

theorem meanW_map (w : ℕ) (g : ℕ → ℝ) :
    meanW w ((List.range w).map g) = (∑ j ∈ Finset.range w, g j) / (w : ℝ) := by
  unfold meanW
  rw [list_range_map_sum]

/-- C60, value.  The first `window - 1` values are missing; elsewhere the square of the volatility
times `4 log 2` is the mean squared log range of the window. -/
theorem C60_value (bars : List HL) (h : Pos bars) (w : ℕ) (hw : 1 ≤ w) :
    ∃ f : ℕ → ℝ, Has (highLowVol bars w) bars.length (w - 1) f ∧ ∀ i, 0 ≤ f i ∧
      f i ^ 2 * (4 * Real.log 2) * (w : ℝ) =
        ∑ j ∈ Finset.range w, Real.log (hiAt bars (i + 1 - w + j) / loAt bars (i + 1 - w + j)) ^ 2 := by
  have hlog : 0 < Real.log 2 := Real.log_pos (by norm_num)
  have hw0 : (0 : ℝ) < w := by exact_mod_cast hw
  have h1 := has_map (has_rolling (has_hlSq bars h) w hw (meanW w))
    (fun m => Real.sqrt (m / (4 * Real.log 2)))
  rw [Nat.zero_add] at h1
  refine ⟨_, h1, ?_⟩
  intro i
  refine ⟨Real.sqrt_nonneg _, ?_⟩
  simp only [meanW_map]
  rw [Real.sq_sqrt]
  · unfold rangeSq
    field_simp
  · apply div_nonneg
    · apply div_nonneg _ hw0.le
      exact Finset.sum_nonneg fun j _ => by unfold rangeSq; positivity
    · positivity

/-- C60.  The volatility is non-negative, and 0 exactly if high equals low throughout the window. -/
theorem C60_zero (bars : List HL) (h : Pos bars) (w : ℕ) (hw : 1 ≤ w) (i : ℕ) (v : ℝ)
    (hv : (highLowVol bars w)[i]? = some (some v)) :
    0 ≤ v ∧ (v = 0 ↔ ∀ j < w, hiAt bars (i + 1 - w + j) = loAt bars (i + 1 - w + j)) := by
  have hlog : 0 < Real.log 2 := Real.log_pos (by norm_num)
  have hw0 : (0 : ℝ) < w := by exact_mod_cast hw
  obtain ⟨f, h1, h2⟩ := C60_value bars h w hw
  obtain ⟨-, -, rfl⟩ := (has_getElem h1 i v).1 hv
  obtain ⟨h3, h4⟩ := h2 i
  refine ⟨h3, ?_⟩
  have hz : f i = 0 ↔ ∑ j ∈ Finset.range w,
      Real.log (hiAt bars (i + 1 - w + j) / loAt bars (i + 1 - w + j)) ^ 2 = 0 := by
    rw [← h4]
    constructor
    · intro h; rw [h]; ring
    · intro h
      have : f i ^ 2 * ((4 * Real.log 2) * (w : ℝ)) = 0 := by rw [← mul_assoc]; exact h
      rcases mul_eq_zero.1 this with h5 | h5
      · exact pow_eq_zero_iff two_ne_zero |>.1 h5
      · exfalso; have : (0 : ℝ) < 4 * Real.log 2 * w := by positivity
        linarith
  rw [hz, Finset.sum_eq_zero_iff_of_nonneg (fun j _ => by positivity)]
  have hpt : ∀ p, Real.log (hiAt bars p / loAt bars p) ^ 2 = 0 ↔ hiAt bars p = loAt bars p := by
    intro p
    have hp1 := hiAt_pos bars h p
    have hp2 := loAt_pos bars h p
    rw [pow_eq_zero_iff two_ne_zero, Real.log_eq_zero]
    constructor
    · rintro (h5 | h5 | h5)
      · rw [div_eq_zero_iff] at h5; rcases h5 with h5 | h5 <;> linarith
      · rwa [div_eq_one_iff_eq hp2.ne'] at h5
      · have := div_pos hp1 hp2; linarith
    · intro h5; right; left; rw [h5]; exact div_self hp2.ne'
  constructor
  · intro h5 j hj
    exact (hpt _).1 (h5 j (Finset.mem_range.2 hj))
  · intro h5 j hj
    exact (hpt _).2 (h5 j (Finset.mem_range.1 hj))

theorem scale_pos (c : ℝ) (hc : 0 < c) (bars : List HL) (h : Pos bars) : Pos (bars.map (scale c)) := by
  intro b hb
  obtain ⟨b', hb', rfl⟩ := List.mem_map.1 hb
  have := h b' hb'
  exact ⟨mul_pos hc this.1, mul_pos hc this.2⟩

theorem hiAt_scale (c : ℝ) (bars : List HL) (i : ℕ) (hi : i < bars.length) :
    hiAt (bars.map (scale c)) i = c * hiAt bars i := by
  simp [hiAt, List.getD_eq_getElem?_getD, hi, scale]

theorem loAt_scale (c : ℝ) (bars : List HL) (i : ℕ) (hi : i < bars.length) :
    loAt (bars.map (scale c)) i = c * loAt bars i := by
  simp [loAt, List.getD_eq_getElem?_getD, hi, scale]

theorem ratioSq_scale (c : ℝ) (hc : 0 < c) (h l : ℝ) : hlRatioSq (c * h) (c * l) = hlRatioSq h l := by
  unfold hlRatioSq fdiv
  by_cases hl : l = 0
  · simp [hl]
  · rw [if_neg (mul_ne_zero hc.ne' hl), if_neg hl, mul_div_mul_left _ _ hc.ne']

/-- C60.  Multiplying all prices by a positive number changes nothing. -/
theorem C60_scale (bars : List HL) (h : Pos bars) (w : ℕ) (c : ℝ) (hc : 0 < c) :
    highLowVol (bars.map (scale c)) w = highLowVol bars w := by
  unfold highLowVol
  congr 2
  rw [List.map_map]
  apply List.map_congr_left
  intro b hb
  obtain ⟨h1, h2⟩ := h b hb
  simp only [Function.comp_apply, hlSq, scale, logO, h1, h2, mul_pos hc h1, mul_pos hc h2, if_true,
    Option.bind_some, Option.map_some]
  rw [Real.log_mul hc.ne' h1.ne', Real.log_mul hc.ne' h2.ne']
  congr 2
  ring

example : Pos [⟨2, 1⟩, ⟨3, 3⟩] := by
  intro b hb
  simp only [List.mem_cons, List.not_mem_nil, or_false] at hb
  rcases hb with rfl | rfl <;> norm_num

/-! ## C61 -/

theorem rpow_half (x : ℝ) : x ^ (0.5 : ℝ) = Real.sqrt x := by
  rw [Real.sqrt_eq_rpow]; norm_num

theorem clip_nonneg (x : ℝ) : 0 ≤ clip x := by
  unfold clip
  split
  · exact le_rfl
  · exact not_lt.1 ‹_›

theorem spreadOf_range (a : ℝ) (ha : 0 ≤ a) : 0 ≤ spreadOf a ∧ spreadOf a < 2 := by
  unfold spreadOf
  have h1 : 1 ≤ Real.exp a := Real.one_le_exp ha
  constructor
  · apply div_nonneg <;> linarith
  · rw [div_lt_iff₀ (by linarith)]
    linarith

theorem maxL_pair (a b : ℝ) : maxL [a, b] = max a b := rfl

theorem minL_pair (a b : ℝ) : minL [a, b] = min a b := rfl

/-- Squared log range of bars `i-1` and `i` together. -/
noncomputable def rangeSq2 (bars : List HL) (i : ℕ) : ℝ :=
  Real.log (max (hiAt bars (i - 1)) (hiAt bars i) / min (loAt bars (i - 1)) (loAt bars i)) ^ 2

theorem has_gamma (bars : List HL) (h : Pos bars) : Has (gamma bars) bars.length 1 (rangeSq2 bars) := by
  have hh : Has (bars.map fun b => some b.high) bars.length 0 (hiAt bars) := by
    refine ⟨by simp, ?_⟩
    intro i hi
    rw [List.getElem?_map, bars_at bars i hi]
    simp
  have hl : Has (bars.map fun b => some b.low) bars.length 0 (loAt bars) := by
    refine ⟨by simp, ?_⟩
    intro i hi
    rw [List.getElem?_map, bars_at bars i hi]
    simp
  have h1 := has_rolling hh 2 (by norm_num) maxL
  have h2 := has_rolling hl 2 (by norm_num) minL
  refine ⟨by simp [gamma, h1.1, h2.1], ?_⟩
  intro i hi
  unfold gamma
  simp only
  rw [List.getElem?_zipWith, h1.2 i hi, h2.2 i hi]
  by_cases hi1 : i < 1
  · simp [hi1]
  · have e : List.range 2 = [0, 1] := rfl
    simp only [Nat.zero_add, show (2 - 1 : ℕ) = 1 from rfl, hi1, if_false, Option.bind_some, e,
      List.map_cons, List.map_nil, maxL_pair, minL_pair]
    have e1 : i + 1 - 2 + 0 = i - 1 := by omega
    have e2 : i + 1 - 2 + 1 = i := by omega
    rw [e1, e2]
    have p1 : 0 < max (hiAt bars (i - 1)) (hiAt bars i) := lt_max_of_lt_left (hiAt_pos bars h _)
    have p2 : 0 < min (loAt bars (i - 1)) (loAt bars i) := lt_min (loAt_pos bars h _) (loAt_pos bars h _)
    simp only [hlRatioSq, fdiv, p2.ne', if_false, Option.bind_some, logO, div_pos p1 p2, if_true,
      Option.map_some, rangeSq2]

/-- Mean over the window of the two-bar sums of squared log ranges. -/
noncomputable def betaAt (bars : List HL) (w i : ℕ) : ℝ :=
  (∑ j ∈ Finset.range w, (rangeSq bars (i - w + j) + rangeSq bars (i + 1 - w + j))) / (w : ℝ)

theorem has_beta (bars : List HL) (h : Pos bars) (w : ℕ) (hw : 1 ≤ w) :
    Has (beta bars w) bars.length w (betaAt bars w) := by
  have h1 := has_rolling (has_ratioSq bars h) 2 (by norm_num) List.sum
  have h2 := has_rolling h1 w hw (meanW w)
  rw [show 0 + 2 - 1 + w - 1 = w by omega] at h2
  refine has_congr h2 ?_
  intro i hi hlo
  rw [meanW_map]
  unfold betaAt
  congr 1
  refine Finset.sum_congr rfl ?_
  intro j hj
  rw [Finset.mem_range] at hj
  have e : List.range 2 = [0, 1] := rfl
  simp only [e, List.map_cons, List.map_nil, List.sum_cons, List.sum_nil, add_zero]
  have e1 : i + 1 - w + j + 1 - 2 = i - w + j := by omega
  have e2 : i - w + j + 1 = i + 1 - w + j := by omega
  rw [e1, e2]

theorem has_spreadCol (bars : List HL) (h : Pos bars) (w : ℕ) (hw : 1 ≤ w) :
    Has (spreadCol bars w) bars.length w
      (fun i => spreadOf (alphaOf (betaAt bars w i) (rangeSq2 bars i))) := by
  have := has_map (has_zipO alphaOf (has_beta bars h w hw) (has_gamma bars h)) spreadOf
  rw [show max w 1 = w by omega] at this
  exact this

theorem has_volCol (bars : List HL) (h : Pos bars) (w : ℕ) (hw : 1 ≤ w) :
    Has (volCol bars w) bars.length w (fun i => sigmaOf (betaAt bars w i) (rangeSq2 bars i)) := by
  have := has_zipO sigmaOf (has_beta bars h w hw) (has_gamma bars h)
  rw [show max w 1 = w by omega] at this
  exact this

theorem rowsOf_has (index : List ℤ) (col : List (Option ℝ)) (n lo : ℕ) (f : ℕ → ℝ)
    (hlen : index.length = n) (h : Has col n lo f) :
    rowsOf index col = (List.range' lo (n - lo)).map fun i : ℕ => (index.getD i 0, f i) := by
  have hz : index.zip col = (List.range n).map
      fun i : ℕ => (index.getD i 0, if i < lo then none else some (f i)) := by
    apply List.ext_getElem?
    intro i
    by_cases hi : i < n
    · rw [List.getElem?_map, List.getElem?_range hi, Option.map_some, List.getElem?_zip_eq_some]
      refine ⟨?_, h.2 i hi⟩
      rw [List.getElem?_eq_getElem (by omega)]
      simp [List.getD_eq_getElem?_getD, show i < index.length by omega]
    · rw [List.getElem?_eq_none (by simp [hlen, h.1]; omega), List.getElem?_eq_none (by simp; omega)]
  unfold rowsOf
  rw [hz, List.filterMap_map]
  by_cases hlo : lo ≤ n
  · have hsplit : List.range n = List.range' 0 lo ++ List.range' lo (n - lo) := by
      have := List.range'_append (s := 0) (m := lo) (n := n - lo) (step := 1)
      rw [show 0 + 1 * lo = lo by omega, show lo + (n - lo) = n by omega] at this
      rw [this, List.range_eq_range']
    rw [hsplit, List.filterMap_append]
    have e1 : (List.range' 0 lo).filterMap ((fun p : ℤ × Option ℝ => p.2.map fun v => (p.1, v)) ∘
        fun i : ℕ => (index.getD i 0, if i < lo then none else some (f i))) = [] := by
      rw [List.filterMap_eq_nil_iff]
      intro i hi
      rw [List.mem_range'_1] at hi
      simp [show i < lo by omega]
    rw [e1, List.nil_append, ← List.filterMap_eq_map]
    apply List.filterMap_congr
    intro i hi
    rw [List.mem_range'_1] at hi
    simp [show ¬ i < lo by omega]
  · rw [show n - lo = 0 by omega]
    simp only [List.range'_zero, List.map_nil]
    rw [List.filterMap_eq_nil_iff]
    intro i hi
    rw [List.mem_range] at hi
    simp [show i < lo by omega]

theorem spreadTable_eq (index : List ℤ) (bars : List HL) (h : Pos bars) (w : ℕ) (hw : 1 ≤ w)
    (hlen : index.length = bars.length) :
    spreadTable index bars w = (List.range (bars.length - w)).map fun k : ℕ =>
      ⟨index.getD (k + w) 0, spreadOf (alphaOf (betaAt bars w (k + w)) (rangeSq2 bars (k + w))),
        index.getD k 0⟩ := by
  unfold spreadTable
  simp only
  rw [rowsOf_has index _ _ _ _ hlen (has_spreadCol bars h w hw)]
  apply List.ext_getElem?
  intro k
  by_cases hk : k < bars.length - w
  · rw [List.getElem?_zipWith, List.getElem?_map, List.getElem?_range' hk, List.getElem?_map,
      List.getElem?_range hk, List.getElem?_take_of_lt (by simpa using hk),
      List.getElem?_eq_getElem (by omega)]
    simp [List.getD_eq_getElem?_getD, show k < index.length by omega, Nat.add_comm w k]
  · rw [List.getElem?_eq_none (by simp; omega), List.getElem?_eq_none (by simp; omega)]

/-- C61.  Bar `k + window` has an estimate, whose spread is in [0,2) and whose start time is that of
bar `k`; there are no other estimates. -/
theorem C61_spread (index : List ℤ) (bars : List HL) (h : Pos bars) (w : ℕ) (hw : 1 ≤ w)
    (hlen : index.length = bars.length) :
    (spreadTable index bars w).length = bars.length - w ∧
    ∀ (k : ℕ) row, (spreadTable index bars w)[k]? = some row →
      index[k + w]? = some row.time ∧ index[k]? = some row.start ∧ 0 ≤ row.spread ∧ row.spread < 2 := by
  rw [spreadTable_eq index bars h w hw hlen]
  refine ⟨by simp, ?_⟩
  intro k row hrow
  have hk : k < bars.length - w := by
    by_contra hc
    rw [List.getElem?_eq_none (by simp; omega)] at hrow
    cases hrow
  rw [List.getElem?_map, List.getElem?_range hk] at hrow
  cases hrow
  refine ⟨?_, ?_, spreadOf_range _ (clip_nonneg _)⟩
  · rw [List.getElem?_eq_getElem (by omega)]
    simp [List.getD_eq_getElem?_getD, show k + w < index.length by omega]
  · rw [List.getElem?_eq_getElem (by omega)]
    simp [List.getD_eq_getElem?_getD, show k < index.length by omega]

/-- C61.  Volatilities are non-negative, one for each bar from position `window` on. -/
theorem C61_volatility (index : List ℤ) (bars : List HL) (h : Pos bars) (w : ℕ) (hw : 1 ≤ w)
    (hlen : index.length = bars.length) :
    (volTable index bars w).length = bars.length - w ∧
    ∀ (k : ℕ) row, (volTable index bars w)[k]? = some row → index[k + w]? = some row.1 ∧ 0 ≤ row.2 := by
  unfold volTable
  rw [rowsOf_has index _ _ _ _ hlen (has_volCol bars h w hw)]
  refine ⟨by simp, ?_⟩
  intro k row hrow
  have hk : k < bars.length - w := by
    by_contra hc
    rw [List.getElem?_eq_none (by simp; omega)] at hrow
    cases hrow
  rw [List.getElem?_map, List.getElem?_range' hk] at hrow
  cases hrow
  refine ⟨?_, clip_nonneg _⟩
  simp only [Nat.one_mul, Nat.add_comm w k]
  rw [List.getElem?_eq_getElem (by omega)]
  simp [List.getD_eq_getElem?_getD, show k + w < index.length by omega]

/-- C61.  Multiplying all prices by a positive number changes neither estimate. -/
theorem C61_scale (index : List ℤ) (bars : List HL) (h : Pos bars) (w : ℕ) (c : ℝ)
    (hc : 0 < c) :
    spreadTable index (bars.map (scale c)) w = spreadTable index bars w ∧
    volTable index (bars.map (scale c)) w = volTable index bars w := by
  have hb : beta (bars.map (scale c)) w = beta bars w := by
    unfold beta
    congr 2
    rw [List.map_map]
    apply List.map_congr_left
    intro b _
    exact ratioSq_scale c hc _ _
  have hg : gamma (bars.map (scale c)) = gamma bars := by
    refine has_unique (n := bars.length) (lo := 1) ?_ (has_gamma bars h)
    have := has_gamma (bars.map (scale c)) (scale_pos c hc bars h)
    rw [List.length_map] at this
    refine has_congr this ?_
    intro i hi hi1
    unfold rangeSq2
    rw [hiAt_scale c bars i hi, loAt_scale c bars i hi, hiAt_scale c bars _ (by omega),
      loAt_scale c bars _ (by omega), ← mul_max_of_nonneg _ _ hc.le, ← mul_min_of_nonneg _ _ hc.le,
      mul_div_mul_left _ _ hc.ne']
  unfold spreadTable volTable spreadCol volCol
  rw [hb, hg]
  exact ⟨rfl, rfl⟩

/-! ## C135 -/

/-- C135.  If every bar has the same high and low (a price bouncing between fixed quotes), the spread
is the quoted one, `2(H-L)/(H+L)`, and the volatility 0. -/
theorem C135_constant_quotes (index : List ℤ) (m : ℕ) (H L : ℝ) (hL : 0 < L) (hLH : L ≤ H) (w : ℕ)
    (hw : 1 ≤ w) (hlen : index.length = m) :
    (∀ row ∈ spreadTable index (List.replicate m ⟨H, L⟩) w, row.spread = 2 * (H - L) / (H + L)) ∧
    (∀ row ∈ volTable index (List.replicate m ⟨H, L⟩) w, row.2 = 0) := by
  have hH : 0 < H := lt_of_lt_of_le hL hLH
  have hpos : Pos (List.replicate m ⟨H, L⟩) := by
    intro b hb
    rw [(List.mem_replicate.1 hb).2]
    exact ⟨hH, hL⟩
  have hhi : ∀ i, i < m → hiAt (List.replicate m ⟨H, L⟩) i = H := by
    intro i hi
    simp [hiAt, List.getD_eq_getElem?_getD, hi]
  have hlo : ∀ i, i < m → loAt (List.replicate m ⟨H, L⟩) i = L := by
    intro i hi
    simp [loAt, List.getD_eq_getElem?_getD, hi]
  set r := Real.log (H / L) with hr
  have hr0 : 0 ≤ r := Real.log_nonneg (by rw [le_div_iff₀ hL]; linarith)
  have hw0 : (w : ℝ) ≠ 0 := by exact_mod_cast (by omega : w ≠ 0)
  have hbeta : ∀ i, w ≤ i → i < m → betaAt (List.replicate m ⟨H, L⟩) w i = 2 * r ^ 2 := by
    intro i h1 h2
    unfold betaAt
    have : ∀ j ∈ Finset.range w, rangeSq (List.replicate m ⟨H, L⟩) (i - w + j) +
        rangeSq (List.replicate m ⟨H, L⟩) (i + 1 - w + j) = 2 * r ^ 2 := by
      intro j hj
      rw [Finset.mem_range] at hj
      unfold rangeSq
      rw [hhi _ (by omega), hlo _ (by omega), hhi _ (by omega), hlo _ (by omega)]
      ring
    rw [Finset.sum_congr rfl this, Finset.sum_const, Finset.card_range, nsmul_eq_mul]
    field_simp
  have hgamma : ∀ i, 1 ≤ i → i < m → rangeSq2 (List.replicate m ⟨H, L⟩) i = r ^ 2 := by
    intro i h1 h2
    unfold rangeSq2
    rw [hhi _ h2, hlo _ h2, hhi _ (by omega), hlo _ (by omega), max_self, min_self]
  set s := Real.sqrt 2 with hs
  have hs2 : s ^ 2 = 2 := Real.sq_sqrt (by norm_num)
  have hs0 : 0 < s := Real.sqrt_pos.2 (by norm_num)
  have hs1 : 1 < s := by nlinarith
  have hden : denom = (s - 1) ^ 2 := by
    unfold denom
    rw [rpow_half]
    linear_combination -hs2
  have hden0 : 0 < denom := by rw [hden]; have : 0 < s - 1 := by linarith
                               positivity
  have q1 : Real.sqrt (2 * (2 * r ^ 2)) = 2 * r := by
    rw [show 2 * (2 * r ^ 2) = (2 * r) ^ 2 by ring, Real.sqrt_sq (by positivity)]
  have q2 : Real.sqrt (2 * r ^ 2) = s * r := by
    rw [Real.sqrt_mul (by norm_num), Real.sqrt_sq hr0]
  have q3 : Real.sqrt (r ^ 2 / denom) = r / (s - 1) := by
    rw [hden, ← div_pow, Real.sqrt_sq (div_nonneg hr0 (by linarith))]
  have hne : s - 1 ≠ 0 := by intro h; linarith
  have halpha : alphaOf (2 * r ^ 2) (r ^ 2) = r := by
    unfold alphaOf
    rw [rpow_half, rpow_half, rpow_half, q1, q2, q3, hden]
    have : (2 * r - s * r) / (s - 1) ^ 2 - r / (s - 1) = r := by
      field_simp
      linear_combination (-r) * hs2
    rw [this]
    unfold clip
    rw [if_neg (not_lt.2 hr0)]
  have hsigma : sigmaOf (2 * r ^ 2) (r ^ 2) = 0 := by
    unfold sigmaOf
    have hk : 0 < k2 := Real.rpow_pos_of_pos (div_pos (by norm_num) Real.pi_pos) _
    have hk' : Real.sqrt (r ^ 2 / (k2 ^ 2 * denom)) = r / (k2 * (s - 1)) := by
      rw [hden, ← mul_pow, ← div_pow, Real.sqrt_sq]
      exact div_nonneg hr0 (mul_nonneg hk.le (by linarith))
    have hm : (2 : ℝ) ^ (-0.5 : ℝ) = s⁻¹ := by
      rw [Real.rpow_neg (by norm_num), rpow_half]
    rw [rpow_half, rpow_half, q2, hk', hm, hden]
    have : (s⁻¹ - 1) * (s * r) / (k2 * (s - 1) ^ 2) + r / (k2 * (s - 1)) = 0 := by
      field_simp
      ring
    rw [this]
    unfold clip
    simp
  have hspread : spreadOf r = 2 * (H - L) / (H + L) := by
    unfold spreadOf
    rw [hr, Real.exp_log (div_pos hH hL)]
    have : H + L ≠ 0 := by linarith
    field_simp
    ring
  constructor
  · intro row hrow
    rw [spreadTable_eq index _ hpos w hw (by simpa using hlen)] at hrow
    obtain ⟨k, hk, rfl⟩ := List.mem_map.1 hrow
    rw [List.mem_range, List.length_replicate] at hk
    simp only
    rw [hbeta _ (by omega) (by omega), hgamma _ (by omega) (by omega), halpha, hspread]
  · intro row hrow
    unfold volTable at hrow
    rw [rowsOf_has index _ _ _ _ (by simpa using hlen) (has_volCol _ hpos w hw)] at hrow
    obtain ⟨k, hk, rfl⟩ := List.mem_map.1 hrow
    rw [List.mem_range'_1, List.length_replicate] at hk
    simp only
    rw [hbeta _ (by omega) (by omega), hgamma _ (by omega) (by omega), hsigma]

/-- C135.  The estimates solve the two moment equations of Corwin and Schultz.  If at a bar the mean of
the squared log ranges of neighbouring bars is `2(kσ + a)²` and the squared log range of the pair is
`(√2 kσ + a)²`, with `k = √(8/π)` (the mean range of a Brownian motion of unit volatility) and the log
spread `a`, then the table has the spread `2(eᵃ-1)/(1+eᵃ)` and the volatility `σ` at that bar. -/
theorem C135_equations (index : List ℤ) (bars : List HL) (h : Pos bars) (w : ℕ) (hw : 1 ≤ w)
    (hlen : index.length = bars.length) (i : ℕ) (hi : i + w < bars.length) {σ a : ℝ} (hσ : 0 ≤ σ) (ha : 0 ≤ a)
    (hb : betaAt bars w (i + w) = 2 * (√(8 / Real.pi) * σ + a) ^ 2)
    (hg : rangeSq2 bars (i + w) = (√2 * √(8 / Real.pi) * σ + a) ^ 2) :
    (spreadTable index bars w)[i]? =
      some ⟨index.getD (i + w) 0, 2 * (Real.exp a - 1) / (1 + Real.exp a), index.getD i 0⟩ ∧
    (volTable index bars w)[i]? = some (index.getD (i + w) 0, σ) := by
  set s := Real.sqrt 2 with hs
  have hs2 : s ^ 2 = 2 := Real.sq_sqrt (by norm_num)
  have hs0 : 0 < s := Real.sqrt_pos.2 (by norm_num)
  have hs1 : 1 < s := by nlinarith
  have hne : s - 1 ≠ 0 := by intro h; linarith
  have hden : denom = (s - 1) ^ 2 := by
    unfold denom
    rw [rpow_half]
    linear_combination -hs2
  have hk2 : k2 = √(8 / Real.pi) := by
    unfold k2
    rw [rpow_half]
  have hk : 0 < √(8 / Real.pi) := Real.sqrt_pos.2 (div_pos (by norm_num) Real.pi_pos)
  set k := √(8 / Real.pi) with hkd
  have hu : 0 ≤ k * σ + a := by positivity
  have hv : 0 ≤ s * k * σ + a := by positivity
  have q1 : Real.sqrt (2 * (2 * (k * σ + a) ^ 2)) = 2 * (k * σ + a) := by
    rw [show 2 * (2 * (k * σ + a) ^ 2) = (2 * (k * σ + a)) ^ 2 by ring, Real.sqrt_sq (by positivity)]
  have q2 : Real.sqrt (2 * (k * σ + a) ^ 2) = s * (k * σ + a) := by
    rw [Real.sqrt_mul (by norm_num), Real.sqrt_sq hu]
  have q3 : Real.sqrt ((s * k * σ + a) ^ 2 / denom) = (s * k * σ + a) / (s - 1) := by
    rw [hden, ← div_pow, Real.sqrt_sq (div_nonneg hv (by linarith))]
  have q4 : Real.sqrt ((s * k * σ + a) ^ 2 / (k ^ 2 * denom)) = (s * k * σ + a) / (k * (s - 1)) := by
    rw [hden, ← mul_pow, ← div_pow, Real.sqrt_sq]
    exact div_nonneg hv (mul_nonneg hk.le (by linarith))
  have halpha : alphaOf (2 * (k * σ + a) ^ 2) ((s * k * σ + a) ^ 2) = a := by
    unfold alphaOf
    rw [rpow_half, rpow_half, rpow_half, q1, q2, q3, hden]
    have : (2 * (k * σ + a) - s * (k * σ + a)) / (s - 1) ^ 2 - (s * k * σ + a) / (s - 1) = a := by
      field_simp
      linear_combination (-(k * σ) - a) * hs2
    rw [this]
    unfold clip
    rw [if_neg (not_lt.2 ha)]
  have hsigma : sigmaOf (2 * (k * σ + a) ^ 2) ((s * k * σ + a) ^ 2) = σ := by
    unfold sigmaOf
    have hm : (2 : ℝ) ^ (-0.5 : ℝ) = s⁻¹ := by
      rw [Real.rpow_neg (by norm_num), rpow_half]
    rw [rpow_half, rpow_half, hk2, q2, q4, hm, hden]
    have : (s⁻¹ - 1) * (s * (k * σ + a)) / (k * (s - 1) ^ 2) + (s * k * σ + a) / (k * (s - 1)) = σ := by
      field_simp
      ring
    rw [this]
    unfold clip
    rw [if_neg (not_lt.2 hσ)]
  constructor
  · rw [spreadTable_eq index bars h w hw hlen, List.getElem?_map, List.getElem?_range (by omega),
      Option.map_some, hb, hg, halpha]
    rfl
  · unfold volTable
    rw [rowsOf_has index _ _ _ _ hlen (has_volCol bars h w hw), List.getElem?_map,
      List.getElem?_range' (by omega), Option.map_some, one_mul, Nat.add_comm w i, hb, hg, hsigma]

/-- Two bars with log ranges `k` and a common range of `√2 k` meet the equations for `σ = 1` and no
spread. -/
example : ∃ bars : List HL, Pos bars ∧ betaAt bars 1 1 = 2 * (√(8 / Real.pi) * 1 + 0) ^ 2 ∧
    rangeSq2 bars 1 = (√2 * √(8 / Real.pi) * 1 + 0) ^ 2 := by
  set k := √(8 / Real.pi)
  have hk : 0 ≤ k := Real.sqrt_nonneg _
  have h1 : 1 ≤ √2 := by
    rw [Real.one_le_sqrt]
    norm_num
  have h2 : √2 ≤ 2 := by
    rw [Real.sqrt_le_left (by norm_num)]
    norm_num
  refine ⟨[⟨Real.exp k, 1⟩, ⟨Real.exp (√2 * k), Real.exp (√2 * k - k)⟩], ?_, ?_, ?_⟩
  · intro b hb
    simp only [List.mem_cons, List.not_mem_nil, or_false] at hb
    rcases hb with rfl | rfl
    · exact ⟨Real.exp_pos _, one_pos⟩
    · exact ⟨Real.exp_pos _, Real.exp_pos _⟩
  · simp [betaAt, rangeSq, hiAt, loAt, ← Real.exp_sub]
    ring
  · have e1 : max (Real.exp k) (Real.exp (√2 * k)) = Real.exp (√2 * k) :=
      max_eq_right (Real.exp_le_exp.2 (by nlinarith))
    have e2 : min 1 (Real.exp (√2 * k - k)) = 1 := by
      apply min_eq_left
      rw [Real.one_le_exp_iff]
      nlinarith
    simp [rangeSq2, hiAt, loAt, e1, e2]

end FinML.Micro
