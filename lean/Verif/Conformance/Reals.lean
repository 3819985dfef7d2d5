import Verif.Bars.Model
import Verif.Options.Model
import Verif.Risk.Props
import Verif.Alloc.HrpModel
import Mathlib.Algebra.Order.Field.Rat
import Mathlib.Data.Rat.Floor
import Mathlib.Analysis.SpecialFunctions.Log.Deriv
import Mathlib.Analysis.Complex.ExponentialBounds

/-!
# Tests of the repository with irrational values, and the resampling of bars

Inputs and expected values of `test/test_data_structures/test_bars.py` (resampling, whose data is the file
`data/SPY_1h_20221222.csv`), `test/test_tools/test_interest_rate.py`, `test/test_tools/test_option.py`
(return distribution), `test/test_risk/test_strategy_risk.py` and `test/test_assets_allocation/test_hrp.py`
(distances).
-/

namespace FinML.Conformance

/-! ## test_bars.py -/

open FinML.Bars in
/-- `bars_sample`, test_bars.py:24-32: volumes are 1 to 7, the vwap is the close; prices of the csv file, rounded to
two decimals. -/
def spy : List (Bar ℚ) :=
  [⟨0, 383.25, 385.22, 382.69, 385.15, 1, some 385.15⟩, ⟨1, 385.15, 387.30, 385.00, 386.46, 2, some 386.46⟩,
   ⟨2, 386.46, 386.83, 385.41, 385.64, 3, some 385.64⟩, ⟨3, 385.64, 386.82, 385.63, 385.74, 4, some 385.74⟩,
   ⟨4, 385.74, 387.41, 385.71, 386.45, 5, some 386.45⟩, ⟨5, 386.47, 386.87, 385.54, 385.56, 6, some 385.56⟩,
   ⟨6, 385.56, 386.29, 385.24, 386.23, 7, some 386.23⟩]

open FinML.Bars in
/-- `test_time_to_volume_bars_resample`; the highest price 386.86 of the last bar is 386.87 in the data, and both agree to the two decimals
compared. -/
example : (resampleTimeToVolumeBars 10 spy).toOption.map (fun r => (r.1.map Bar.time, r.1.map Bar.volume)) =
      some ([0, 3, 5], [6, 9, 13]) ∧
    (resampleTimeToVolumeBars 10 spy).toOption.map (fun r => (r.1.map Bar.op, r.1.map Bar.close)) =
      some ([383.25, 385.64, 386.47], [385.64, 386.45, 386.23]) ∧
    (resampleTimeToVolumeBars 10 spy).toOption.map (fun r => (r.1.map Bar.low, r.1.map Bar.high)) =
      some ([382.69, 385.63, 385.24], [387.30, 387.41, 386.87]) := by decide +kernel

open FinML.Bars in
/-- `test_time_to_volume_bars_resample`: the vwaps 385.834, 386.137, 385.921 within 0.01. -/
example : ((resampleTimeToVolumeBars 10 spy).toOption.map fun r => (r.1.zip [385.834, 386.137, 385.921]).all
      fun p : Bar ℚ × ℚ => p.1.vwap.elim false fun v => decide (|v - p.2| ≤ 1 / 100)) = some true := by decide +kernel

/-! ## test_interest_rate.py -/

open FinML.Options in
/-- `test_implied_forward_rate`: 0.1906. -/
example : ∃ x, impliedForwardRate 1 1.1 0.5 = .ok (some x) ∧ |x - 0.1906| ≤ 1 / 1000 := by
  refine ⟨Real.log (1.1 / 1) / 0.5, ?_, ?_⟩
  · unfold impliedForwardRate fdiv; norm_num
  · have e : (1.1 / 1 : ℝ) = (1 + 1 / 21) / (1 - 1 / 21) := by norm_num
    have h1 := Real.sum_range_le_log_div (x := 1 / 21) (by norm_num) (by norm_num) 1
    have h2 := Real.log_div_le_sum_range_add (x := 1 / 21) (by norm_num) (by norm_num) 1
    rw [e]
    norm_num at h1 h2 ⊢
    rw [abs_le]
    constructor <;> linarith

/-! ## test_option.py -/

open FinML.Options in
/-- `test_bsm_return_distribution`: the mean and variance of the log return, of which 3.759 - log 40 and 0.02 are
asserted. -/
example : ∃ m s, (bsmReturnDistribution 0.16 0.2 0.5).1 = some (m, s) ∧ m = 0.07 ∧ s ^ 2 = 0.02 := by
  refine ⟨(0.16 - 0.2 ^ 2 / 2) * 0.5, 0.2 * √0.5, ?_, by norm_num, ?_⟩
  · unfold bsmReturnDistribution frozen
    rw [if_neg (by norm_num), if_pos (by positivity)]
  · rw [mul_pow, Real.sq_sqrt (by norm_num)]; norm_num

open FinML.Options in
/-- `test_bsm_return_distribution`: the annual return, mean 0.15 and deviation 0.1155. -/
example : ∃ m s, (bsmReturnDistribution 0.17 0.2 3).2 = some (m, s) ∧ m = 0.15 ∧ |s - 0.1155| ≤ 1 / 1000 := by
  refine ⟨0.17 - 0.2 ^ 2 / 2, 0.2 / √3, ?_, by norm_num, ?_⟩
  · unfold bsmReturnDistribution frozen
    rw [if_neg (by norm_num)]
    exact if_pos (by positivity)
  · have h1 : (1.732 : ℝ) < √3 := Real.lt_sqrt_of_sq_lt (by norm_num)
    have h2 : √3 < (1.733 : ℝ) := by rw [Real.sqrt_lt' (by norm_num)]; norm_num
    have h3 : 0.2 / √3 ≤ 0.2 / (1.732 : ℝ) := div_le_div_of_nonneg_left (by norm_num) (by norm_num) h1.le
    have h4 : 0.2 / (1.733 : ℝ) ≤ 0.2 / √3 := div_le_div_of_nonneg_left (by norm_num) (by linarith) h2.le
    rw [abs_le]
    norm_num at h3 h4 ⊢
    constructor <;> linarith

/-! ## test_strategy_risk.py -/

open FinML.Risk in
/-- `test_strategy_sharpe_ratio`: 1.173 up to a part in a thousand. -/
example : ∃ x, strategySharpe 0.7 260 0.005 (-0.01) = .ok x ∧ |x - 1.173| ≤ 1.173 / 1000 := by
  have h1 : (0.45825 : ℝ) < √(21 / 100) := Real.lt_sqrt_of_sq_lt (by norm_num)
  have h2 : √(21 / 100) < (0.45826 : ℝ) := by rw [Real.sqrt_lt' (by norm_num)]; norm_num
  have h3 : (16.124 : ℝ) < √260 := Real.lt_sqrt_of_sq_lt (by norm_num)
  have h4 : √260 < (16.125 : ℝ) := by rw [Real.sqrt_lt' (by norm_num)]; norm_num
  have hp : 0 < √(21 / 100 : ℝ) := by linarith
  refine ⟨(1 / 2000) / (3 / 200 * √(21 / 100)) * √260, ?_, ?_⟩
  · unfold strategySharpe powHalf pyDiv
    rw [show (0.7 : ℝ) * (1 - 0.7) = 21 / 100 by norm_num, if_neg (by norm_num), show ((0.005 : ℝ) - -0.01) = 3 / 200 by norm_num,
      show (3 / 200 * 0.7 + -0.01 : ℝ) = 1 / 2000 by norm_num]
    simp only [py_bind_ok]
    rw [if_neg (by positivity), if_neg (by norm_num)]
    rfl
  · rw [show (1 / 2000 : ℝ) / (3 / 200 * √(21 / 100)) * √260 = √260 / (30 * √(21 / 100)) by field_simp; norm_num]
    have hq : 0 < 30 * √(21 / 100 : ℝ) := by linarith
    rw [abs_le]
    constructor
    · rw [neg_le_sub_iff_le_add, ← sub_le_iff_le_add, le_div_iff₀ hq]; norm_num at h1 h2 h3 h4 ⊢; linarith
    · rw [sub_le_iff_le_add, div_le_iff₀ hq]; norm_num at h1 h2 h3 h4 ⊢; linarith

open FinML.Risk in
/-- `test_strategy_required_precision`: 0.7 up to a part in a thousand. -/
example : ∃ x, requiredPrecision 1.173 260 0.005 (-0.01) = .ok x ∧ |x - 0.7| ≤ 0.7 / 1000 := by
  obtain ⟨p, h1, h2, h3, h4, h5⟩ := requiredPrecision_spec 1.173 260 0.005 (-0.01) (by norm_num) (by norm_num) (by norm_num)
  refine ⟨p, h1, ?_⟩
  norm_num at h4 h5 ⊢
  rw [abs_le]
  constructor <;> nlinarith

open FinML.Risk in
/-- `test_strategy_required_freq`: 260 up to a part in a thousand. -/
example : ∃ x, requiredFreq 1.173 0.7 0.005 (-0.01) = .ok (some x) ∧ |x - 260| ≤ 260 / 1000 := by
  obtain ⟨r, h1, h2, -⟩ := C101_required_freq 1.173 0.7 0.005 (-0.01) (by norm_num) (by norm_num) (by norm_num) (by norm_num)
  obtain ⟨f, rfl, hf, hb⟩ := h2 (by norm_num)
  refine ⟨f, h1, ?_⟩
  have h3 := C102_bets 0.7 f 0.005 (-0.01) (by norm_num) (by norm_num) hf (by norm_num)
  rw [strategySharpe_eq 0.7 f 0.005 (-0.01) (by norm_num) (by norm_num) hf (by norm_num), hb] at h3
  have h4 := congrArg (fun x => x ^ 2) (Except.ok.inj h3)
  simp only [mul_pow, div_pow] at h4
  rw [Real.sq_sqrt hf, Real.sq_sqrt (by norm_num)] at h4
  norm_num at h4 ⊢
  rw [abs_le]
  constructor <;> linarith

/-! ## test_hrp.py -/

/-- The correlations of `test_corr_to_dist`. -/
def corr3 : ℕ → ℕ → ℝ := fun i j => ([[1, 0.7, 0.2], [0.7, 1, -0.2], [0.2, -0.2, 1]].getD i []).getD j 0

open FinML.Alloc in
/-- `test_corr_to_dist`: 0, 0.3873, 0.6325 and 0.7746 up to 0.001. -/
example : corrToDist corr3 0 0 = 0 ∧ |corrToDist corr3 0 1 - 0.3873| ≤ 1 / 1000 ∧
    |corrToDist corr3 2 0 - 0.6325| ≤ 1 / 1000 ∧ |corrToDist corr3 1 2 - 0.7746| ≤ 1 / 1000 := by
  have near : ∀ x y : ℝ, 0 < y → (y - 1 / 2000) ^ 2 ≤ x → x ≤ (y + 1 / 2000) ^ 2 → 1 / 2000 ≤ y → |√x - y| ≤ 1 / 1000 := by
    intro x y hy h1 h2 h3
    have a := Real.le_sqrt_of_sq_le h1
    have b := Real.sqrt_le_iff.2 ⟨by linarith, h2⟩
    rw [abs_le]
    constructor <;> linarith
  refine ⟨?_, near _ _ (by norm_num) ?_ ?_ (by norm_num), near _ _ (by norm_num) ?_ ?_ (by norm_num),
    near _ _ (by norm_num) ?_ ?_ (by norm_num)⟩ <;> norm_num [corrToDist, corr3]

end FinML.Conformance
