import Verif.Alloc.PosModel
import Verif.Py.Lemmas
import Mathlib.Tactic.FieldSimp
import Mathlib.Tactic.LinearCombination
import Mathlib.Algebra.BigOperators.Field

/-!
# Dynamic position sizes and limit prices (C87, C88, C89, C138)
-/

namespace FinML.Alloc

theorem rpow_half (x : ℝ) : x ^ (0.5 : ℝ) = √x := by
  rw [Real.sqrt_eq_rpow]; norm_num

theorem rpow_neg_half (x : ℝ) (hx : 0 ≤ x) : x ^ (-0.5 : ℝ) = 1 / √x := by
  rw [Real.rpow_neg hx, rpow_half, one_div]

/-- The sigmoid of the docstring, in its usual form `x/√(w + x²)`. -/
noncomputable def sigmoid (w x : ℝ) : ℝ := x / √(w + x ^ 2)

theorem scaledSigmoid_eq (w x : ℝ) (h : 0 < w + x ^ 2) : scaledSigmoid w x = .ok (sigmoid w x) := by
  unfold scaledSigmoid sigmoid
  rw [if_neg h.ne', if_neg (not_lt.2 h.le), rpow_neg_half _ h.le, mul_one_div]

/-- C87: the calibrated coefficient makes the sigmoid equal to `m` at divergence `x`. -/
theorem C87_calibration (x m : ℝ) (hx : 0 < x) (hm : 0 < m) :
    ∃ w, getSigmoidCoeff x m = .ok w ∧ scaledSigmoid w x = .ok m := by
  have hkey : x ^ 2 * (m ^ (-2 : ℤ) - 1) + x ^ 2 = (x / m) ^ 2 := by
    rw [zpow_neg]
    have := hm.ne'
    field_simp
    norm_cast
    ring
  refine ⟨x ^ 2 * (m ^ (-2 : ℤ) - 1), by rw [getSigmoidCoeff, if_neg hm.ne'], ?_⟩
  have hpos : 0 < x / m := div_pos hx hm
  rw [scaledSigmoid_eq _ _ (by rw [hkey]; positivity), sigmoid, hkey, Real.sqrt_sq hpos.le]
  congr 1
  field_simp

theorem inversePrice_eq (f w m : ℝ) (hw : 0 ≤ w) (hm : |m| < 1) :
    inversePrice f w m = .ok (f - m * √(w / (1 - m ^ 2))) := by
  have h1 : 0 < 1 - m ^ 2 := by
    have := (sq_lt_one_iff_abs_lt_one m).2 hm
    linarith
  unfold inversePrice
  rw [if_neg h1.ne', if_neg (not_lt.2 (div_nonneg hw h1.le)), rpow_half]

/-- C87: the inverse price of `m` is the price at which the sigmoid of the divergence is `m`; it is the
only such price. -/
theorem C87_inverse (f w m : ℝ) (hw : 0 < w) (hm : |m| < 1) :
    ∃ price, inversePrice f w m = .ok price ∧ scaledSigmoid w (f - price) = .ok m ∧
      ∀ price', scaledSigmoid w (f - price') = .ok m → price' = price := by
  have h1 : 0 < 1 - m ^ 2 := by
    have := (sq_lt_one_iff_abs_lt_one m).2 hm
    linarith
  have hq : 0 < w / (1 - m ^ 2) := div_pos hw h1
  have hs := Real.sqrt_pos.2 hq
  refine ⟨_, inversePrice_eq f w m hw.le hm, ?_, ?_⟩
  · rw [sub_sub_cancel]
    have hkey : w + (m * √(w / (1 - m ^ 2))) ^ 2 = w / (1 - m ^ 2) := by
      rw [mul_pow, Real.sq_sqrt hq.le]
      field_simp
      ring
    rw [scaledSigmoid_eq _ _ (by rw [hkey]; exact hq), sigmoid, hkey]
    congr 1
    field_simp
  · intro price' h
    have hx0 : 0 < w + (f - price') ^ 2 := by positivity
    rw [scaledSigmoid_eq _ _ hx0, Except.ok.injEq, sigmoid] at h
    have hr := Real.sqrt_pos.2 hx0
    have hxm : f - price' = m * √(w + (f - price') ^ 2) := by
      rw [← h]; field_simp
    have hsq : (f - price') ^ 2 = m ^ 2 * (w + (f - price') ^ 2) := by
      conv_lhs => rw [hxm, mul_pow, Real.sq_sqrt hx0.le]
    have hv : w + (f - price') ^ 2 = w / (1 - m ^ 2) := by
      rw [eq_div_iff h1.ne']
      linear_combination hsq
    rw [hv] at hxm
    linarith

/-! ## C88 -/

theorem sigmoid_strictMono (w : ℝ) (hw : 0 < w) : StrictMono (sigmoid w) := by
  have hneg : ∀ x, sigmoid w (-x) = -sigmoid w x := by intro x; simp [sigmoid, neg_div]
  have hpos : ∀ x y, 0 ≤ x → x < y → sigmoid w x < sigmoid w y := by
    intro x y hx hxy
    have hx0 : 0 < w + x ^ 2 := by positivity
    have hy0 : 0 < w + y ^ 2 := by positivity
    have hy : 0 < y := lt_of_le_of_lt hx hxy
    unfold sigmoid
    rw [div_lt_div_iff₀ (Real.sqrt_pos.2 hx0) (Real.sqrt_pos.2 hy0)]
    apply lt_of_pow_lt_pow_left₀ 2 (by positivity)
    rw [mul_pow, mul_pow, Real.sq_sqrt hx0.le, Real.sq_sqrt hy0.le]
    have : x ^ 2 < y ^ 2 := by nlinarith
    nlinarith
  intro x y hxy
  rcases le_total 0 x with hx | hx
  · exact hpos x y hx hxy
  · rcases le_or_gt y 0 with hy | hy
    · have := hpos (-y) (-x) (by linarith) (by linarith)
      rw [hneg, hneg] at this
      linarith
    · have h1 : sigmoid w x ≤ 0 := div_nonpos_of_nonpos_of_nonneg hx (Real.sqrt_nonneg _)
      have h2 : 0 < sigmoid w y := div_pos hy (Real.sqrt_pos.2 (by positivity))
      linarith

theorem sigmoid_abs_lt (w x : ℝ) (hw : 0 < w) : |sigmoid w x| < 1 := by
  have hx0 : 0 < w + x ^ 2 := by positivity
  have hr := Real.sqrt_pos.2 hx0
  unfold sigmoid
  rw [abs_div, abs_of_pos hr, div_lt_one hr]
  apply Real.lt_sqrt_of_sq_lt
  rw [sq_abs]
  linarith

theorem pyInt_mono {x y : ℝ} (h : x ≤ y) : pyInt x ≤ pyInt y := by
  unfold pyInt
  split_ifs with hx hy hy
  · exact Int.floor_le_floor h
  · linarith
  · have h1 : ⌈x⌉ ≤ 0 := Int.ceil_le.2 (by push_cast; linarith)
    have h2 : 0 ≤ ⌊y⌋ := Int.floor_nonneg.2 hy
    omega
  · exact Int.ceil_le_ceil h

theorem pyInt_neg (x : ℝ) : pyInt (-x) = -pyInt x := by
  unfold pyInt
  rcases lt_trichotomy x 0 with h | rfl | h
  · rw [if_pos (by linarith), if_neg (by linarith), Int.floor_neg]
  · simp
  · rw [if_neg (by linarith), if_pos h.le, Int.ceil_neg]

theorem pyInt_abs_le (x : ℝ) : |((pyInt x : ℤ) : ℝ)| ≤ |x| := by
  unfold pyInt
  split_ifs with h
  · rw [abs_of_nonneg h, abs_of_nonneg (by exact_mod_cast Int.floor_nonneg.2 h)]
    exact Int.floor_le x
  · push Not at h
    have h1 : ⌈x⌉ ≤ 0 := Int.ceil_le.2 (by push_cast; linarith)
    rw [abs_of_neg h, abs_of_nonpos (by exact_mod_cast h1)]
    linarith [Int.le_ceil x]

theorem positionSize_eq (f p ms w : ℝ) (hw : 0 < w) :
    positionSizeFromDivergence f p ms w = .ok (pyInt (sigmoid w (f - p) * ms)) := by
  unfold positionSizeFromDivergence
  rw [scaledSigmoid_eq w _ (by positivity)]
  rfl

/-- C88, degenerate input: with coefficient 0 and the market at the forecast the call fails with a division by
zero. -/
theorem C88_degenerate (f ms : ℝ) : positionSizeFromDivergence f f ms 0 = .error .zeroDivision := by
  have : scaledSigmoid 0 (f - f) = .error .zeroDivision := by
    unfold scaledSigmoid
    rw [if_pos (by ring)]
  unfold positionSizeFromDivergence
  rw [this]
  rfl

/-- C88: the position never exceeds the maximum size in absolute value, does not have the sign
opposite to the divergence, is non-decreasing in the forecast (non-increasing in the price), and is
odd in the divergence. -/
theorem C88_divergence (w ms : ℝ) (hw : 0 < w) (hms : 0 ≤ ms) :
    (∀ f p, ∃ s, positionSizeFromDivergence f p ms w = .ok s ∧ |(s : ℝ)| ≤ ms ∧
      (p ≤ f → 0 ≤ s) ∧ (f ≤ p → s ≤ 0)) ∧
    (∀ f f' p p' s s', f - p ≤ f' - p' → positionSizeFromDivergence f p ms w = .ok s →
      positionSizeFromDivergence f' p' ms w = .ok s' → s ≤ s') ∧
    (∀ f f' p p' s, f' - p' = -(f - p) → positionSizeFromDivergence f p ms w = .ok s →
      positionSizeFromDivergence f' p' ms w = .ok (-s)) := by
  refine ⟨fun f p => ⟨_, positionSize_eq f p ms w hw, ?_, ?_, ?_⟩, ?_, ?_⟩
  · refine (pyInt_abs_le _).trans ?_
    rw [abs_mul, abs_of_nonneg hms]
    nlinarith [sigmoid_abs_lt w (f - p) hw]
  · intro h
    have h0 : 0 ≤ sigmoid w (f - p) * ms :=
      mul_nonneg (div_nonneg (by linarith) (Real.sqrt_nonneg _)) hms
    unfold pyInt
    rw [if_pos h0]
    exact Int.floor_nonneg.2 h0
  · intro h
    have h0 : sigmoid w (f - p) * ms ≤ 0 :=
      mul_nonpos_of_nonpos_of_nonneg
        (div_nonpos_of_nonpos_of_nonneg (by linarith) (Real.sqrt_nonneg _)) hms
    have := pyInt_mono h0
    simpa [pyInt] using this
  · intro f f' p p' s s' h h1 h2
    rw [positionSize_eq _ _ _ _ hw, Except.ok.injEq] at h1 h2
    rw [← h1, ← h2]
    exact pyInt_mono (mul_le_mul_of_nonneg_right ((sigmoid_strictMono w hw).monotone h) hms)
  · intro f f' p p' s h h1
    rw [positionSize_eq _ _ _ _ hw, Except.ok.injEq] at h1 ⊢
    rw [← h1, h, ← pyInt_neg]
    congr 1
    unfold sigmoid
    rw [neg_sq]
    ring

/-- The size is not the constant zero: with `w = 1`, a divergence of 1 and a maximum of 10 it is 7. -/
example : positionSizeFromDivergence 3 2 10 1 = .ok 7 := by
  rw [positionSize_eq _ _ _ _ one_pos]
  congr 1
  have h : sigmoid 1 (3 - 2) * 10 = 10 / √2 := by norm_num [sigmoid]; ring
  rw [h, pyInt, if_pos (by positivity), Int.floor_eq_iff]
  have h2 : √2 * √2 = 2 := Real.mul_self_sqrt (by norm_num)
  have h3 : 0 < √2 := by positivity
  push_cast
  constructor
  · rw [le_div_iff₀ h3]; nlinarith
  · rw [div_lt_iff₀ h3]; nlinarith

/-! ## C89 -/

/-- The positions after each unit step from `cur` to `target`. -/
def unitSteps (cur target : ℤ) : List ℤ :=
  (List.range (target - cur).natAbs).map fun k : ℕ =>
    if cur < target then cur + 1 + k else cur - 1 - k

/-- The price at which the position `j` out of `m` is the target. -/
noncomputable def breakEven (f w : ℝ) (m : ℕ) (j : ℤ) : ℝ :=
  f - (j : ℝ) / m * √(w / (1 - ((j : ℝ) / m) ^ 2))

/-- The mean of the break-even prices of the unit steps. -/
noncomputable def meanBreakEven (cur target : ℤ) (m : ℕ) (f w : ℝ) : ℝ :=
  ((unitSteps cur target).map (breakEven f w m)).sum / ((unitSteps cur target).length : ℝ)

/-- The claim of the docstring: the limit price is the average break-even price of the order. -/
def LimitIsMean : Prop :=
  ∀ (cur target : ℤ) (m : ℕ) (f w : ℝ), 0 < w → cur ≠ target → |cur| < m → |target| < m →
    computeLimitPrice cur target m f w = .ok (meanBreakEven cur target m f w)

theorem inversePrice_step (f w : ℝ) (m j : ℕ) (hw : 0 < w) (hj : j < m) :
    inversePrice f w ((j : ℝ) / m) = .ok (breakEven f w m j) := by
  have hm : (0 : ℝ) < m := by exact_mod_cast (by omega : 0 < m)
  rw [inversePrice_eq f w _ hw.le]
  · simp [breakEven]
  · rw [abs_of_nonneg (by positivity), div_lt_one hm]
    exact_mod_cast hj

/-- C89: buying from a non-negative position, the limit price is the mean of the break-even prices of
the unit steps.  What is missing from the full claim: selling, and buying from a short position, where
it fails (see the counterexample). -/
theorem C89_limit_buy_partial (cur target m : ℕ) (f w : ℝ) (hw : 0 < w) (h : cur < target)
    (hm : target < m) :
    computeLimitPrice cur target m f w = .ok (meanBreakEven cur target m f w) := by
  have hsign : (if (target : ℤ) > (cur : ℤ) then (1 : ℤ) else -1) = 1 := if_pos (by exact_mod_cast h)
  have hr : pyRange ((cur : ℤ) + 1).natAbs ((target : ℤ) + 1).natAbs =
      (List.range (target - cur)).map fun k : ℕ => cur + 1 + k := by
    unfold pyRange
    have h1 : ((cur : ℤ) + 1).natAbs = cur + 1 := by omega
    have h2 : ((target : ℤ) + 1).natAbs - (cur + 1) = target - cur := by omega
    rw [h1, h2]
  have hsteps : unitSteps cur target = (List.range (target - cur)).map fun k : ℕ =>
      ((cur + 1 + k : ℕ) : ℤ) := by
    unfold unitSteps
    have : ((target : ℤ) - (cur : ℤ)).natAbs = target - cur := by omega
    rw [this]
    apply List.map_congr_left
    intro k _
    rw [if_pos (by exact_mod_cast h)]
    push_cast; ring
  unfold computeLimitPrice
  simp only [hsign, hr]
  rw [mapM_ok_of_forall _ (fun j : ℕ => breakEven f w m j)]
  · rw [py_bind_ok, if_neg (by omega)]
    unfold meanBreakEven
    rw [hsteps]
    simp only [List.map_map, List.length_map, List.length_range, Function.comp_def]
    congr 2
    push_cast [Nat.cast_sub h.le]
    ring
  · intro j hj
    simp only [List.mem_map, List.mem_range] at hj
    obtain ⟨k, hk, rfl⟩ := hj
    rw [if_neg (by omega), inversePrice_step f w m _ hw (by omega)]

/-- C89: the claim fails when selling: going from 2 to 1 the price is the negative of the break-even
price. -/
theorem C89_limit_counterexample : ¬ LimitIsMean := by
  intro h
  have := h 2 1 4 10 1 one_pos (by norm_num) (by norm_num) (by norm_num)
  have hc : computeLimitPrice 2 1 4 10 1 = .ok (-breakEven 10 1 4 1) := by
    have hr : pyRange ((2 : ℤ) + -1).natAbs ((1 : ℤ) + 1).natAbs = [1] := by decide
    unfold computeLimitPrice
    simp only [gt_iff_lt, show ¬ ((2 : ℤ) < 1) by norm_num, if_false, hr]
    have := inversePrice_step 10 1 4 1 one_pos (by norm_num)
    push_cast at this
    rw [mapM_cons_py]
    simp
    norm_num
    rw [this, py_bind_ok, div_neg, div_one]
  have hb : meanBreakEven 2 1 4 10 1 = breakEven 10 1 4 1 := by
    simp [meanBreakEven, unitSteps]
  rw [hc, hb, Except.ok.injEq] at this
  have hv : breakEven 10 1 4 1 = 10 - 1 / 4 * √(16 / 15) := by
    norm_num [breakEven]
  have hs : √(16 / 15) ≤ 2 := by
    rw [Real.sqrt_le_left (by norm_num)]; norm_num
  rw [hv] at this
  linarith

/-- C89: selling between positive positions never gives a positive price although every break-even
price of the steps is positive. -/
theorem C89_sell_not_positive (cur target m : ℕ) (f w : ℝ) (hw : 0 < w) (h : target < cur)
    (hm : cur < m) (hpos : ∀ j : ℕ, j < m → 0 < breakEven f w m j) :
    ∃ v, computeLimitPrice cur target m f w = .ok v ∧ v ≤ 0 := by
  have hsign : (if (target : ℤ) > (cur : ℤ) then (1 : ℤ) else -1) = -1 := if_neg (by omega)
  unfold computeLimitPrice
  simp only [hsign]
  rw [mapM_ok_of_forall _ (fun j : ℕ => breakEven f w m j)]
  · rw [py_bind_ok, if_neg (by omega)]
    refine ⟨_, rfl, ?_⟩
    apply div_nonpos_of_nonneg_of_nonpos
    · apply List.sum_nonneg
      simp only [List.mem_map, pyRange, List.mem_range]
      rintro _ ⟨j, ⟨k, hk, rfl⟩, rfl⟩
      exact (hpos _ (by omega)).le
    · have : ((target : ℤ) - (cur : ℤ)) ≤ 0 := by omega
      exact_mod_cast this
  · intro j hj
    simp only [pyRange, List.mem_map, List.mem_range] at hj
    obtain ⟨k, hk, rfl⟩ := hj
    rw [if_neg (by omega), inversePrice_step f w m _ hw (by omega)]

/-! ## C138 -/

/-- The limit price of every order within the allowed positions is defined. -/
def LimitDefined : Prop :=
  ∀ (cur target : ℤ) (m : ℕ) (f w : ℝ), 0 < w → |cur| ≤ m → |target| ≤ m →
    ∃ v, computeLimitPrice cur target m f w = .ok v

/-- C138: no limit price for an order up to the maximum position (division by zero in the inverse
price), nor for an empty order. -/
theorem C138_full_position_counterexample : ¬ LimitDefined := by
  intro h
  obtain ⟨v, hv⟩ := h 0 1 1 10 1 one_pos (by norm_num) (by norm_num)
  have : computeLimitPrice 0 1 1 10 1 = .error .zeroDivision := by
    have hr : pyRange ((0 : ℤ) + 1).natAbs ((1 : ℤ) + 1).natAbs = [1] := by decide
    unfold computeLimitPrice
    simp only [gt_iff_lt, show ((0 : ℤ) < 1) by norm_num, if_true, hr]
    rw [mapM_cons_py]
    simp [inversePrice]
  rw [this] at hv
  cases hv

/-- C138: every order up to the maximum position from a non-negative one fails. -/
theorem C138_full_position_error (cur m : ℕ) (f w : ℝ) (h : cur < m) (hw : 0 < w) :
    computeLimitPrice cur m m f w = .error .zeroDivision := by
  have hsign : (if (m : ℤ) > (cur : ℤ) then (1 : ℤ) else -1) = 1 := if_pos (by exact_mod_cast h)
  have hmem : m ∈ pyRange ((cur : ℤ) + 1).natAbs ((m : ℤ) + 1).natAbs := by
    simp only [pyRange, List.mem_map, List.mem_range]
    exact ⟨m - (cur + 1), by omega, by omega⟩
  have hm : (m : ℝ) ≠ 0 := by exact_mod_cast (by omega : m ≠ 0)
  unfold computeLimitPrice
  simp only [hsign]
  rw [mapM_error_eq _ _ .zeroDivision m hmem]
  · rfl
  · rw [if_neg (by omega), inversePrice, if_pos (by field_simp; norm_num)]
  · intro j hj e' he
    simp only [pyRange, List.mem_map, List.mem_range] at hj
    obtain ⟨k, hk, rfl⟩ := hj
    rw [if_neg (by omega)] at he
    by_cases hjm : ((cur : ℤ) + 1).natAbs + k = m
    · rw [hjm, inversePrice, if_pos (by field_simp; norm_num)] at he
      exact (Except.error.inj he).symm
    · rw [inversePrice_step f w m _ hw (by omega)] at he
      cases he

/-- C138, what holds: within the allowed positions, long and short, the price is defined exactly if there is something
to trade and the target is not the maximum long position; otherwise there is a ZeroDivisionError.  What is missing from
the full claim: these two cases, where it fails. -/
theorem C138_defined_partial (cur target : ℤ) (m : ℕ) (f w : ℝ) (hw : 0 < w) (hc : |cur| ≤ m) (ht : |target| ≤ m) :
    ((∃ v, computeLimitPrice cur target m f w = .ok v) ↔ cur ≠ target ∧ target ≠ m) ∧
    (¬ (cur ≠ target ∧ target ≠ m) → computeLimitPrice cur target m f w = .error .zeroDivision) := by
  have hc' := abs_le.1 hc
  have ht' := abs_le.1 ht
  have hok : cur ≠ target → target ≠ m → ∃ v, computeLimitPrice cur target m f w = .ok v := by
    intro h1 h2
    refine ⟨((pyRange (cur + if target > cur then 1 else -1).natAbs (target + 1).natAbs).map
      fun j : ℕ => breakEven f w m j).sum / ((target - cur : ℤ) : ℝ), ?_⟩
    unfold computeLimitPrice
    simp only []
    rw [mapM_ok_of_forall _ (fun j : ℕ => breakEven f w m j)]
    · rw [py_bind_ok, if_neg (by omega)]
    · intro j hj
      simp only [pyRange, List.mem_map, List.mem_range] at hj
      obtain ⟨k, hk, rfl⟩ := hj
      rw [if_neg (by omega), inversePrice_step f w m _ hw (by omega)]
  have herr : ¬ (cur ≠ target ∧ target ≠ m) → computeLimitPrice cur target m f w = .error .zeroDivision := by
    intro h
    have hm0 : ∀ j ∈ pyRange (cur + if target > cur then 1 else -1).natAbs (target + 1).natAbs,
        (∃ v : ℝ, (if m = 0 then .error .zeroDivision else inversePrice f w ((j : ℝ) / (m : ℝ)) : Py ℝ) = .ok v) ∨
        (if m = 0 then .error .zeroDivision else inversePrice f w ((j : ℝ) / (m : ℝ)) : Py ℝ) = .error .zeroDivision := by
      intro j hj
      simp only [pyRange, List.mem_map, List.mem_range] at hj
      obtain ⟨k, hk, rfl⟩ := hj
      by_cases hm : m = 0
      · exact Or.inr (if_pos hm)
      · rw [if_neg hm]
        by_cases hjm : (cur + if target > cur then 1 else -1).natAbs + k < m
        · exact Or.inl ⟨_, inversePrice_step f w m _ hw hjm⟩
        · right
          have : (cur + if target > cur then 1 else -1).natAbs + k = m := by omega
          have hm' : (m : ℝ) ≠ 0 := by exact_mod_cast hm
          rw [this, inversePrice, if_pos (by field_simp; norm_num)]
    have hall : ∀ l : List ℕ, (∀ j ∈ l,
        (∃ v : ℝ, (if m = 0 then .error .zeroDivision else inversePrice f w ((j : ℝ) / (m : ℝ)) : Py ℝ) = .ok v) ∨
        (if m = 0 then .error .zeroDivision else inversePrice f w ((j : ℝ) / (m : ℝ)) : Py ℝ) = .error .zeroDivision) →
        (∃ v, (l.mapM fun j : ℕ => (if m = 0 then .error .zeroDivision
          else inversePrice f w ((j : ℝ) / (m : ℝ)) : Py ℝ)) = .ok v) ∨
        (l.mapM fun j : ℕ => (if m = 0 then .error .zeroDivision
          else inversePrice f w ((j : ℝ) / (m : ℝ)) : Py ℝ)) = .error .zeroDivision := by
      intro l
      induction l with
      | nil => intro _; exact Or.inl ⟨[], rfl⟩
      | cons j l ih =>
        intro hl
        rw [mapM_cons_py]
        rcases hl j (by simp) with ⟨v, hv⟩ | hv
        · rw [hv, py_bind_ok]
          rcases ih (fun i hi => hl i (by simp [hi])) with ⟨u, hu⟩ | hu
          · exact Or.inl ⟨v :: u, by rw [hu]; rfl⟩
          · exact Or.inr (by rw [hu]; rfl)
        · exact Or.inr (by rw [hv]; rfl)
    by_cases h1 : cur = target
    · unfold computeLimitPrice
      simp only []
      rcases hall _ hm0 with ⟨v, hv⟩ | hv
      · rw [hv, py_bind_ok, if_pos (by omega)]
      · rw [hv]
        rfl
    · have h2 : target = m := by
        by_contra h2
        exact h ⟨h1, h2⟩
      have hlt : target > cur := by omega
      have hmem : m ∈ pyRange (cur + if target > cur then 1 else -1).natAbs (target + 1).natAbs := by
        rw [if_pos hlt]
        simp only [pyRange, List.mem_map, List.mem_range]
        exact ⟨m - (cur + 1).natAbs, by omega, by omega⟩
      have hm' : (m : ℝ) ≠ 0 := by exact_mod_cast (by omega : m ≠ 0)
      unfold computeLimitPrice
      simp only []
      rw [mapM_error_eq _ _ .zeroDivision m hmem]
      · rfl
      · rw [if_neg (by omega), inversePrice, if_pos (by field_simp; norm_num)]
      · intro j hj e' he
        rcases hm0 j hj with ⟨v, hv⟩ | hv
        · rw [hv] at he
          cases he
        · rw [hv] at he
          exact (Except.error.inj he).symm
  refine ⟨⟨?_, fun h => hok h.1 h.2⟩, herr⟩
  rintro ⟨v, hv⟩
  by_contra h
  rw [herr h] at hv
  cases hv

end FinML.Alloc
