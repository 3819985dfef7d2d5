import Verif.Risk.ComplexModel
import Verif.Py.Lemmas
import Mathlib.Tactic.Linarith
import Mathlib.Tactic.FieldSimp
import Mathlib.Tactic.LinearCombination

/-! # Property C315: precisions and frequencies that do not exist -/

namespace FinML.Risk

theorem powHalfC_of_powHalf {x r : ℝ} (h : powHalf x = .ok r) : powHalfC x = (r : ℂ) := by
  unfold powHalf at h
  unfold powHalfC
  split_ifs at h ⊢
  cases h
  rfl

theorem pyDivC_of_pyDiv {a b q : ℝ} (h : pyDiv a b = .ok q) : pyDivC (a : ℂ) (b : ℂ) = .ok (q : ℂ) := by
  unfold pyDiv at h
  unfold pyDivC
  split_ifs at h with hb
  cases h
  rw [if_neg (by exact_mod_cast hb)]
  push_cast
  rfl

theorem strategySharpeC_agree (p freq profit loss v : ℝ) (h : strategySharpe p freq profit loss = .ok v) :
    strategySharpeC p freq profit loss = .ok (v : ℂ) := by
  unfold strategySharpe at h
  simp only [py_bind_eq_ok, py_pure] at h
  obtain ⟨r, h1, q, h2, f, h3, h⟩ := h
  cases h
  unfold strategySharpeC
  simp only
  rw [powHalfC_of_powHalf h1, powHalfC_of_powHalf h3, ← Complex.ofReal_mul, pyDivC_of_pyDiv h2, py_bind_ok, py_pure]
  push_cast
  rfl

/-- C315: where the model over the reals has a value this is the value. -/
theorem C315_agree (target p freq profit loss : ℝ) :
    (∀ v, strategySharpe p freq profit loss = .ok v → strategySharpeC p freq profit loss = .ok (v : ℂ)) ∧
    (∀ v, requiredPrecision target freq profit loss = .ok v → requiredPrecisionC target freq profit loss = .ok (v : ℂ)) ∧
    (∀ v, requiredFreq target p profit loss = .ok v → requiredFreqC target p profit loss = .ok v) := by
  refine ⟨strategySharpeC_agree p freq profit loss, ?_, ?_⟩
  · intro v h
    unfold requiredPrecision at h
    simp only [py_bind_eq_ok] at h
    obtain ⟨r, h1, h⟩ := h
    unfold requiredPrecisionC
    simp only
    rw [powHalfC_of_powHalf h1, ← Complex.ofReal_add, pyDivC_of_pyDiv h]
  · intro v h
    unfold requiredFreq at h
    simp only [py_bind_eq_ok, py_pure] at h
    obtain ⟨f, h1, sr, h2, h⟩ := h
    unfold requiredFreqC
    rw [h1, py_bind_ok, strategySharpeC_agree _ _ _ _ _ h2, py_bind_ok, ← h]
    unfold IsCloseC IsClose
    rw [← Complex.ofReal_sub, Complex.norm_real, Real.norm_eq_abs, py_pure]

theorem discriminant (target freq profit loss : ℝ) :
    ((2 * freq * loss - target ^ 2 * (profit - loss)) * (profit - loss)) ^ 2 -
      4 * ((freq + target ^ 2) * (profit - loss) ^ 2) * (freq * loss ^ 2) =
    ((profit - loss) * target) ^ 2 * ((target * (profit - loss)) ^ 2 - 4 * freq * loss * profit) := by
  ring

/-- C315, the full claim: the required precision is a real number. -/
def PrecisionReal : Prop :=
  ∀ (target freq profit loss : ℝ) (z : ℂ), 0 < freq → requiredPrecisionC target freq profit loss = .ok z → z.im = 0

/-- C315: the required precision of a target other than 0 is a real number just if `4·freq·loss·profit` is at most
`(target·(profit - loss))²`. -/
theorem C315_precision_iff (target freq profit loss : ℝ) (z : ℂ) (ht : target ≠ 0)
    (h : requiredPrecisionC target freq profit loss = .ok z) :
    z.im = 0 ↔ 4 * freq * loss * profit ≤ (target * (profit - loss)) ^ 2 := by
  unfold requiredPrecisionC at h
  simp only at h
  rw [discriminant] at h
  set a := (freq + target ^ 2) * (profit - loss) ^ 2 with ha
  unfold pyDivC at h
  split_ifs at h with h0
  have ha0 : (2 * a : ℝ) ≠ 0 := by exact_mod_cast h0
  have hd : profit - loss ≠ 0 := by
    intro hd
    rw [ha, hd] at ha0
    simp at ha0
  have hpos : 0 < ((profit - loss) * target) ^ 2 := by positivity
  cases h
  rw [Complex.div_ofReal_im, div_eq_zero_iff, or_iff_left ha0, Complex.add_im, Complex.ofReal_im, zero_add]
  unfold powHalfC
  split_ifs with hneg
  · simp only
    rw [Real.sqrt_eq_zero']
    constructor
    · intro hh
      linarith
    · intro hh
      exfalso
      have := mul_nonneg hpos.le (sub_nonneg.2 hh)
      linarith
  · simp only [Complex.ofReal_im, true_iff]
    by_contra hlt
    push Not at hlt
    have := mul_neg_of_pos_of_neg hpos (sub_neg.2 hlt)
    exact hneg this

/-- C315 for a loss that is not positive and a profit that is not negative.

Missing: losses given as positive numbers (refuted by `C315_precision_counterexample`). -/
theorem C315_precision_partial (target freq profit loss : ℝ) (z : ℂ) (hf : 0 < freq) (hp : 0 ≤ profit) (hl : loss ≤ 0)
    (h : requiredPrecisionC target freq profit loss = .ok z) : z.im = 0 := by
  by_cases ht : target = 0
  · subst ht
    unfold requiredPrecisionC at h
    simp only at h
    rw [discriminant] at h
    unfold pyDivC at h
    split_ifs at h with h0
    cases h
    rw [Complex.div_ofReal_im]
    simp [powHalfC]
  · rw [C315_precision_iff target freq profit loss z ht h]
    have : 4 * freq * loss * profit ≤ 0 := by
      have := mul_nonneg (mul_nonneg hf.le hp) (neg_nonneg.2 hl)
      nlinarith
    nlinarith [sq_nonneg (target * (profit - loss))]

/-- C315, the full claim does not hold: with a profit of 2 and a "loss" of plus 1 the precision is complex. -/
theorem C315_precision_counterexample : ¬ PrecisionReal := by
  intro h
  have h1 : ∃ z, requiredPrecisionC 1 1 2 1 = .ok z := by
    unfold requiredPrecisionC pyDivC
    simp only
    rw [if_neg (by norm_num)]
    exact ⟨_, rfl⟩
  obtain ⟨z, hz⟩ := h1
  have h2 := h 1 1 2 1 z one_pos hz
  rw [C315_precision_iff 1 1 2 1 z one_ne_zero hz] at h2
  norm_num at h2

theorem powHalfC_neg {x : ℝ} (h : x < 0) : powHalfC x = (√(-x) : ℝ) * Complex.I := by
  unfold powHalfC
  rw [if_pos h]
  apply Complex.ext <;> simp

theorem powHalfC_nonneg {x : ℝ} (h : 0 ≤ x) : powHalfC x = ((√x : ℝ) : ℂ) := by
  unfold powHalfC
  rw [if_neg (not_lt.2 h)]

/-- C315: the Sharpe ratio at a precision above 1 is imaginary. -/
theorem C315_impossible (p freq profit loss : ℝ) (hp : 1 < p) (hf : 0 ≤ freq) (hd : loss < profit) :
    strategySharpeC p freq profit loss =
      .ok ⟨0, -(((profit - loss) * p + loss) / ((profit - loss) * √(p * (p - 1))) * √freq)⟩ := by
  have hneg : p * (1 - p) < 0 := mul_neg_of_pos_of_neg (by linarith) (by linarith)
  have hpos : 0 < p * (p - 1) := by nlinarith
  have hr : 0 < √(p * (p - 1)) := Real.sqrt_pos.2 hpos
  have hdd : 0 < profit - loss := by linarith
  unfold strategySharpeC
  simp only
  rw [powHalfC_neg hneg, powHalfC_nonneg hf, show -(p * (1 - p)) = p * (p - 1) by ring]
  unfold pyDivC
  have hden : ((profit - loss : ℝ) : ℂ) * ((√(p * (p - 1)) : ℝ) * Complex.I) ≠ 0 := by
    refine mul_ne_zero (by exact_mod_cast hdd.ne') (mul_ne_zero (by exact_mod_cast hr.ne') Complex.I_ne_zero)
  rw [if_neg hden, py_bind_ok, py_pure]
  congr 1
  have hI : (((profit - loss) * p + loss : ℝ) : ℂ) / (((profit - loss : ℝ) : ℂ) * ((√(p * (p - 1)) : ℝ) * Complex.I)) *
      ((√freq : ℝ) : ℂ) = ((-(((profit - loss) * p + loss) / ((profit - loss) * √(p * (p - 1))) * √freq) : ℝ) : ℂ) * Complex.I := by
    rw [div_mul_eq_mul_div, div_eq_iff hden]
    push_cast
    have h1 : ((profit : ℂ) - loss) ≠ 0 := by exact_mod_cast hdd.ne'
    have h2 : ((√(p * (p - 1)) : ℝ) : ℂ) ≠ 0 := by exact_mod_cast hr.ne'
    field_simp
    rw [Complex.I_sq]
    ring
  rw [hI]
  generalize -(((profit - loss) * p + loss) / ((profit - loss) * √(p * (p - 1))) * √freq) = v
  apply Complex.ext <;> simp

/-- C315, the full claim for frequencies: a required frequency is not negative. -/
def FreqNonneg : Prop :=
  ∀ target p profit loss f : ℝ, requiredFreqC target p profit loss = .ok (some f) → 0 ≤ f

/-- C315 for precisions between 0 and 1. -/
theorem C315_freq_partial (target p profit loss f : ℝ) (h0 : 0 ≤ p) (h1 : p ≤ 1)
    (h : requiredFreqC target p profit loss = .ok (some f)) : 0 ≤ f := by
  unfold requiredFreqC at h
  simp only [py_bind_eq_ok, py_pure] at h
  obtain ⟨g, hg, sr, -, h⟩ := h
  unfold pyDiv at hg
  split_ifs at hg
  cases hg
  have hnn : 0 ≤ (target * (profit - loss)) ^ 2 * p * (1 - p) / (((profit - loss) * p + loss) ^ 2) :=
    div_nonneg (mul_nonneg (mul_nonneg (sq_nonneg _) h0) (by linarith)) (sq_nonneg _)
  split_ifs at h
  · cases h
    exact hnn
  · cases h

/-- C315: for a precision above 1 and a positive target the required frequency is a negative number. -/
theorem C315_freq_impossible (target p profit loss : ℝ) (hp : 1 < p) (ht : 0 < target) (hd : loss < profit)
    (hn : 0 < (profit - loss) * p + loss) : ∃ f, f < 0 ∧ requiredFreqC target p profit loss = .ok (some f) := by
  set d := profit - loss with hdd
  have hd0 : 0 < d := by rw [hdd]; linarith
  set N := d * p + loss with hN
  have hpp : 0 < p * (p - 1) := mul_pos (by linarith) (by linarith)
  have hr : 0 < √(p * (p - 1)) := Real.sqrt_pos.2 hpp
  refine ⟨(target * d) ^ 2 * p * (1 - p) / N ^ 2, ?_, ?_⟩
  · apply div_neg_of_neg_of_pos _ (by positivity)
    have : 0 < (target * d) ^ 2 := by positivity
    nlinarith
  · have hneg : p * (1 - p) < 0 := by nlinarith
    have hfneg : (target * d) ^ 2 * p * (1 - p) / N ^ 2 < 0 := by
      apply div_neg_of_neg_of_pos _ (by positivity)
      have : 0 < (target * d) ^ 2 := by positivity
      nlinarith
    have hroot : √(-((target * d) ^ 2 * p * (1 - p) / N ^ 2)) = target * d / N * √(p * (p - 1)) := by
      rw [show -((target * d) ^ 2 * p * (1 - p) / N ^ 2) = (target * d / N) ^ 2 * (p * (p - 1)) by
        field_simp
        ring, Real.sqrt_mul (sq_nonneg _), Real.sqrt_sq (by positivity)]
    have hsr : strategySharpeC p ((target * d) ^ 2 * p * (1 - p) / N ^ 2) profit loss = .ok (target : ℂ) := by
      unfold strategySharpeC
      simp only
      rw [powHalfC_neg hneg, powHalfC_neg hfneg, hroot, show -(p * (1 - p)) = p * (p - 1) by ring]
      unfold pyDivC
      have hden : ((profit - loss : ℝ) : ℂ) * ((√(p * (p - 1)) : ℝ) * Complex.I) ≠ 0 := by
        refine mul_ne_zero (by exact_mod_cast hd0.ne') (mul_ne_zero (by exact_mod_cast hr.ne') Complex.I_ne_zero)
      rw [if_neg hden, py_bind_ok, py_pure]
      congr 1
      rw [← hdd, ← hN]
      rw [← hdd] at hden
      rw [div_mul_eq_mul_div, div_eq_iff hden]
      have h1 : (N : ℂ) ≠ 0 := by exact_mod_cast hn.ne'
      push_cast
      field_simp
    unfold requiredFreqC
    unfold pyDiv
    rw [← hdd, ← hN, if_neg (by positivity), py_bind_ok, hsr, py_bind_ok, py_pure, if_pos]
    unfold IsCloseC
    rw [sub_self, norm_zero]
    positivity

/-- C315, the full claim for frequencies does not hold. -/
theorem C315_freq_counterexample : ¬ FreqNonneg := by
  intro h
  obtain ⟨f, hf, e⟩ := C315_freq_impossible 1 2 1 (-1) (by norm_num) one_pos (by norm_num) (by norm_num)
  exact absurd (h _ _ _ _ _ e) (not_le.2 hf)

/-- A required precision of an ordinary strategy exists. -/
example : ∃ z, requiredPrecisionC 1 52 (1 / 100) (-1 / 100) = .ok z := by
  unfold requiredPrecisionC pyDivC
  simp only
  rw [if_neg (by norm_num)]
  exact ⟨_, rfl⟩

end FinML.Risk
