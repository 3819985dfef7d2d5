import Verif.Options.BinomProps
import Verif.Options.BsmProps
import Mathlib.MeasureTheory.Measure.LevyConvergence
import Mathlib.Analysis.SpecialFunctions.Complex.LogBounds
import Mathlib.Analysis.SpecialFunctions.Trigonometric.DerivHyp

/-! # The law of the last row of a tree tends to a normal law -/

namespace FinML.Options

open MeasureTheory ProbabilityTheory Filter Topology

/-! ## Limits at 0 -/

theorem tendsto_sin_div (x : ℝ) : Tendsto (fun y : ℝ => Real.sin (x * y) / y) (𝓝[≠] 0) (𝓝 x) := by
  have h : HasDerivAt (fun y : ℝ => Real.sin (x * y)) x 0 := by
    have := (Real.hasDerivAt_sin (x * 0)).comp (0 : ℝ) ((hasDerivAt_id (0 : ℝ)).const_mul x)
    simpa [Function.comp_def] using this
  have := h.tendsto_slope_zero
  simpa [div_eq_inv_mul] using this

theorem tendsto_sinh_div (x : ℝ) : Tendsto (fun y : ℝ => Real.sinh (x * y) / y) (𝓝[≠] 0) (𝓝 x) := by
  have h : HasDerivAt (fun y : ℝ => Real.sinh (x * y)) x 0 := by
    have := (Real.hasDerivAt_sinh (x * 0)).comp (0 : ℝ) ((hasDerivAt_id (0 : ℝ)).const_mul x)
    simpa [Function.comp_def] using this
  have := h.tendsto_slope_zero
  simpa [div_eq_inv_mul] using this

theorem tendsto_cos_div (x : ℝ) :
    Tendsto (fun y : ℝ => (Real.cos (x * y) - 1) / y ^ 2) (𝓝[≠] 0) (𝓝 (-(x ^ 2 / 2))) := by
  have h := ((tendsto_sin_div (x / 2)).pow 2).const_mul (-2)
  have e : -2 * (x / 2) ^ 2 = -(x ^ 2 / 2) := by ring
  rw [e] at h
  refine h.congr fun y => ?_
  have h2 := Real.cos_sq' (x / 2 * y)
  have h3 := Real.cos_two_mul (x / 2 * y)
  rw [show 2 * (x / 2 * y) = x * y by ring] at h3
  rw [h3, h2]
  ring

theorem tendsto_cosh_div :
    Tendsto (fun y : ℝ => (Real.cosh y - 1) / y ^ 2) (𝓝[≠] 0) (𝓝 (1 / 2)) := by
  have h := ((tendsto_sinh_div (1 / 2)).pow 2).const_mul 2
  have e : (2 : ℝ) * (1 / 2) ^ 2 = 1 / 2 := by norm_num
  rw [e] at h
  refine h.congr fun y => ?_
  have h3 := Real.cosh_two_mul (1 / 2 * y)
  have h2 := Real.cosh_sq (1 / 2 * y)
  rw [show 2 * (1 / 2 * y) = y by ring] at h3
  rw [h3, h2]
  ring

theorem tendsto_exp_div (b : ℝ) :
    Tendsto (fun y : ℝ => (Real.exp (b * y ^ 2) - 1) / y ^ 2) (𝓝[≠] 0) (𝓝 b) := by
  have h : HasDerivAt (fun y : ℝ => Real.exp (b * y)) b 0 := by
    have := (Real.hasDerivAt_exp (b * 0)).comp (0 : ℝ) ((hasDerivAt_id (0 : ℝ)).const_mul b)
    simpa [Function.comp_def] using this
  have h1 := h.tendsto_slope_zero
  have h2 : Tendsto (fun y : ℝ => y ^ 2) (𝓝[≠] 0) (𝓝[≠] 0) := by
    rw [tendsto_nhdsWithin_iff]
    constructor
    · have : Tendsto (fun y : ℝ => y ^ 2) (𝓝 0) (𝓝 (0 ^ 2)) := (continuous_pow 2).tendsto 0
      rw [zero_pow two_ne_zero] at this
      exact this.mono_left nhdsWithin_le_nhds
    · filter_upwards [self_mem_nhdsWithin] with y hy
      exact pow_ne_zero 2 hy
  have h3 := h1.comp h2
  refine h3.congr fun y => ?_
  simp [div_eq_inv_mul]

/-- The probability of going up, less that of going down, in terms of the movement `y` of the logarithm. -/
noncomputable def tilt (b y : ℝ) : ℝ := (Real.exp (b * y ^ 2) - Real.cosh y) / Real.sinh y

theorem tendsto_tilt (b : ℝ) : Tendsto (fun y : ℝ => tilt b y / y) (𝓝[≠] 0) (𝓝 (b - 1 / 2)) := by
  have h1 := (tendsto_exp_div b).sub tendsto_cosh_div
  have h2 := tendsto_sinh_div 1
  have h3 := h1.div h2 one_ne_zero
  rw [div_one] at h3
  refine h3.congr' ?_
  filter_upwards [self_mem_nhdsWithin] with y hy
  have hy' : y ≠ 0 := hy
  have hs : Real.sinh y ≠ 0 := by simpa [Real.sinh_eq_zero] using hy'
  simp only [Pi.div_apply, one_mul]
  unfold tilt
  field_simp
  ring

/-! ## The characteristic function of one step -/

/-- The movement of the logarithm in one of `n` steps. -/
noncomputable def move (t sigma : ℝ) (n : ℕ) : ℝ := sigma * √(t / n)

theorem tendsto_move {t sigma : ℝ} (ht : 0 < t) (hs : 0 < sigma) :
    Tendsto (fun n : ℕ => move t sigma n) atTop (𝓝[≠] 0) := by
  rw [tendsto_nhdsWithin_iff]
  constructor
  · have h1 : Tendsto (fun n : ℕ => t / (n : ℝ)) atTop (𝓝 0) := tendsto_const_div_atTop_nhds_zero_nat t
    have h2 := (Real.continuous_sqrt.tendsto 0).comp h1
    rw [Real.sqrt_zero] at h2
    have h3 := h2.const_mul sigma
    rw [mul_zero] at h3
    exact h3
  · filter_upwards [eventually_gt_atTop 0] with n hn
    have : (0 : ℝ) < n := by exact_mod_cast hn
    exact (mul_pos hs (Real.sqrt_pos.2 (div_pos ht this))).ne'

theorem move_sq {t sigma : ℝ} (ht : 0 < t) {n : ℕ} (hn : 0 < n) : (n : ℝ) * move t sigma n ^ 2 = sigma ^ 2 * t := by
  have : (0 : ℝ) < n := by exact_mod_cast hn
  unfold move
  rw [mul_pow, Real.sq_sqrt (div_pos ht this).le]
  field_simp

theorem tendsto_step {t sigma : ℝ} (ht : 0 < t) (hs : 0 < sigma) (b x : ℝ) :
    Tendsto (fun n : ℕ => (n : ℂ) * (((Real.cos (x * move t sigma n) - 1 : ℝ) : ℂ) +
        ((tilt b (move t sigma n) * Real.sin (x * move t sigma n) : ℝ) : ℂ) * Complex.I)) atTop
      (𝓝 (((-(sigma ^ 2 * t * x ^ 2 / 2) : ℝ) : ℂ) +
        ((sigma ^ 2 * t * (b - 1 / 2) * x : ℝ) : ℂ) * Complex.I)) := by
  have hm := tendsto_move ht hs
  have h1 : Tendsto (fun n : ℕ => (n : ℝ) * (Real.cos (x * move t sigma n) - 1)) atTop
      (𝓝 (-(sigma ^ 2 * t * x ^ 2 / 2))) := by
    have := ((tendsto_cos_div x).comp hm).const_mul (sigma ^ 2 * t)
    rw [show sigma ^ 2 * t * -(x ^ 2 / 2) = -(sigma ^ 2 * t * x ^ 2 / 2) by ring] at this
    refine this.congr' ?_
    filter_upwards [eventually_gt_atTop 0, hm.eventually self_mem_nhdsWithin] with n hn hne
    have hne' : move t sigma n ≠ 0 := hne
    rw [← move_sq (sigma := sigma) ht hn]
    simp only [Function.comp_apply]
    field_simp
  have h2 : Tendsto (fun n : ℕ => (n : ℝ) * (tilt b (move t sigma n) * Real.sin (x * move t sigma n))) atTop
      (𝓝 (sigma ^ 2 * t * (b - 1 / 2) * x)) := by
    have := (((tendsto_tilt b).mul (tendsto_sin_div x)).comp hm).const_mul (sigma ^ 2 * t)
    rw [← mul_assoc] at this
    refine this.congr' ?_
    filter_upwards [eventually_gt_atTop 0, hm.eventually self_mem_nhdsWithin] with n hn hne
    have hne' : move t sigma n ≠ 0 := hne
    rw [← move_sq (sigma := sigma) ht hn]
    simp only [Function.comp_apply]
    field_simp
  have h3 := ((Complex.continuous_ofReal.tendsto _).comp h1).add
    (((Complex.continuous_ofReal.tendsto _).comp h2).mul_const Complex.I)
  refine h3.congr fun n => ?_
  simp only [Function.comp_apply]
  push_cast
  ring

/-! ## The law of the last row -/

/-- The binomial law on the points `(2j - n)·y`. -/
noncomputable def rowLaw (p y : ℝ) (n : ℕ) : Measure ℝ :=
  ∑ j ∈ Finset.range (n + 1), ENNReal.ofReal ((n.choose j : ℝ) * (p ^ j * (1 - p) ^ (n - j))) •
    Measure.dirac ((2 * (j : ℝ) - n) * y)

theorem rowLaw_weight {p : ℝ} (h0 : 0 ≤ p) (h1 : p ≤ 1) (n j : ℕ) :
    0 ≤ (n.choose j : ℝ) * (p ^ j * (1 - p) ^ (n - j)) := by
  have : 0 ≤ 1 - p := by linarith
  positivity

theorem binom_sum_one (p : ℝ) (n : ℕ) :
    ∑ j ∈ Finset.range (n + 1), (n.choose j : ℝ) * (p ^ j * (1 - p) ^ (n - j)) = 1 := by
  have h := add_pow p (1 - p) n
  rw [add_sub_cancel, one_pow] at h
  refine Eq.trans (Finset.sum_congr rfl fun j _ => ?_) h.symm
  ring

theorem rowLaw_prob {p : ℝ} (h0 : 0 ≤ p) (h1 : p ≤ 1) (y : ℝ) (n : ℕ) : IsProbabilityMeasure (rowLaw p y n) := by
  constructor
  unfold rowLaw
  rw [Measure.finsetSum_apply]
  simp only [Measure.smul_apply, measure_univ, smul_eq_mul, mul_one]
  rw [← ENNReal.ofReal_sum_of_nonneg fun j _ => rowLaw_weight h0 h1 n j, binom_sum_one, ENNReal.ofReal_one]

theorem integral_rowLaw {E : Type} [NormedAddCommGroup E] [NormedSpace ℝ E] [CompleteSpace E] {p : ℝ} (h0 : 0 ≤ p)
    (h1 : p ≤ 1) (y : ℝ) (n : ℕ) (f : ℝ → E) :
    ∫ x, f x ∂rowLaw p y n = ∑ j ∈ Finset.range (n + 1),
      ((n.choose j : ℝ) * (p ^ j * (1 - p) ^ (n - j))) • f ((2 * (j : ℝ) - n) * y) := by
  unfold rowLaw
  rw [integral_finsetSum_measure]
  · apply Finset.sum_congr rfl
    intro j _
    rw [integral_smul_measure, integral_dirac, ENNReal.toReal_ofReal (rowLaw_weight h0 h1 n j)]
  · intro j _
    exact (integrable_dirac (by simp)).smul_measure ENNReal.ofReal_ne_top

theorem charFun_rowLaw {p : ℝ} (h0 : 0 ≤ p) (h1 : p ≤ 1) (y : ℝ) (n : ℕ) (x : ℝ) :
    charFun (rowLaw p y n) x = (1 + (((Real.cos (x * y) - 1 : ℝ) : ℂ) +
        (((2 * p - 1) * Real.sin (x * y) : ℝ) : ℂ) * Complex.I)) ^ n := by
  rw [charFun_apply_real, integral_rowLaw h0 h1]
  have e : (1 + (((Real.cos (x * y) - 1 : ℝ) : ℂ) +
        (((2 * p - 1) * Real.sin (x * y) : ℝ) : ℂ) * Complex.I)) =
      (p : ℂ) * Complex.exp ((x * y : ℝ) * Complex.I) + (1 - p : ℂ) * Complex.exp (-((x * y : ℝ) * Complex.I)) := by
    rw [← neg_mul, ← Complex.ofReal_neg, Complex.exp_mul_I, Complex.exp_mul_I, ← Complex.ofReal_cos,
      ← Complex.ofReal_sin, ← Complex.ofReal_cos, ← Complex.ofReal_sin, Real.cos_neg, Real.sin_neg]
    push_cast
    ring
  rw [e, add_pow]
  apply Finset.sum_congr rfl
  intro j hj
  have hj' : j ≤ n := Nat.lt_succ_iff.1 (Finset.mem_range.1 hj)
  rw [mul_pow, mul_pow, ← Complex.exp_nat_mul, ← Complex.exp_nat_mul, Complex.real_smul]
  have e2 : Complex.exp (x * (((2 * (j : ℝ) - n) * y : ℝ) : ℂ) * Complex.I) =
      Complex.exp ((j : ℂ) * ((x * y : ℝ) * Complex.I)) *
        Complex.exp (((n - j : ℕ) : ℂ) * -((x * y : ℝ) * Complex.I)) := by
    rw [← Complex.exp_add]
    congr 1
    push_cast [Nat.cast_sub hj']
    ring
  rw [e2]
  push_cast
  ring

theorem rowLaw_tendsto {t sigma : ℝ} (ht : 0 < t) (hs : 0 < sigma) (b : ℝ) (p : ℕ → ℝ)
    (hp : ∀ᶠ n in atTop, 0 ≤ p n ∧ p n ≤ 1)
    (htilt : ∀ᶠ n in atTop, 2 * p n - 1 = tilt b (move t sigma n)) (f : BoundedContinuousFunction ℝ ℝ) :
    Tendsto (fun n : ℕ => ∫ x, f x ∂rowLaw (p n) (move t sigma n) n) atTop
      (𝓝 (∫ x, f x ∂gaussianReal (sigma ^ 2 * t * (b - 1 / 2)) (Real.toNNReal (sigma ^ 2 * t)))) := by
  classical
  let P : ℕ → ProbabilityMeasure ℝ := fun n =>
    if h : 0 ≤ p n ∧ p n ≤ 1 then ⟨rowLaw (p n) (move t sigma n) n, rowLaw_prob h.1 h.2 _ _⟩
    else ⟨Measure.dirac 0, inferInstance⟩
  have hP : ∀ n, 0 ≤ p n ∧ p n ≤ 1 → ((P n : ProbabilityMeasure ℝ) : Measure ℝ) = rowLaw (p n) (move t sigma n) n := by
    intro n h
    have e : P n = ⟨rowLaw (p n) (move t sigma n) n, rowLaw_prob h.1 h.2 _ _⟩ := dif_pos h
    rw [e]
    rfl
  let N : ProbabilityMeasure ℝ :=
    ⟨gaussianReal (sigma ^ 2 * t * (b - 1 / 2)) (Real.toNNReal (sigma ^ 2 * t)), inferInstance⟩
  have hN : (N : Measure ℝ) = gaussianReal (sigma ^ 2 * t * (b - 1 / 2)) (Real.toNNReal (sigma ^ 2 * t)) := rfl
  have hlim : Tendsto P atTop (𝓝 N) := by
    apply ProbabilityMeasure.tendsto_of_tendsto_charFun
    intro x
    rw [hN, charFun_gaussianReal]
    have h := Complex.tendsto_one_add_pow_exp_of_tendsto (tendsto_step ht hs b x)
    have e : ((-(sigma ^ 2 * t * x ^ 2 / 2) : ℝ) : ℂ) +
        ((sigma ^ 2 * t * (b - 1 / 2) * x : ℝ) : ℂ) * Complex.I =
        (x : ℂ) * ((sigma ^ 2 * t * (b - 1 / 2) : ℝ) : ℂ) * Complex.I -
          ((Real.toNNReal (sigma ^ 2 * t) : NNReal) : ℂ) * (x : ℂ) ^ 2 / 2 := by
      have : ((Real.toNNReal (sigma ^ 2 * t) : NNReal) : ℂ) = ((sigma ^ 2 * t : ℝ) : ℂ) := by
        rw [← Complex.ofReal_inj.2 (Real.coe_toNNReal (sigma ^ 2 * t) (by positivity))]
      rw [this]
      push_cast
      ring
    rw [e] at h
    refine h.congr' ?_
    filter_upwards [hp, htilt] with n h1 h2
    rw [hP n h1, charFun_rowLaw h1.1 h1.2, h2]
  have h := (ProbabilityMeasure.tendsto_iff_forall_integral_tendsto.1 hlim) f
  refine h.congr' ?_
  filter_upwards [hp] with n h1
  rw [hP n h1]

end FinML.Options
