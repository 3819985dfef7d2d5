import Verif.Stats.KdeProps
import Mathlib.Analysis.SpecialFunctions.Gaussian.GaussianIntegral

/-! # Property C333: moments and symmetry of kernel density estimates -/

namespace FinML.Stats

open MeasureTheory Set ProbabilityTheory

/-! ## Lemmas: moments of a kernel -/

theorem normPdf_first : Integrable (fun u => u * normPdf u) ∧ ∫ u, u * normPdf u = 0 := by
  constructor
  · have h := (integrable_mul_exp_neg_mul_sq (b := 1 / 2) (by norm_num)).const_mul (√(2 * Real.pi))⁻¹
    refine h.congr (Filter.Eventually.of_forall fun u => ?_)
    simp only [normPdf_eq]
    rw [show -(1 / 2) * u ^ 2 = -(u ^ 2) / 2 by ring]
    ring
  · have h := integral_id_gaussianReal (μ := 0) (v := 1)
    rw [integral_gaussianReal_eq_integral_smul one_ne_zero] at h
    rw [← h]
    refine integral_congr_ae (Filter.Eventually.of_forall fun u => ?_)
    simp only [smul_eq_mul, normPdf]
    ring

theorem normPdf_second : Integrable (fun u => u ^ 2 * normPdf u) ∧ ∫ u, u ^ 2 * normPdf u = 1 := by
  constructor
  · have h := (integrable_rpow_mul_exp_neg_mul_sq (b := 1 / 2) (by norm_num) (s := 2)
      (by norm_num)).const_mul (√(2 * Real.pi))⁻¹
    refine h.congr (Filter.Eventually.of_forall fun u => ?_)
    simp only [normPdf_eq, Real.rpow_two]
    rw [show -(1 / 2) * u ^ 2 = -(u ^ 2) / 2 by ring]
    ring
  · have hv := variance_id_gaussianReal (μ := 0) (v := 1)
    rw [variance_eq_integral measurable_id.aemeasurable] at hv
    simp only [id, integral_id_gaussianReal, sub_zero] at hv
    rw [integral_gaussianReal_eq_integral_smul one_ne_zero] at hv
    rw [NNReal.coe_one] at hv
    rw [← hv]
    refine integral_congr_ae (Filter.Eventually.of_forall fun u => ?_)
    simp only [smul_eq_mul, normPdf]
    ring

theorem kernel_subst (g : ℝ → ℝ) (hg : Integrable fun u => g u * normPdf u) (c h : ℝ) (hh : 0 < h) :
    Integrable (fun t => g ((t - c) / h) * (normPdf ((t - c) / h) / h)) ∧
    ∫ t, g ((t - c) / h) * (normPdf ((t - c) / h) / h) = ∫ u, g u * normPdf u := by
  have e : (fun t => g ((t - c) / h) * (normPdf ((t - c) / h) / h)) =
      fun t => (fun u => g (u / h) * normPdf (u / h) / h) (t - c) := by
    funext t
    simp only
    ring
  rw [e]
  constructor
  · exact ((hg.comp_div hh.ne').div_const h).comp_sub_right c
  · rw [integral_sub_right_eq_self (fun u => g (u / h) * normPdf (u / h) / h) c, integral_div,
      Measure.integral_comp_div (fun u => g u * normPdf u) h, abs_of_pos hh, smul_eq_mul]
    field_simp

theorem kernel_quadratic (a b d c h : ℝ) (hh : 0 < h) :
    Integrable (fun t => (a + b * ((t - c) / h) + d * ((t - c) / h) ^ 2) * (normPdf ((t - c) / h) / h)) ∧
    ∫ t, (a + b * ((t - c) / h) + d * ((t - c) / h) ^ 2) * (normPdf ((t - c) / h) / h) = a + d := by
  have e : (fun u => (a + b * u + d * u ^ 2) * normPdf u) =
      fun u => a * normPdf u + b * (u * normPdf u) + d * (u ^ 2 * normPdf u) := by
    funext u
    ring
  have i0 := integrable_normPdf.const_mul a
  have i1 := normPdf_first.1.const_mul b
  have i2 := normPdf_second.1.const_mul d
  have hi : Integrable fun u => (a + b * u + d * u ^ 2) * normPdf u := by
    rw [e]
    exact (i0.add i1).add i2
  have := kernel_subst (fun u => a + b * u + d * u ^ 2) hi c h hh
  refine ⟨this.1, this.2.trans ?_⟩
  have i01 : Integrable fun u => a * normPdf u + b * (u * normPdf u) := i0.add i1
  rw [e, integral_add i01 i2, integral_add i0 i1, integral_const_mul, integral_const_mul,
    integral_const_mul, integral_normPdf, normPdf_first.2, normPdf_second.2]
  ring

/-- The integral of a function against the estimate. -/
theorem kde_integral (k : Kde) (f : ℝ → ℝ) (F : ℝ → ℝ)
    (hf : ∀ c, Integrable (fun t => f t * (normPdf ((t - c) / k.width) / k.width)) ∧
      ∫ t, f t * (normPdf ((t - c) / k.width) / k.width) = F c) :
    Integrable (fun t => f t * k.pdf t) ∧ ∫ t, f t * k.pdf t = mean (k.points.map F) := by
  have e : (fun t => f t * k.pdf t) = fun t =>
      (k.points.map fun c => f t * (normPdf ((t - c) / k.width) / k.width)).sum / (k.points.length : ℝ) := by
    funext t
    unfold Kde.pdf mean
    rw [List.length_map, ← mul_div_assoc, List.sum_map_mul_left]
  have h := integral_list_sum volume k.points
    (fun c t => f t * (normPdf ((t - c) / k.width) / k.width)) fun c => (hf c).1
  rw [e]
  refine ⟨h.1.div_const _, ?_⟩
  rw [integral_div, h.2]
  unfold mean
  rw [List.length_map]
  simp only [(hf _).2]

/-! ## C333 -/

/-- C333.  The estimate is a density whose mean is the mean of the sample; its variance is the variance of
the sample (divided by `n`) plus `n^(-2/5)` times the variance divided by `n - 1`, so a little larger. -/
theorem C333_moments (l : List ℝ) (k : Kde) (hk : gaussianKde l = .ok k) :
    ∫ t, k.pdf t = 1 ∧ ∫ t, t * k.pdf t = l.sum / l.length ∧
    ∫ t, (t - l.sum / l.length) ^ 2 * k.pdf t =
      (l.map fun x => (x - l.sum / l.length) ^ 2).sum / l.length +
      (l.length : ℝ) ^ (-(2 / 5) : ℝ) *
        ((l.map fun x => (x - l.sum / l.length) ^ 2).sum / ((l.length : ℝ) - 1)) := by
  obtain ⟨h2, -, hp, hw, he⟩ := (gaussianKde_iff l k).1 hk
  have hl : l ≠ [] := by rintro rfl; simp at h2
  have hn : (1 : ℝ) < l.length := by exact_mod_cast h2
  refine ⟨?_, ?_, ?_⟩
  · have := (kde_integral k (fun _ => 1) (fun _ => 1) fun c => by
      have := kernel_quadratic 1 0 0 c k.width hw
      simpa using this).2
    simp only [one_mul] at this
    rw [this, hp, mean_const l hl]
  · have := (kde_integral k (fun t => t) (fun c => c) fun c => by
      have := kernel_quadratic c k.width 0 c k.width hw
      have e : ∀ t, c + k.width * ((t - c) / k.width) + 0 * ((t - c) / k.width) ^ 2 = t := by
        intro t
        have := hw.ne'
        field_simp
        ring
      simp only [e, add_zero] at this
      exact this).2
    rw [this, hp, List.map_id']
    rfl
  · have := (kde_integral k (fun t => (t - mean l) ^ 2) (fun c => 1 * (c - mean l) ^ 2 + k.width ^ 2)
      fun c => by
      have := kernel_quadratic ((c - mean l) ^ 2) (2 * (c - mean l) * k.width) (k.width ^ 2) c k.width hw
      have e : ∀ t, (c - mean l) ^ 2 + 2 * (c - mean l) * k.width * ((t - c) / k.width) +
          k.width ^ 2 * ((t - c) / k.width) ^ 2 = (t - mean l) ^ 2 := by
        intro t
        have := hw.ne'
        field_simp
        ring
      simp only [e] at this
      rw [one_mul]
      exact this).2
    rw [hp, mean_affine l hl (fun c => (c - mean l) ^ 2)] at this
    refine this.trans ?_
    have hpow : (l.length : ℝ) ^ (-(2 / 5) : ℝ) * (l.length : ℝ) ^ (2 / 5 : ℝ) = 1 := by
      rw [← Real.rpow_add (by linarith)]
      norm_num
    change 1 * mean (l.map fun x => (x - mean l) ^ 2) + _ =
      (l.map fun x => (x - mean l) ^ 2).sum / (l.length : ℝ) + _ *
        ((l.map fun x => (x - mean l) ^ 2).sum / ((l.length : ℝ) - 1))
    have hw2 : k.width ^ 2 = (l.length : ℝ) ^ (-(2 / 5) : ℝ) *
        ((l.map fun x => (x - mean l) ^ 2).sum / ((l.length : ℝ) - 1)) := by
      rw [← he]
      have : (l.length : ℝ) - 1 ≠ 0 := by linarith
      rw [mul_div_assoc, div_self this, mul_one, mul_comm (k.width ^ 2), ← mul_assoc, hpow, one_mul]
    rw [← hw2, one_mul]
    unfold mean
    rw [List.length_map]

theorem map_affine_mean (l : List ℝ) (hl : l ≠ []) (a b : ℝ) :
    mean (l.map fun x => a * x + b) = a * mean l + b := by
  have := mean_affine l hl (fun x => x) a b
  rwa [List.map_id'] at this

theorem kde_affine (l : List ℝ) (k : Kde) (hk : gaussianKde l = .ok k) (a b : ℝ) (ha : a ≠ 0) :
    gaussianKde (l.map fun x => a * x + b) = .ok ⟨l.map fun x => a * x + b, |a| * k.width⟩ := by
  obtain ⟨h2, hc, hp, hw, he⟩ := (gaussianKde_iff l k).1 hk
  have hl : l ≠ [] := by rintro rfl; simp at h2
  rw [gaussianKde_iff]
  refine ⟨by simpa using h2, ?_, rfl, mul_pos (abs_pos.2 ha) hw, ?_⟩
  · rintro ⟨c, h⟩
    apply hc
    refine ⟨(c - b) / a, fun x hx => ?_⟩
    have := h _ (List.mem_map_of_mem hx)
    rw [eq_div_iff ha]
    linarith
  · rw [map_affine_mean l hl, List.map_map, List.length_map]
    have e : ((fun x => (x - (a * mean l + b)) ^ 2) ∘ fun x => a * x + b) =
        fun x => a ^ 2 * (x - mean l) ^ 2 := by
      funext x
      simp only [Function.comp]
      ring
    rw [e, List.sum_map_mul_left, ← he]
    simp only
    rw [mul_pow, sq_abs]
    ring

/-- C333.  The estimate moves with the data: the estimate of `a·x + b` with `a > 0` has at `a·t + b` the
distribution function of the first estimate at `t`. -/
theorem C333_affine (l : List ℝ) (k : Kde) (hk : gaussianKde l = .ok k) (a b : ℝ) (ha : 0 < a) :
    ∃ k', gaussianKde (l.map fun x => a * x + b) = .ok k' ∧
      ∀ t, k'.cdf none (a * t + b) = k.cdf none t := by
  obtain ⟨-, -, hp, hw, -⟩ := (gaussianKde_iff l k).1 hk
  refine ⟨_, kde_affine l k hk a b ha.ne', fun t => ?_⟩
  have hw' : 0 < |a| * k.width := mul_pos (abs_pos.2 ha.ne') hw
  rw [cdf_none _ hw', cdf_none k hw, hp]
  simp only [List.map_map]
  congr 1
  apply List.map_congr_left
  intro x _
  simp only [Function.comp, abs_of_pos ha]
  rw [show a * t + b - (a * x + b) = a * (t - x) by ring, mul_div_mul_left _ _ ha.ne']

/-- C333.  Data with the opposite signs give the mirrored distribution. -/
theorem C333_mirror (l : List ℝ) (k : Kde) (hk : gaussianKde l = .ok k) :
    ∃ k', gaussianKde (l.map fun x => -x) = .ok k' ∧ ∀ t, k'.cdf none (-t) = 1 - k.cdf none t := by
  obtain ⟨h2, -, hp, hw, -⟩ := (gaussianKde_iff l k).1 hk
  have hl : l ≠ [] := by rintro rfl; simp at h2
  have hk' := kde_affine l k hk (-1) 0 (by norm_num)
  have e : (fun x : ℝ => -1 * x + 0) = fun x => -x := by
    funext x
    ring
  rw [e] at hk'
  refine ⟨_, hk', fun t => ?_⟩
  have hw' : 0 < |(-1 : ℝ)| * k.width := mul_pos (by norm_num) hw
  rw [cdf_none _ hw', cdf_none k hw, hp]
  simp only [List.map_map]
  have h1 : 1 - mean (l.map fun c => normCdf ((t - c) / k.width)) =
      mean (l.map fun c => -1 * normCdf ((t - c) / k.width) + 1) := by
    rw [mean_affine l hl]
    ring
  rw [h1]
  congr 1
  apply List.map_congr_left
  intro x _
  simp only [Function.comp, abs_neg, abs_one, one_mul]
  rw [show (-t - -x) / k.width = -((t - x) / k.width) by ring, normCdf_neg]
  ring

/-- C333.  If every point occurs with its opposite as often, half of the distribution is below zero. -/
theorem C333_symmetric (l : List ℝ) (k : Kde) (hk : gaussianKde l = .ok k)
    (hsym : (l.map fun x => -x).Perm l) : k.cdf none 0 = 1 / 2 := by
  obtain ⟨h2, -, hp, hw, he⟩ := (gaussianKde_iff l k).1 hk
  have hl : l ≠ [] := by rintro rfl; simp at h2
  rw [cdf_none k hw, hp]
  have h1 : mean (l.map fun c => normCdf ((0 - c) / k.width)) =
      mean (l.map fun c => -1 * normCdf ((0 - c) / k.width) + 1) := by
    have hq := (hsym.map fun c => normCdf ((0 - c) / k.width))
    unfold mean
    rw [← hq.sum_eq, ← hq.length_eq, List.map_map]
    rw [List.length_map, List.length_map]
    congr 2
    apply List.map_congr_left
    intro x _
    simp only [Function.comp]
    rw [show (0 - -x) / k.width = -((0 - x) / k.width) by ring, normCdf_neg]
    ring
  rw [mean_affine l hl] at h1
  linarith

/-- C333.  If every logit occurs with its opposite as often, the probability of overfitting is one half. -/
theorem C333_pbo (eval : List (List ℝ) → Py (List ℝ)) (argsort : List ℝ → List ℕ) (M : List (List ℝ)) (n : ℤ)
    (p : ℝ) (rows : List CV.PboRow) (h : pboProbability eval argsort M n = .ok (p, rows)) (logits : List ℝ)
    (hl : rows.map CV.PboRow.logit = logits.map some)
    (hsym : (logits.map fun x => -x).Perm logits) : p = 1 / 2 := by
  unfold pboProbability at h
  obtain ⟨rs, -, h⟩ := py_bind_eq_ok.1 h
  obtain ⟨ls, hls, h⟩ := py_bind_eq_ok.1 h
  obtain ⟨k, hk, h⟩ := py_bind_eq_ok.1 h
  rw [py_pure, Except.ok.injEq, Prod.mk.injEq] at h
  obtain ⟨h1, rfl⟩ := h
  rw [finite_logits rs logits hl, Except.ok.injEq] at hls
  subst hls
  rw [← h1]
  exact C333_symmetric logits k hk hsym

/-- The hypotheses hold for the logits -1, 1, 2, -2. -/
example : (∃ k, gaussianKde [-1, 1, 2, -2] = .ok k) ∧
    (([-1, 1, 2, -2] : List ℝ).map fun x => -x).Perm [-1, 1, 2, -2] := by
  constructor
  · unfold gaussianKde
    rw [if_neg (by simp)]
    simp only
    rw [if_neg]
    · exact ⟨_, rfl⟩
    · unfold mean
      norm_num
  · norm_num
    exact (List.Perm.swap _ _ _).trans (List.Perm.cons _ (List.Perm.cons _ (List.Perm.swap _ _ _)))

end FinML.Stats
