import Mathlib.Probability.Distributions.Gaussian.Real
import Mathlib.MeasureTheory.Integral.IntegralEqImproper
import Mathlib.MeasureTheory.Integral.IntervalIntegral.FundThmCalculus
import Mathlib.MeasureTheory.Measure.Haar.OfBasis
import Mathlib.MeasureTheory.Measure.Lebesgue.Integral

/-!
# The standard normal distribution

`scipy.stats.norm.pdf` and `scipy.stats.norm.cdf` as the density of Mathlib's Gaussian and its
integral.  Nothing about them is assumed: the facts used by the models are proved here.
-/

namespace FinML

open MeasureTheory ProbabilityTheory Set Filter Topology

/-- `norm.pdf(x)`: `exp(-x²/2)/√(2π)`; option.py:178. -/
noncomputable def normPdf (x : ℝ) : ℝ := gaussianPDFReal 0 1 x

/-- `norm.cdf(x)`; option.py:178, structural_breaks.py:45. -/
noncomputable def normCdf (x : ℝ) : ℝ := ∫ t in Iic x, normPdf t

theorem normPdf_eq (x : ℝ) : normPdf x = (√(2 * Real.pi))⁻¹ * Real.exp (-(x ^ 2) / 2) := by
  simp [normPdf, gaussianPDFReal]

theorem normPdf_pos (x : ℝ) : 0 < normPdf x := gaussianPDFReal_pos 0 1 x one_ne_zero

theorem normPdf_neg (x : ℝ) : normPdf (-x) = normPdf x := by simp [normPdf_eq]

theorem integrable_normPdf : Integrable normPdf := integrable_gaussianPDFReal 0 1

theorem integral_normPdf : ∫ x, normPdf x = 1 := integral_gaussianPDFReal_eq_one 0 one_ne_zero

theorem continuous_normPdf : Continuous normPdf := by
  have : normPdf = fun x => (√(2 * Real.pi))⁻¹ * Real.exp (-(x ^ 2) / 2) := funext normPdf_eq
  rw [this]; fun_prop

theorem normCdf_sub (a b : ℝ) : normCdf b - normCdf a = ∫ t in a..b, normPdf t :=
  intervalIntegral.integral_Iic_sub_Iic integrable_normPdf.integrableOn
    integrable_normPdf.integrableOn

theorem normCdf_strictMono : StrictMono normCdf := by
  intro a b hab
  have h : 0 < ∫ t in a..b, normPdf t :=
    intervalIntegral.intervalIntegral_pos_of_pos
      (continuous_normPdf.intervalIntegrable a b) normPdf_pos hab
  rw [← normCdf_sub] at h
  linarith

theorem normCdf_neg (x : ℝ) : normCdf (-x) = 1 - normCdf x := by
  have h1 : normCdf (-x) = ∫ t in Ioi x, normPdf t := by
    have := integral_comp_neg_Iic (-x) normPdf
    simp only [normPdf_neg, neg_neg] at this
    exact this
  have h2 := intervalIntegral.integral_Iic_add_Ioi (b := x) (f := normPdf) (μ := volume)
    integrable_normPdf.integrableOn integrable_normPdf.integrableOn
  rw [integral_normPdf] at h2
  rw [h1]
  unfold normCdf
  linarith

theorem normCdf_nonneg (x : ℝ) : 0 ≤ normCdf x :=
  setIntegral_nonneg measurableSet_Iic fun t _ => (normPdf_pos t).le

theorem normCdf_pos (x : ℝ) : 0 < normCdf x :=
  lt_of_le_of_lt (normCdf_nonneg (x - 1)) (normCdf_strictMono (by linarith))

theorem normCdf_lt_one (x : ℝ) : normCdf x < 1 := by
  have := normCdf_pos (-x)
  rw [normCdf_neg] at this
  linarith

theorem normCdf_zero : normCdf 0 = 1 / 2 := by
  have := normCdf_neg 0
  rw [neg_zero] at this
  linarith

theorem normCdf_hasDerivAt (x : ℝ) : HasDerivAt normCdf (normPdf x) x := by
  have h : normCdf = fun b => normCdf 0 + ∫ t in (0 : ℝ)..b, normPdf t := by
    funext b; rw [← normCdf_sub]; ring
  rw [h]
  exact (intervalIntegral.integral_hasDerivAt_right
    (continuous_normPdf.intervalIntegrable 0 x)
    (continuous_normPdf.stronglyMeasurableAtFilter _ _) continuous_normPdf.continuousAt).const_add _

theorem normCdf_continuous : Continuous normCdf :=
  continuous_iff_continuousAt.2 fun x => (normCdf_hasDerivAt x).continuousAt

theorem normCdf_tendsto_atBot : Tendsto normCdf atBot (𝓝 0) := by
  have h := intervalIntegral_tendsto_integral_Iic (f := normPdf) (μ := volume) (l := atBot)
    (a := fun x : ℝ => x) 0 integrable_normPdf.integrableOn tendsto_id
  have h2 : Tendsto (fun x => normCdf 0 - ∫ t in x..(0 : ℝ), normPdf t) atBot
      (𝓝 (normCdf 0 - normCdf 0)) := h.const_sub _
  simp only [← normCdf_sub, sub_self, sub_sub_cancel] at h2
  exact h2

theorem normCdf_tendsto_atTop : Tendsto normCdf atTop (𝓝 1) := by
  have h := (normCdf_tendsto_atBot.comp tendsto_neg_atTop_atBot).const_sub 1
  simp only [Function.comp_def, normCdf_neg, sub_sub_cancel, sub_zero] at h
  exact h

end FinML
