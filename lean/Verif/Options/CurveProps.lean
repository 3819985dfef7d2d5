import Verif.Options.CurveModel
import Verif.Py.Lemmas
import Mathlib.LinearAlgebra.Lagrange
import Mathlib.Analysis.Calculus.ContDiff.Polynomial
import Mathlib.Analysis.Calculus.ContDiff.Basic
import Mathlib.Data.List.GetD
import Mathlib.Tactic.Linarith

/-!
# Property C165: interpolated yield curves
-/

namespace FinML.Options

open Polynomial

/-- The contract of `CubicSpline` with its default end conditions: abscissae that do not increase strictly, or
fewer than two, are a ValueError; otherwise a twice continuously differentiable function through the points.  Up to
four points it is the polynomial of least degree through them. -/
def IsCubicSpline (spline : List ℝ → List ℝ → Py (ℝ → ℝ)) : Prop :=
  ∀ x y : List ℝ, x.length = y.length →
    (¬ (x.Pairwise (· < ·) ∧ 2 ≤ x.length) → spline x y = .error .valueError) ∧
    (x.Pairwise (· < ·) → 2 ≤ x.length → ∃ f, spline x y = .ok f ∧ ContDiff ℝ 2 f ∧
      (∀ i < x.length, f (x.getD i 0) = y.getD i 0) ∧
      (x.length ≤ 4 → ∃ P : ℝ[X], P.degree < x.length ∧ ∀ t, f t = P.eval t))

theorem natDegree_lt (P : ℝ[X]) (n : ℕ) (hn : 0 < n) (h : P.degree < n) : P.natDegree < n := by
  by_cases h0 : P = 0
  · subst h0; simpa using hn
  · exact (Polynomial.natDegree_lt_iff_degree_lt h0).2 h

/-- The contract can be met. -/
theorem spline_exists : ∃ spline, IsCubicSpline spline := by
  classical
  refine ⟨fun x y => if x.Pairwise (· < ·) ∧ 2 ≤ x.length then
    .ok fun t => (Lagrange.interpolate (Finset.range x.length) (fun i => x.getD i 0) fun i => y.getD i 0).eval t
    else .error .valueError, ?_⟩
  intro x y _
  refine ⟨fun h => if_neg h, fun h1 h2 => ⟨_, if_pos ⟨h1, h2⟩, ?_, ?_, ?_⟩⟩
  · have := Polynomial.contDiff_aeval (𝕜 := ℝ)
      (Lagrange.interpolate (Finset.range x.length) (fun i => x.getD i 0) fun i => y.getD i 0) 2
    simpa only [Polynomial.coe_aeval_eq_eval] using this
  all_goals
    have hinj : Set.InjOn (fun i => x.getD i 0) (Finset.range x.length : Set ℕ) := by
      intro i hi j hj hij
      simp only [Finset.coe_range, Set.mem_Iio] at hi hj
      simp only at hij
      rw [List.getD_eq_getElem _ _ hi, List.getD_eq_getElem _ _ hj] at hij
      exact (List.Nodup.getElem_inj_iff (h1.imp fun h => h.ne)).1 hij
  · intro i hi
    exact Lagrange.eval_interpolate_at_node _ hinj (by simpa using hi)
  · intro _
    refine ⟨_, ?_, fun t => rfl⟩
    have := Lagrange.degree_interpolate_lt (fun i => y.getD i 0) hinj
    simpa using this

/-- C165. The curve passes through the given yields and is smooth; maturities that are not strictly increasing, or
fewer than two, raise. -/
theorem C165_knots (spline : List ℝ → List ℝ → Py (ℝ → ℝ)) (hs : IsCubicSpline spline) (ts : List (ℝ × ℝ)) :
    (ts.Pairwise (fun a b => a.1 < b.1) ∧ 2 ≤ ts.length →
      ∃ f, interpolateYieldCurve spline ts = .ok f ∧ (∀ q ∈ ts, f q.1 = q.2) ∧ ContDiff ℝ 2 f) ∧
    (¬ (ts.Pairwise (fun a b => a.1 < b.1) ∧ 2 ≤ ts.length) →
      interpolateYieldCurve spline ts = .error .valueError) := by
  have h := hs (ts.map Prod.fst) (ts.map Prod.snd) (by simp)
  rw [List.pairwise_map, List.length_map] at h
  constructor
  · rintro ⟨h1, h2⟩
    obtain ⟨f, hf, hc, hp, -⟩ := h.2 h1 h2
    refine ⟨f, hf, ?_, hc⟩
    intro q hq
    obtain ⟨i, hi, rfl⟩ := List.getElem_of_mem hq
    have := hp i hi
    rwa [List.getD_eq_getElem _ _ (by simpa using hi), List.getD_eq_getElem _ _ (by simpa using hi),
      List.getElem_map, List.getElem_map] at this
  · intro hn
    exact h.1 hn

/-- C165, the full claim: between two given maturities the yield lies between the two given yields. -/
def YieldsBetween : Prop :=
  ∀ spline, IsCubicSpline spline → ∀ (ts : List (ℝ × ℝ)) (f : ℝ → ℝ), interpolateYieldCurve spline ts = .ok f →
    ∀ i, i + 1 < ts.length → ∀ t, (ts.getD i (0, 0)).1 ≤ t → t ≤ (ts.getD (i + 1) (0, 0)).1 →
      min (ts.getD i (0, 0)).2 (ts.getD (i + 1) (0, 0)).2 ≤ f t ∧
      f t ≤ max (ts.getD i (0, 0)).2 (ts.getD (i + 1) (0, 0)).2

/-- A polynomial of degree below three through (0,1), (1,0), (2,0). -/
theorem parabola_value (P : ℝ[X]) (hP : P.degree < 3) (h0 : P.eval 0 = 1) (h1 : P.eval 1 = 0) (h2 : P.eval 2 = 0)
    (t : ℝ) : P.eval t = (t - 1) * (t - 2) / 2 := by
  have hn : P.natDegree < 3 := natDegree_lt P 3 (by norm_num) hP
  have he : ∀ t : ℝ, P.eval t = P.coeff 0 + P.coeff 1 * t + P.coeff 2 * t ^ 2 := by
    intro t
    rw [Polynomial.eval_eq_sum_range' hn]
    simp [Finset.sum_range_succ]
  rw [he] at h0 h1 h2 ⊢
  norm_num at h0 h1 h2
  have e0 : P.coeff 0 = 1 := h0
  have e2 : P.coeff 2 = 1 / 2 := by linarith
  have e1 : P.coeff 1 = -3 / 2 := by linarith
  rw [e0, e1, e2]
  ring

/-- C165. Yields 1, 0 and 0 at maturities 0, 1 and 2 give a negative yield at 1.5. -/
theorem C165_between_counterexample : ¬ YieldsBetween := by
  intro h
  obtain ⟨spline, hs⟩ := spline_exists
  obtain ⟨f, hf, -, hp, hP⟩ := (hs [0, 1, 2] [1, 0, 0] rfl).2 (by simp) (by simp)
  obtain ⟨P, hdeg, hPf⟩ := hP (by simp)
  have e0 := hp 0 (by simp)
  have e1 := hp 1 (by simp)
  have e2 := hp 2 (by simp)
  simp only [hPf] at e0 e1 e2
  have hv := parabola_value P (by simpa using hdeg) (by simpa using e0) (by simpa using e1) (by simpa using e2) (3 / 2)
  have := (h spline hs [(0, 1), (1, 0), (2, 0)] f hf 1 (by simp) (3 / 2) (by simp; norm_num) (by simp; norm_num)).1
  rw [hPf, hv] at this
  norm_num at this

/-- C165. What is missing: curves with three or more points.  With two points the curve is the line through them,
so interpolated yields lie between the given ones. -/
theorem C165_between_partial (spline : List ℝ → List ℝ → Py (ℝ → ℝ)) (hs : IsCubicSpline spline) (a b : ℝ × ℝ)
    (hab : a.1 < b.1) :
    ∃ f, interpolateYieldCurve spline [a, b] = .ok f ∧
      (∀ t, f t * (b.1 - a.1) = a.2 * (b.1 - t) + b.2 * (t - a.1)) ∧
      ∀ t, a.1 ≤ t → t ≤ b.1 → min a.2 b.2 ≤ f t ∧ f t ≤ max a.2 b.2 := by
  obtain ⟨f, hf, -, hp, hP⟩ := (hs [a.1, b.1] [a.2, b.2] rfl).2 (by simpa using hab) (by simp)
  obtain ⟨P, hdeg, hPf⟩ := hP (by simp)
  have e0 := hp 0 (by simp)
  have e1 := hp 1 (by simp)
  simp only [hPf] at e0 e1
  have hn : P.natDegree < 2 :=natDegree_lt P 2 (by norm_num) (by simpa using hdeg)
  have he : ∀ t : ℝ, P.eval t = P.coeff 0 + P.coeff 1 * t := by
    intro t
    rw [Polynomial.eval_eq_sum_range' hn]
    simp [Finset.sum_range_succ]
  rw [he] at e0 e1
  simp at e0 e1
  have hline : ∀ t, f t * (b.1 - a.1) = a.2 * (b.1 - t) + b.2 * (t - a.1) := by
    intro t
    rw [hPf, he, ← e0, ← e1]
    ring
  refine ⟨f, hf, hline, fun t h1 h2 => ?_⟩
  have hd : 0 < b.1 - a.1 := by linarith
  have hl := hline t
  have m1 := min_le_left a.2 b.2
  have m2 := min_le_right a.2 b.2
  have m3 := le_max_left a.2 b.2
  have m4 := le_max_right a.2 b.2
  constructor
  · refine le_of_mul_le_mul_right ?_ hd
    rw [hl]
    nlinarith
  · refine le_of_mul_le_mul_right ?_ hd
    rw [hl]
    nlinarith

end FinML.Options
