import Verif.Options.CurveModel
import Verif.Py.Lemmas
import Mathlib.Analysis.Calculus.ContDiff.Operations
import Mathlib.Analysis.Calculus.ContDiff.Polynomial
import Mathlib.Data.List.GetD
import Mathlib.Algebra.Polynomial.Degree.Lemmas
import Mathlib.Tactic.FieldSimp
import Mathlib.Tactic.Linarith
import Mathlib.Tactic.NormNum

/-! # Property C330: the yield curve moves with the yields -/

namespace FinML.Options

open Polynomial

/-! ## Specification -/

/-- A cubic spline with the knots `x` and the default end conditions of `CubicSpline` ("not-a-knot"):
twice continuously differentiable, on each interval a polynomial of degree at most 3, continued by
the outer polynomials beyond the end knots; the first two polynomials are the same, and so are the
last two; with fewer than four knots it is a single polynomial of least degree. -/
def NotAKnot (x : List ℝ) (f : ℝ → ℝ) : Prop :=
  ContDiff ℝ 2 f ∧ ∃ P : ℕ → ℝ[X],
    (∀ i, (P i).degree < (min 4 x.length : ℕ)) ∧
    (∀ i, i + 1 < x.length → ∀ t, (i = 0 ∨ x.getD i 0 ≤ t) → (i + 2 = x.length ∨ t ≤ x.getD (i + 1) 0) →
      f t = (P i).eval t) ∧
    P 0 = P 1 ∧ ∀ i, i + 3 = x.length → P i = P (i + 1)

/-- `f` goes through the points. -/
def Through (x y : List ℝ) (f : ℝ → ℝ) : Prop := ∀ i < x.length, f (x.getD i 0) = y.getD i 0

/-- The contract of `CubicSpline` for the knots `x`: whatever the values, the result is the only such
spline through the points. -/
def SplineAt (spline : List ℝ → List ℝ → Py (ℝ → ℝ)) (x : List ℝ) : Prop :=
  ∀ y, y.length = x.length → ∃ f, spline x y = .ok f ∧ NotAKnot x f ∧ Through x y f ∧
    ∀ g, NotAKnot x g → Through x y g → g = f

/-! ## Lemmas -/

theorem notAKnot_comb {x : List ℝ} {f g : ℝ → ℝ} (a b : ℝ) (hf : NotAKnot x f) (hg : NotAKnot x g) :
    NotAKnot x fun t => a * f t + b * g t := by
  obtain ⟨hf2, P, hP, hfP, hP0, hP1⟩ := hf
  obtain ⟨hg2, Q, hQ, hgQ, hQ0, hQ1⟩ := hg
  refine ⟨(contDiff_const.mul hf2).add (contDiff_const.mul hg2), fun i => C a * P i + C b * Q i,
    fun i => ?_, fun i hi t h1 h2 => ?_, by simp only [hP0, hQ0], fun i hi => by
      simp only [hP1 i hi, hQ1 i hi]⟩
  · refine lt_of_le_of_lt (degree_add_le _ _) (max_lt ?_ ?_)
    · rw [← smul_eq_C_mul]; exact lt_of_le_of_lt (degree_smul_le a (P i)) (hP i)
    · rw [← smul_eq_C_mul]; exact lt_of_le_of_lt (degree_smul_le b (Q i)) (hQ i)
  · show a * f t + b * g t = eval t (C a * P i + C b * Q i)
    rw [hfP i hi t h1 h2, hgQ i hi t h1 h2]
    simp

theorem notAKnot_poly (x : List ℝ) (p : ℝ[X]) (hp : p.degree < (min 4 x.length : ℕ)) :
    NotAKnot x fun t => p.eval t :=
  ⟨by
    have := Polynomial.contDiff_aeval (𝕜 := ℝ) (n := 2) p
    simpa using this, fun _ => p, fun _ => hp, fun _ _ _ _ _ => rfl, rfl, fun _ _ => rfl⟩

theorem notAKnot_units {x : List ℝ} {f : ℝ → ℝ} (hf : NotAKnot x f) (c d : ℝ) (hc : 0 < c) :
    NotAKnot (x.map fun t => c * t + d) fun t => f ((t - d) / c) := by
  obtain ⟨hf2, P, hP, hfP, hP0, hP1⟩ := hf
  have hget : ∀ i < x.length, (x.map fun t => c * t + d).getD i 0 = c * x.getD i 0 + d := by
    intro i hi
    rw [List.getD_eq_getElem _ _ (by simpa using hi), List.getD_eq_getElem _ _ hi, List.getElem_map]
  refine ⟨hf2.comp ((contDiff_id.sub contDiff_const).div_const c),
    fun i => (P i).comp (C c⁻¹ * X - C (d / c)), fun i => ?_, fun i hi t h1 h2 => ?_,
    by simp only [hP0], fun i hi => by simp only [hP1 i (by simpa using hi)]⟩
  · rw [List.length_map]
    show ((P i).comp (C c⁻¹ * X - C (d / c))).degree < _
    by_cases h0 : P i = 0
    · rw [h0, zero_comp]
      have := hP i
      rw [h0] at this
      exact this
    · have h1 : (P i).natDegree < min 4 x.length := (natDegree_lt_iff_degree_lt h0).2 (hP i)
      have h2 : (C c⁻¹ * X - C (d / c) : ℝ[X]).natDegree ≤ 1 := by
        refine (natDegree_sub_le _ _).trans ?_
        rw [natDegree_C]
        have := (natDegree_C_mul_le c⁻¹ (X : ℝ[X])).trans natDegree_X_le
        omega
      have h3 : ((P i).comp (C c⁻¹ * X - C (d / c))).natDegree < min 4 x.length := by
        rw [natDegree_comp]
        refine lt_of_le_of_lt (Nat.mul_le_mul_left _ h2) ?_
        omega
      exact lt_of_le_of_lt degree_le_natDegree (by exact_mod_cast h3)
  · rw [List.length_map] at hi h2
    have e1 : (t - d) / c = c⁻¹ * t - d / c := by field_simp
    show f ((t - d) / c) = eval t ((P i).comp (C c⁻¹ * X - C (d / c)))
    rw [hfP i hi ((t - d) / c), eval_comp]
    · simp [e1]
    · rcases h1 with h1 | h1
      · exact Or.inl h1
      · right
        rw [hget i (by omega)] at h1
        rw [le_div_iff₀ hc]
        linarith
    · rcases h2 with h2 | h2
      · exact Or.inl h2
      · right
        rw [hget (i + 1) hi] at h2
        rw [div_le_iff₀ hc]
        linarith

/-! ## C330 -/

/-- C330.  Two sets of yields for the same maturities: the curve of a combination of the yields is the
same combination of the curves, at every maturity. -/
theorem C330_superposition (spline : List ℝ → List ℝ → Py (ℝ → ℝ)) (x y z : List ℝ)
    (hs : SplineAt spline x) (hy : y.length = x.length) (hz : z.length = x.length) (a b : ℝ) :
    ∃ f g h, interpolateYieldCurve spline (x.zip y) = .ok f ∧
      interpolateYieldCurve spline (x.zip z) = .ok g ∧
      interpolateYieldCurve spline (x.zip (List.zipWith (fun u v => a * u + b * v) y z)) = .ok h ∧
      ∀ t, h t = a * f t + b * g t := by
  obtain ⟨f, hf, nf, tf, _⟩ := hs y hy
  obtain ⟨g, hg, ng, tg, _⟩ := hs z hz
  have hl : (List.zipWith (fun u v => a * u + b * v) y z).length = x.length := by simp [hy, hz]
  obtain ⟨h, hh, _, _, huniq⟩ := hs _ hl
  refine ⟨f, g, h, ?_, ?_, ?_, fun t => ?_⟩
  · show spline _ _ = _
    rw [List.map_fst_zip hy.ge, List.map_snd_zip hy.le, hf]
  · show spline _ _ = _
    rw [List.map_fst_zip hz.ge, List.map_snd_zip hz.le, hg]
  · show spline _ _ = _
    rw [List.map_fst_zip hl.ge, List.map_snd_zip hl.le, hh]
  · have := huniq _ (notAKnot_comb a b nf ng) (by
      intro i hi
      show a * f _ + b * g _ = _
      rw [tf i hi, tg i hi, List.getD_eq_getElem _ _ (by omega), List.getD_eq_getElem _ _ (by omega),
        List.getD_eq_getElem _ _ (by omega), List.getElem_zipWith])
    rw [← this]

/-- C330.  Yields on a polynomial of degree less than four and less than the number of maturities give
that polynomial, also between and beyond the maturities: a flat curve stays flat, a straight one
straight. -/
theorem C330_exact (spline : List ℝ → List ℝ → Py (ℝ → ℝ)) (x : List ℝ) (hs : SplineAt spline x)
    (p : ℝ[X]) (hp : p.degree < (min 4 x.length : ℕ)) :
    ∃ f, interpolateYieldCurve spline (x.map fun t => (t, p.eval t)) = .ok f ∧
      ∀ t, f t = p.eval t := by
  obtain ⟨f, hf, _, _, huniq⟩ := hs (x.map fun t => p.eval t) (by simp)
  refine ⟨f, ?_, fun t => ?_⟩
  · show spline _ _ = _
    rw [List.map_map, List.map_map]
    have : x.map (Prod.fst ∘ fun t => (t, p.eval t)) = x := by
      conv_rhs => rw [← List.map_id x]
      rfl
    rw [this]
    exact hf
  · have := huniq _ (notAKnot_poly x p hp) (by
      intro i hi
      show p.eval _ = _
      rw [List.getD_eq_getElem _ _ hi, List.getD_eq_getElem _ _ (by simpa using hi), List.getElem_map])
    rw [← this]

/-- C330.  A parallel shift of the yields by `c` shifts the whole curve by `c`. -/
theorem C330_shift (spline : List ℝ → List ℝ → Py (ℝ → ℝ)) (ts : List (ℝ × ℝ)) (hne : ts ≠ [])
    (hs : SplineAt spline (ts.map Prod.fst)) (c : ℝ) :
    ∃ f g, interpolateYieldCurve spline ts = .ok f ∧
      interpolateYieldCurve spline (ts.map fun q => (q.1, q.2 + c)) = .ok g ∧
      ∀ t, g t = f t + c := by
  obtain ⟨f, hf, nf, tf, _⟩ := hs (ts.map Prod.snd) (by simp)
  obtain ⟨g, hg, _, _, huniq⟩ := hs (ts.map fun q => q.2 + c) (by simp)
  refine ⟨f, g, hf, ?_, fun t => ?_⟩
  · show spline _ _ = _
    rw [List.map_map, List.map_map]
    exact hg
  · have hlen : 0 < (ts.map Prod.fst).length := by
      rw [List.length_map]; exact List.length_pos_iff.2 hne
    have hc := notAKnot_poly (ts.map Prod.fst) (C c) (lt_of_le_of_lt degree_C_le (by
      have : 0 < min 4 (ts.map Prod.fst).length := by omega
      exact_mod_cast this))
    have := huniq _ (notAKnot_comb 1 1 nf hc) (by
      intro i hi
      show 1 * f _ + 1 * (C c).eval _ = _
      rw [tf i hi, eval_C]
      rw [List.length_map] at hi
      rw [List.getD_eq_getElem _ _ (by simpa using hi), List.getD_eq_getElem _ _ (by simpa using hi),
        List.getElem_map, List.getElem_map]
      ring)
    rw [← this]
    simp

/-- C330.  Measuring the maturities in another unit or from another day (`c·t + d`, `c > 0`) gives the
same yields for the same maturities. -/
theorem C330_units (spline : List ℝ → List ℝ → Py (ℝ → ℝ)) (ts : List (ℝ × ℝ)) (c d : ℝ) (hc : 0 < c)
    (hs : SplineAt spline (ts.map Prod.fst))
    (hs' : SplineAt spline ((ts.map Prod.fst).map fun t => c * t + d)) :
    ∃ f g, interpolateYieldCurve spline ts = .ok f ∧
      interpolateYieldCurve spline (ts.map fun q => (c * q.1 + d, q.2)) = .ok g ∧
      ∀ t, g (c * t + d) = f t := by
  obtain ⟨f, hf, nf, tf, _⟩ := hs (ts.map Prod.snd) (by simp)
  obtain ⟨g, hg, _, _, huniq⟩ := hs' (ts.map Prod.snd) (by simp)
  refine ⟨f, g, hf, ?_, fun t => ?_⟩
  · show spline _ _ = _
    rw [List.map_map, List.map_map]
    rw [List.map_map] at hg
    exact hg
  · have := huniq _ (notAKnot_units nf c d hc) (by
      intro i hi
      rw [List.length_map] at hi
      show f ((_ - d) / c) = _
      rw [← tf i hi]
      congr 1
      rw [List.getD_eq_getElem _ _ (by simpa using hi), List.getD_eq_getElem _ _ hi, List.getElem_map]
      field_simp
      ring)
    rw [← this]
    show f ((c * t + d - d) / c) = f t
    congr 1
    field_simp
    ring

/-- The contract holds for the line through two points. -/
example : SplineAt (fun x y => .ok fun t =>
    y.getD 0 0 + (y.getD 1 0 - y.getD 0 0) * ((t - x.getD 0 0) / (x.getD 1 0 - x.getD 0 0)))
    [1, 10] := by
  intro y hy
  have key : ∀ g, NotAKnot [1, 10] g → ∀ t, g t * 9 = g 1 * (10 - t) + g 10 * (t - 1) := by
    rintro g ⟨_, P, hP, hgP, _, _⟩ t
    have hd := hP 0
    have hval : ∀ t, g t = (P 0).coeff 0 + (P 0).coeff 1 * t := by
      intro t
      rw [hgP 0 (by simp) t (Or.inl rfl) (Or.inl (by simp))]
      have h2 : (P 0).natDegree < 2 := by
        by_cases h0 : P 0 = 0
        · rw [h0]; simp
        · exact (natDegree_lt_iff_degree_lt h0).2 (by simpa using hd)
      rw [eval_eq_sum_range' h2]
      simp [Finset.sum_range_succ]
    rw [hval t, hval 1, hval 10]
    ring
  refine ⟨_, rfl, ?_, ?_, ?_⟩
  · have := notAKnot_poly [1, 10] (C (y.getD 0 0 - (y.getD 1 0 - y.getD 0 0) / 9) +
      C ((y.getD 1 0 - y.getD 0 0) / 9) * X) (by
        refine lt_of_le_of_lt (degree_add_le _ _) (max_lt ?_ ?_)
        · exact lt_of_le_of_lt degree_C_le (by simp)
        · exact lt_of_le_of_lt (degree_C_mul_X_le _) (by simp))
    convert this using 2 with t
    simp
    ring
  · intro i hi
    have : i = 0 ∨ i = 1 := by simp at hi; omega
    rcases this with rfl | rfl <;> norm_num
  · intro g hg tg
    funext t
    have h1 := tg 0 (by simp)
    have h2 := tg 1 (by simp)
    have h3 := key g hg t
    simp only [List.getD_cons_zero, List.getD_cons_succ] at h1 h2 ⊢
    rw [h1, h2] at h3
    field_simp
    ring_nf
    ring_nf at h3
    linarith

end FinML.Options
