import Verif.Py.Basic
import Verif.Py.Lemmas
import Mathlib.Analysis.InnerProductSpace.Projection.Minimal
import Mathlib.Analysis.InnerProductSpace.PiL2
import Mathlib.Data.List.GetD

/-!
# Least squares

`sm.OLS(y, X).fit().params` enters through its contract: one coefficient per column, and no other
coefficients have a smaller sum of squared residuals.  The contract can be met for every non-empty
design (`exists_isOls`).  A design is a list of rows.
-/

namespace FinML

/-- `row · beta`; microstructure.py:133. -/
def dotL (row beta : List ℝ) : ℝ := (List.zipWith (· * ·) row beta).sum

/-- Sum of squared residuals; microstructure.py:133. -/
def ssr (X : List (List ℝ)) (y beta : List ℝ) : ℝ :=
  (List.zipWith (fun row v => (v - dotL row beta) ^ 2) X y).sum

/-- `beta` minimises the sum of squared residuals of a design with `k` columns;
microstructure.py:133. -/
def IsLeastSquares (X : List (List ℝ)) (y : List ℝ) (k : ℕ) (beta : List ℝ) : Prop :=
  beta.length = k ∧ ∀ b : List ℝ, b.length = k → ssr X y beta ≤ ssr X y b

/-- Contract of `sm.OLS(y, X).fit().params`;
microstructure.py:133, 148, 168, systematic_default.py:50. -/
def IsOls (ols : List (List ℝ) → List ℝ → List ℝ) : Prop :=
  ∀ (X : List (List ℝ)) (y : List ℝ) (k : ℕ), X ≠ [] → X.length = y.length →
    (∀ r ∈ X, r.length = k) → IsLeastSquares X y k (ols X y)

/-- `sm.add_constant(x)` on a vector: a column of ones is put first, except when the vector is
constant and not zero (`has_constant='skip'`); `np.ptp` raises ValueError on an empty vector;
microstructure.py:132, 147, 167, systematic_default.py:48. -/
noncomputable def addConstant (x : List ℝ) : Py (List (List ℝ)) :=
  open Classical in
  if x = [] then .error .valueError else
  if (∀ a ∈ x, ∀ b ∈ x, a = b) ∧ (∀ a ∈ x, a ≠ 0) then .ok (x.map fun v => [v])
  else .ok (x.map fun v => [1, v])

theorem ssr_nonneg (X : List (List ℝ)) (y beta : List ℝ) : 0 ≤ ssr X y beta := by
  unfold ssr
  apply List.sum_nonneg
  intro v hv
  obtain ⟨i, hi, rfl⟩ := List.mem_iff_getElem.1 hv
  rw [List.getElem_zipWith]
  positivity

theorem ssr_eq_zero_iff (X : List (List ℝ)) (y beta : List ℝ) :
    ssr X y beta = 0 ↔ ∀ (i : ℕ) row v, X[i]? = some row → y[i]? = some v → v = dotL row beta := by
  unfold ssr
  induction X generalizing y with
  | nil => simp
  | cons r X ih =>
    cases y with
    | nil => simp
    | cons v y =>
      rw [List.zipWith_cons_cons, List.sum_cons]
      have h1 : 0 ≤ (v - dotL r beta) ^ 2 := by positivity
      have h2 := ssr_nonneg X y beta
      unfold ssr at h2
      constructor
      · intro h i row u hr hu
        have e1 : (v - dotL r beta) ^ 2 = 0 := by linarith
        have e2 : (List.zipWith (fun row v => (v - dotL row beta) ^ 2) X y).sum = 0 := by linarith
        cases i with
        | zero =>
          simp only [List.getElem?_cons_zero, Option.some.injEq] at hr hu
          subst hr hu
          have := pow_eq_zero_iff (two_ne_zero) |>.1 e1
          linarith
        | succ i => exact (ih y).1 e2 i row u (by simpa using hr) (by simpa using hu)
      · intro h
        have e1 := h 0 r v rfl rfl
        have e2 := (ih y).2 (fun i row u hr hu => h (i + 1) row u (by simpa using hr) (by simpa using hu))
        rw [e2, e1]
        simp

theorem isLeastSquares_zero {X : List (List ℝ)} {y beta b : List ℝ} {k : ℕ}
    (h : IsLeastSquares X y k beta) (hb : b.length = k) (h0 : ssr X y b = 0) : ssr X y beta = 0 :=
  le_antisymm (h0 ▸ h.2 b hb) (ssr_nonneg _ _ _)

/-- A regression on one variable and a constant recovers an exact linear relation. -/
theorem ols_line (ols : List (List ℝ) → List ℝ → List ℝ) (hols : IsOls ols) (x y : List ℝ) (c lam : ℝ)
    (hlen : x.length = y.length) (hlin : ∀ (i : ℕ) u v, x[i]? = some u → y[i]? = some v → v = c + lam * u)
    (hne : ∃ a ∈ x, ∃ b ∈ x, a ≠ b) :
    ∃ X, addConstant x = .ok X ∧ pyGet (ols X y) 1 = .ok lam := by
  classical
  obtain ⟨a, ha, b, hb, hab⟩ := hne
  have hx : x ≠ [] := by rintro rfl; cases ha
  refine ⟨x.map fun v => [1, v], ?_, ?_⟩
  · unfold addConstant
    rw [if_neg hx, if_neg]
    rintro ⟨h, -⟩
    exact hab (h a ha b hb)
  have h := hols (x.map fun v => [1, v]) y 2 (by simpa using hx) (by simpa using hlen)
    (by intro r hr; obtain ⟨v, _, rfl⟩ := List.mem_map.1 hr; rfl)
  have h0 : ssr (x.map fun v => [1, v]) y [c, lam] = 0 := by
    rw [ssr_eq_zero_iff]
    intro i row v hr hv
    rw [List.getElem?_map, Option.map_eq_some_iff] at hr
    obtain ⟨u, hu, rfl⟩ := hr
    rw [hlin i u v hu hv]
    simp [dotL, mul_comm]
  have hz := isLeastSquares_zero h rfl h0
  rw [ssr_eq_zero_iff] at hz
  obtain ⟨hl, -⟩ := h
  generalize ols (x.map fun v => [1, v]) y = beta at *
  obtain ⟨p, q, rfl⟩ : ∃ p q, beta = [p, q] := by
    match beta, hl with
    | [p, q], _ => exact ⟨p, q, rfl⟩
  have hfit : ∀ u ∈ x, c + lam * u = p + q * u := by
    intro u hu
    obtain ⟨i, hi, rfl⟩ := List.mem_iff_getElem.1 hu
    have hyi : y[i]? = some (y[i]'(by omega)) := List.getElem?_eq_getElem _
    have e1 := hlin i x[i] _ (List.getElem?_eq_getElem hi) hyi
    have e2 := hz i [1, x[i]] _ (by rw [List.getElem?_map, List.getElem?_eq_getElem hi]; rfl) hyi
    rw [e1] at e2
    simpa [dotL, mul_comm] using e2
  have e1 := hfit a ha
  have e2 := hfit b hb
  have e3 : (lam - q) * (a - b) = 0 := by linear_combination e1 - e2
  have e4 : lam = q := by
    rcases mul_eq_zero.1 e3 with h | h
    · linarith
    · exact absurd (by linarith) hab
  rw [e4]
  rfl

/-- A regression on a constant non-zero variable has a single coefficient. -/
theorem ols_skip (ols : List (List ℝ) → List ℝ → List ℝ) (hols : IsOls ols) (x y : List ℝ)
    (hlen : x.length = y.length) (hx : x ≠ []) (hc : ∀ a ∈ x, ∀ b ∈ x, a = b) (h0 : ∀ a ∈ x, a ≠ 0) :
    ∃ X, addConstant x = .ok X ∧ pyGet (ols X y) 1 = .error .indexError := by
  classical
  refine ⟨x.map fun v => [v], ?_, ?_⟩
  · unfold addConstant
    rw [if_neg hx, if_pos ⟨hc, h0⟩]
  have h := hols (x.map fun v => [v]) y 1 (by simpa using hx) (by simpa using hlen)
    (by intro r hr; obtain ⟨v, _, rfl⟩ := List.mem_map.1 hr; rfl)
  unfold pyGet
  rw [List.getElem?_eq_none (by rw [h.1])]

/-- In all other cases it has two. -/
theorem ols_two (ols : List (List ℝ) → List ℝ → List ℝ) (hols : IsOls ols) (x y : List ℝ)
    (hlen : x.length = y.length) (hx : x ≠ [])
    (h : ¬ ((∀ a ∈ x, ∀ b ∈ x, a = b) ∧ (∀ a ∈ x, a ≠ 0))) :
    ∃ X v, addConstant x = .ok X ∧ pyGet (ols X y) 1 = .ok v := by
  classical
  have hl := hols (x.map fun v => [1, v]) y 2 (by simpa using hx) (by simpa using hlen)
    (by intro r hr; obtain ⟨v, _, rfl⟩ := List.mem_map.1 hr; rfl)
  refine ⟨x.map fun v => [1, v], (ols (x.map fun v => [1, v]) y)[1]'(by rw [hl.1]; omega), ?_, ?_⟩
  · unfold addConstant
    rw [if_neg hx, if_neg h]
  · unfold pyGet
    rw [List.getElem?_eq_getElem]

/-! ## The contract can be met -/

theorem sum_zipWith_getD (X : List (List ℝ)) (y : List ℝ) (h : X.length = y.length)
    (g : List ℝ → ℝ → ℝ) :
    (List.zipWith g X y).sum = ∑ i : Fin X.length, g (X.getD i []) (y.getD i 0) := by
  induction X generalizing y with
  | nil => simp
  | cons r X ih =>
    cases y with
    | nil => simp at h
    | cons v y =>
      rw [List.zipWith_cons_cons, List.sum_cons, ih y (by simpa using h)]
      simp only [List.length_cons]
      rw [Fin.sum_univ_succ]
      simp

theorem dotL_eq (row beta : List ℝ) (h : row.length = beta.length) :
    dotL row beta = ∑ j : Fin beta.length, row.getD j 0 * beta.getD j 0 := by
  unfold dotL
  induction row generalizing beta with
  | nil =>
    cases beta with
    | nil => simp
    | cons => simp at h
  | cons r X ih =>
    cases beta with
    | nil => simp at h
    | cons v y =>
      rw [List.zipWith_cons_cons, List.sum_cons, ih y (by simpa using h)]
      simp only [List.length_cons]
      rw [Fin.sum_univ_succ]
      simp

/-- Every design with rows of equal length has a least-squares solution. -/
theorem exists_leastSquares (X : List (List ℝ)) (y : List ℝ) (k : ℕ) (hlen : X.length = y.length)
    (hX : ∀ r ∈ X, r.length = k) : ∃ beta, IsLeastSquares X y k beta := by
  let L : (Fin k → ℝ) →ₗ[ℝ] EuclideanSpace ℝ (Fin X.length) :=
    { toFun := fun b => WithLp.toLp 2 (fun i => ∑ j : Fin k, (X.getD i []).getD j 0 * b j)
      map_add' := by
        intro a b
        ext i
        simp [mul_add, Finset.sum_add_distrib]
      map_smul' := by
        intro c a
        ext i
        simp [Finset.mul_sum, mul_left_comm] }
  let u : EuclideanSpace ℝ (Fin X.length) := WithLp.toLp 2 (fun i => y.getD i 0)
  have hssr : ∀ b : List ℝ, b.length = k → ssr X y b = ‖u - L (fun j => b.getD j 0)‖ ^ 2 := by
    intro b hb
    subst hb
    unfold ssr
    rw [sum_zipWith_getD X y hlen, EuclideanSpace.norm_sq_eq]
    refine Finset.sum_congr rfl ?_
    intro i _
    have hr : (X.getD i []).length = b.length := by
      apply hX
      rw [List.getD_eq_getElem _ _ i.2]
      exact List.getElem_mem _
    rw [dotL_eq _ _ hr]
    simp [L, u]
  have hc : IsComplete ((LinearMap.range L : Submodule ℝ (EuclideanSpace ℝ (Fin X.length))) :
      Set (EuclideanSpace ℝ (Fin X.length))) :=
    Submodule.complete_of_finiteDimensional _
  obtain ⟨v, hv, hmin⟩ := Submodule.exists_norm_eq_iInf_of_complete_subspace (LinearMap.range L) hc u
  obtain ⟨b, rfl⟩ := hv
  have hb : (fun j : Fin k => (List.ofFn b).getD j 0) = b := by
    funext j
    simp [List.getD_eq_getElem?_getD]
  refine ⟨List.ofFn b, by simp, ?_⟩
  intro b' hb'
  rw [hssr _ (by simp), hssr _ hb', hb]
  have hle : ‖u - L b‖ ≤ ‖u - L (fun j => b'.getD j 0)‖ := by
    rw [hmin]
    exact ciInf_le (f := fun w : LinearMap.range L => ‖u - (w : EuclideanSpace ℝ (Fin X.length))‖)
      ⟨0, by rintro _ ⟨w, rfl⟩; exact norm_nonneg _⟩ ⟨L (fun j => b'.getD j 0), ⟨_, rfl⟩⟩
  exact pow_le_pow_left₀ (norm_nonneg _) hle 2

theorem exists_isOls : ∃ ols, IsOls ols := by
  classical
  refine ⟨fun X y => if h : ∃ k, X ≠ [] ∧ X.length = y.length ∧ ∀ r ∈ X, r.length = k then
    (exists_leastSquares X y h.choose h.choose_spec.2.1 h.choose_spec.2.2).choose else [], ?_⟩
  intro X y k hne hlen hX
  have h : ∃ k, X ≠ [] ∧ X.length = y.length ∧ ∀ r ∈ X, r.length = k := ⟨k, hne, hlen, hX⟩
  simp only [dif_pos h]
  have hk : h.choose = k := by
    obtain ⟨r, hr⟩ := List.exists_mem_of_ne_nil X hne
    rw [← h.choose_spec.2.2 r hr, hX r hr]
  have := (exists_leastSquares X y h.choose h.choose_spec.2.1 h.choose_spec.2.2).choose_spec
  rw [← hk]
  exact this

end FinML
