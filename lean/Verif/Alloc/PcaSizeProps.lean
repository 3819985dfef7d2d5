import Verif.Alloc.PcaSignProps

/-!
# Property C326: how large PCA portfolios are
-/

namespace FinML.Alloc

open Matrix

variable {n : ℕ}

/-- The size of a portfolio: the sum of the squares of its weights. -/
def size2 (w : Fin n → ℝ) : ℝ := w ⬝ᵥ w

/-- A vector in an orthonormal basis. -/
theorem expand_basis (basis : Fin n → Fin n → ℝ) (h : ∀ k l, basis k ⬝ᵥ basis l = if k = l then 1 else 0)
    (v : Fin n → ℝ) : v = ∑ k, (v ⬝ᵥ basis k) • basis k := by
  set B : Matrix (Fin n) (Fin n) ℝ := Matrix.of basis with hB
  have h1 : B * Bᵀ = 1 := by
    ext k l
    rw [Matrix.mul_apply, Matrix.one_apply]
    exact h k l
  have h2 : Bᵀ * B = 1 := mul_eq_one_comm.1 h1
  have h3 : v = Bᵀ *ᵥ (B *ᵥ v) := by rw [Matrix.mulVec_mulVec, h2, Matrix.one_mulVec]
  conv_lhs => rw [h3]
  funext i
  simp only [mulVec, dotProduct, Matrix.transpose_apply, hB, Matrix.of_apply, Finset.sum_apply, Pi.smul_apply,
    smul_eq_mul]
  refine Finset.sum_congr rfl fun k _ => ?_
  rw [mul_comm]
  congr 1
  exact Finset.sum_congr rfl fun j _ => mul_comm _ _

/-- Variance and size in terms of the principal components. -/
theorem variance_ge (cov : Matrix (Fin n) (Fin n) ℝ) (vals : Fin n → ℝ) (vecs : Matrix (Fin n) (Fin n) ℝ)
    (h : IsEigh cov vals vecs) (lam : ℝ) (hl : ∀ k, lam ≤ vals k) (v : Fin n → ℝ) :
    lam * size2 v ≤ variance cov v := by
  set basis : Fin n → Fin n → ℝ := fun k i => vecs i k with hbasis
  set x : Fin n → ℝ := fun k => v ⬝ᵥ basis k with hx
  have hv : v = ∑ k, x k • basis k := expand_basis basis h.orthonormal v
  have hsize : size2 v = ∑ k, x k ^ 2 := by
    unfold size2
    conv_lhs => rw [show v ⬝ᵥ v = v ⬝ᵥ ∑ k, x k • basis k from congrArg (fun u => v ⬝ᵥ u) hv]
    rw [dotProduct_sum]
    refine Finset.sum_congr rfl fun k _ => ?_
    rw [dotProduct_smul, smul_eq_mul, pow_two]
  have hvar : variance cov v = ∑ k, x k ^ 2 * vals k := by
    unfold variance
    rw [show cov *ᵥ v = ∑ k, x k • (vals k • basis k) by
      conv_lhs => rw [hv]
      rw [mulVec_sum]
      exact Finset.sum_congr rfl fun k _ => by rw [mulVec_smul, h.eigen]]
    rw [dotProduct_sum]
    refine Finset.sum_congr rfl fun k _ => ?_
    rw [dotProduct_smul, dotProduct_smul]
    simp only [smul_eq_mul]
    show x k * (vals k * x k) = _
    ring
  rw [hsize, hvar, Finset.mul_sum]
  exact Finset.sum_le_sum fun k _ => by nlinarith [hl k, sq_nonneg (x k)]

/-- The variance of an eigenvector. -/
theorem variance_eigen (cov : Matrix (Fin n) (Fin n) ℝ) (w : Fin n → ℝ) (lam : ℝ) (h : cov *ᵥ w = lam • w) :
    variance cov w = lam * size2 w := by
  unfold variance size2
  rw [h, dotProduct_smul, smul_eq_mul]

/-- C326, full claim: the default portfolio has the least variance of all portfolios with the same total weight. -/
def MinimumVariance : Prop := ∀ (n : ℕ) (eigh : Eigh (n + 1)) (argsort : (Fin (n + 1) → ℝ) → Equiv.Perm (Fin (n + 1)))
  (cov : Matrix (Fin (n + 1)) (Fin (n + 1)) ℝ), IsEigh cov (eigh cov).1 (eigh cov).2 → IsArgsort argsort →
  (∀ w, w ≠ 0 → 0 < variance cov w) → ∀ (riskTarget : ℝ) (v : Fin (n + 1) → ℝ),
    ∑ i, v i = ∑ i, pcaWeights eigh argsort cov none riskTarget i →
    variance cov (pcaWeights eigh argsort cov none riskTarget) ≤ variance cov v

/-- C326, what holds: the default portfolio has the least variance of all portfolios at least as large (in the sum of the
squared weights), and is the largest of all with no more variance than the square of the risk target.  Missing: portfolios
of the same total weight, see `C326_minimum_counterexample`. -/
theorem C326_minimum_partial (eigh : Eigh (n + 1)) (argsort : (Fin (n + 1) → ℝ) → Equiv.Perm (Fin (n + 1)))
    (cov : Matrix (Fin (n + 1)) (Fin (n + 1)) ℝ) (heigh : IsEigh cov (eigh cov).1 (eigh cov).2)
    (hsort : IsArgsort argsort) (hpd : ∀ w, w ≠ 0 → 0 < variance cov w) (riskTarget : ℝ) (v : Fin (n + 1) → ℝ) :
    (size2 (pcaWeights eigh argsort cov none riskTarget) ≤ size2 v →
      variance cov (pcaWeights eigh argsort cov none riskTarget) ≤ variance cov v) ∧
    (variance cov v ≤ riskTarget ^ 2 → size2 v ≤ size2 (pcaWeights eigh argsort cov none riskTarget)) := by
  obtain ⟨lam, hlam, hle, hvar⟩ := C82_default eigh argsort cov heigh hsort hpd riskTarget
  set w := pcaWeights eigh argsort cov none riskTarget with hw
  have hge := variance_ge cov _ _ heigh lam hle
  have heq := variance_eigen cov w lam hlam
  by_cases hw0 : w = 0
  · have e0 : size2 w = 0 := by rw [hw0]; simp [size2]
    have t0 : riskTarget ^ 2 = 0 := by rw [← hvar, hw0]; simp [variance]
    constructor
    · intro _
      rw [hvar, t0]
      by_cases hv0 : v = 0
      · rw [hv0]; simp [variance]
      · exact (hpd v hv0).le
    · intro hv
      rw [t0] at hv
      by_cases hv0 : v = 0
      · rw [hv0, e0]; simp [size2]
      · exact absurd (hpd v hv0) (not_lt.2 hv)
  · have hpos := hpd w hw0
    have hs : 0 ≤ size2 w := by
      unfold size2 dotProduct
      exact Finset.sum_nonneg fun i _ => mul_self_nonneg _
    have hl0 : 0 < lam := by
      by_contra hc
      push Not at hc
      nlinarith
    constructor
    · intro h
      rw [heq]
      exact (mul_le_mul_of_nonneg_left h hl0.le).trans (hge v)
    · intro h
      have : lam * size2 v ≤ lam * size2 w := by
        rw [← heq, hvar]
        exact (hge v).trans h
      exact le_of_mul_le_mul_left this hl0

/-- C326.  Every distribution of the risk that adds up to at most 1 gives a portfolio no larger than the default one. -/
theorem C326_distribution (eigh : Eigh (n + 1)) (argsort : (Fin (n + 1) → ℝ) → Equiv.Perm (Fin (n + 1)))
    (cov : Matrix (Fin (n + 1)) (Fin (n + 1)) ℝ) (heigh : IsEigh cov (eigh cov).1 (eigh cov).2)
    (hsort : IsArgsort argsort) (hpd : ∀ w, w ≠ 0 → 0 < variance cov w) (riskTarget : ℝ) (d : Fin (n + 1) → ℝ)
    (hd : ∀ k, 0 ≤ d k) (hsum : ∑ k, d k ≤ 1) :
    size2 (pcaWeights eigh argsort cov (some d) riskTarget) ≤ size2 (pcaWeights eigh argsort cov none riskTarget) := by
  refine (C326_minimum_partial eigh argsort cov heigh hsort hpd riskTarget _).2 ?_
  obtain ⟨-, -, -, -, hv⟩ := C82_pca eigh argsort cov heigh hsort hpd (some d) (by rintro d' ⟨⟩; exact hd) riskTarget
  rw [hv]
  simp only [Option.getD_some]
  nlinarith [sq_nonneg riskTarget]

/-- C326 (refuted).  Two uncorrelated assets of variances 1 and 4: the default portfolio is in the first alone; four fifths
of it and one fifth in the second have less variance. -/
theorem C326_minimum_counterexample : ¬ MinimumVariance := by
  intro h
  choose sort hsort using sort_exists
  have e1 : IsEigh twoAssets ![1, 4] !![1, 0; 0, 1] := by
    refine ⟨?_, ?_⟩
    · intro k l
      fin_cases k <;> fin_cases l <;> simp [dotProduct, Fin.sum_univ_two]
    · intro k
      funext i
      fin_cases k <;> fin_cases i <;> simp [twoAssets, mulVec, dotProduct, Fin.sum_univ_two]
  have hval : ∀ w : Fin 2 → ℝ, variance twoAssets w = w 0 ^ 2 + 4 * w 1 ^ 2 := by
    intro w
    simp only [variance, twoAssets, mulVec, dotProduct, Fin.sum_univ_two, Matrix.of_apply, Matrix.cons_val_zero,
      Matrix.cons_val_one, Matrix.cons_val', Matrix.cons_val_fin_one]
    ring
  have hpd : ∀ w, w ≠ 0 → 0 < variance twoAssets w := by
    intro w hw
    have h : w 0 ≠ 0 ∨ w 1 ≠ 0 := by
      by_contra hc
      push Not at hc
      apply hw
      funext i
      fin_cases i
      · exact hc.1
      · exact hc.2
    rw [hval]
    rcases h with h | h
    · nlinarith [mul_self_pos.2 h, mul_self_nonneg (w 1)]
    · nlinarith [mul_self_pos.2 h, mul_self_nonneg (w 0)]
  set eigh : Eigh 2 := fun _ => (![1, 4], !![1, 0; 0, 1]) with heigh
  obtain ⟨lam, hlam, hle, hvar⟩ := C82_default eigh sort twoAssets e1 hsort hpd 1
  set w := pcaWeights eigh sort twoAssets none 1 with hw
  have h1 : lam ≤ 1 := hle 0
  have hw1 : w 1 = 0 := by
    have : (twoAssets *ᵥ w : Fin 2 → ℝ) 1 = lam * w 1 := congrFun hlam 1
    simp only [twoAssets, mulVec, dotProduct, Fin.sum_univ_two, Matrix.of_apply, Matrix.cons_val_zero,
      Matrix.cons_val_one, Matrix.cons_val', Matrix.cons_val_fin_one] at this
    have h2 : (4 - lam) * w 1 = 0 := by linarith
    rcases mul_eq_zero.1 h2 with h3 | h3
    · linarith
    · exact h3
  have hw0 : w 0 ^ 2 = 1 := by
    rw [hval, hw1] at hvar
    linarith
  have := h 1 eigh sort twoAssets e1 hsort hpd 1 ![4 / 5 * w 0, 1 / 5 * w 0]
    (by
      show ∑ i : Fin 2, ![4 / 5 * w 0, 1 / 5 * w 0] i = ∑ i : Fin 2, w i
      simp only [Fin.sum_univ_two, hw1, Matrix.cons_val_zero, Matrix.cons_val_one]
      ring)
  rw [hvar, hval] at this
  simp only [Matrix.cons_val_zero, Matrix.cons_val_one] at this
  nlinarith

end FinML.Alloc
