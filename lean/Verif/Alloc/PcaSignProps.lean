import Verif.Alloc.PcaProps
import Mathlib.LinearAlgebra.Matrix.NonsingularInverse
import Mathlib.Tactic.FinCases

/-!
# C238: are the PCA weights determined by the covariance?
-/

namespace FinML.Alloc

open Matrix

variable {n : ℕ}

/-- The eigendecomposition returned by a library, whatever it is. -/
abbrev Eigh (n : ℕ) := Matrix (Fin n) (Fin n) ℝ → (Fin n → ℝ) × Matrix (Fin n) (Fin n) ℝ

/-- C238, full claim: the weights depend on covariance, distribution and target only, not on which
orthonormal eigenvectors `eigh` happens to return. -/
def WeightsDetermined : Prop := ∀ (n : ℕ) (eigh eigh' : Eigh n) (argsort : (Fin n → ℝ) → Equiv.Perm (Fin n))
  (cov : Matrix (Fin n) (Fin n) ℝ), IsEigh cov (eigh cov).1 (eigh cov).2 →
  IsEigh cov (eigh' cov).1 (eigh' cov).2 → IsArgsort argsort → (∀ w, w ≠ 0 → 0 < variance cov w) →
  ∀ (riskDist : Option (Fin n → ℝ)) (riskTarget : ℝ),
    pcaWeights eigh argsort cov riskDist riskTarget = pcaWeights eigh' argsort cov riskDist riskTarget

/-- Two uncorrelated assets, the second one with four times the variance. -/
def twoAssets : Matrix (Fin 2) (Fin 2) ℝ := !![1, 0; 0, 4]

theorem sort_exists (vals : Fin 2 → ℝ) : ∃ σ : Equiv.Perm (Fin 2), Monotone fun k => vals (σ k) := by
  by_cases h : vals 0 ≤ vals 1
  · refine ⟨Equiv.refl _, ?_⟩
    intro a b hab
    fin_cases a <;> fin_cases b <;> simp_all
  · refine ⟨Equiv.swap 0 1, ?_⟩
    push Not at h
    intro a b hab
    fin_cases a <;> fin_cases b <;> simp_all [le_of_lt]

/-- C238, counterexample: with the risk split evenly over two uncorrelated assets, the sign of the second
eigenvector decides whether the second asset is bought or sold. -/
theorem C238_sign_counterexample : ¬ WeightsDetermined := by
  intro h
  choose sort hsort using sort_exists
  have e1 : IsEigh twoAssets ![1, 4] !![1, 0; 0, 1] := by
    refine ⟨?_, ?_⟩
    · intro k l
      fin_cases k <;> fin_cases l <;> simp [dotProduct, Fin.sum_univ_two]
    · intro k
      funext i
      fin_cases k <;> fin_cases i <;> simp [twoAssets, mulVec, dotProduct, Fin.sum_univ_two]
  have e2 : IsEigh twoAssets ![1, 4] !![1, 0; 0, -1] := by
    refine ⟨?_, ?_⟩
    · intro k l
      fin_cases k <;> fin_cases l <;> simp [dotProduct, Fin.sum_univ_two]
    · intro k
      funext i
      fin_cases k <;> fin_cases i <;> simp [twoAssets, mulVec, dotProduct, Fin.sum_univ_two]
  have hpd : ∀ w, w ≠ 0 → 0 < variance twoAssets w := by
    intro w hw
    have h : w 0 ≠ 0 ∨ w 1 ≠ 0 := by
      by_contra hc
      push Not at hc
      apply hw
      funext i
      fin_cases i
      · exact hc.1
      · exact hc.2
    simp only [variance, twoAssets, mulVec, dotProduct, Fin.sum_univ_two, of_apply, cons_val', cons_val_zero,
      cons_val_one, cons_val_fin_one]
    rcases h with h | h
    · nlinarith [mul_self_pos.2 h, mul_self_nonneg (w 1)]
    · nlinarith [mul_self_pos.2 h, mul_self_nonneg (w 0)]
  have hs : sort ![1, 4] = Equiv.refl (Fin 2) := by
    have hm := hsort ![1, 4] (show (0 : Fin 2) ≤ 1 by decide)
    apply Equiv.ext
    have hinj := (sort ![1, 4]).injective
    have h01 : sort ![1, 4] 0 ≠ sort ![1, 4] 1 := fun hc => absurd (hinj hc) (by decide)
    have h0 : sort ![1, 4] 0 = 0 := by
      by_contra hc
      have h0' : sort ![1, 4] 0 = 1 := by
        generalize sort ![1, 4] 0 = x at *; fin_cases x <;> simp_all
      have h1' : sort ![1, 4] 1 = 0 := by
        rw [h0'] at h01
        generalize sort ![1, 4] 1 = x at *; fin_cases x <;> simp_all
      simp only [h0', h1'] at hm
      norm_num at hm
    have h1 : sort ![1, 4] 1 = 1 := by
      rw [h0] at h01
      generalize sort ![1, 4] 1 = x at *; fin_cases x <;> simp_all
    intro k
    fin_cases k
    · exact h0
    · exact h1
  have key := h 2 (fun _ => (![1, 4], !![1, 0; 0, 1])) (fun _ => (![1, 4], !![1, 0; 0, -1])) sort twoAssets
    e1 e2 hsort hpd (some fun _ => 1 / 2) 1
  have := congrFun key 1
  simp only [pcaWeights, sortIndices, hs, mulVec, dotProduct, Fin.sum_univ_two, of_apply, loads,
    Option.getD_some, Equiv.refl_apply] at this
  rw [show Fin.rev (0 : Fin 2) = 1 by decide, show Fin.rev (1 : Fin 2) = 0 by decide] at this
  simp only [cons_val', cons_val_zero, cons_val_one, cons_val_fin_one, zero_mul, add_zero, one_mul] at this
  have hp : (0 : ℝ) < (1 / 2 / 4) ^ (0.5 : ℝ) := Real.rpow_pos_of_pos (by norm_num) _
  linarith

/-- Every eigenvalue of a matrix is among those `eigh` returns. -/
theorem eigenvalue_mem (cov : Matrix (Fin n) (Fin n) ℝ) (vals : Fin n → ℝ) (vecs : Matrix (Fin n) (Fin n) ℝ)
    (h : IsEigh cov vals vecs) (lam : ℝ) (v : Fin n → ℝ) (hv : v ≠ 0) (he : cov *ᵥ v = lam • v) :
    ∃ k, vals k = lam := by
  have hT : vecsᵀ * vecs = 1 := by
    ext k l
    rw [Matrix.mul_apply, Matrix.one_apply]
    exact h.orthonormal k l
  have hT' : vecs * vecsᵀ = 1 := mul_eq_one_comm.1 hT
  have hc : cov * vecs = vecs * Matrix.diagonal vals := by
    ext i k
    have := congrFun (h.eigen k) i
    rw [Matrix.mul_diagonal, Matrix.mul_apply]
    simp only [mulVec, dotProduct, Pi.smul_apply, smul_eq_mul] at this
    rw [this]; ring
  have hcov : cov = vecs * Matrix.diagonal vals * vecsᵀ := by
    rw [← hc, Matrix.mul_assoc, hT', Matrix.mul_one]
  have hdiag : Matrix.diagonal vals *ᵥ (vecsᵀ *ᵥ v) = lam • (vecsᵀ *ᵥ v) := by
    have h1 := congrArg (fun x => vecsᵀ *ᵥ x) he
    rw [mulVec_smul, hcov, mulVec_mulVec, ← Matrix.mul_assoc, ← Matrix.mul_assoc, hT, Matrix.one_mul,
      ← mulVec_mulVec] at h1
    exact h1
  have hne : vecsᵀ *ᵥ v ≠ 0 := by
    intro h0
    apply hv
    have := congrArg (fun x => vecs *ᵥ x) h0
    simp only [mulVec_mulVec, hT', one_mulVec, mulVec_zero] at this
    exact this
  obtain ⟨k, hk⟩ := Function.ne_iff.1 hne
  refine ⟨k, ?_⟩
  have := congrFun hdiag k
  rw [mulVec_diagonal, Pi.smul_apply, smul_eq_mul] at this
  exact mul_right_cancel₀ hk this

/-- C238, what holds: weights are proportional to the risk target; and by default, if the direction of least
variance is unique, they are determined up to the sign of the whole portfolio (missing: the sign, and other
risk distributions). -/
theorem C238_sign_partial (eigh eigh' : Eigh (n + 1))
    (argsort : (Fin (n + 1) → ℝ) → Equiv.Perm (Fin (n + 1))) (cov : Matrix (Fin (n + 1)) (Fin (n + 1)) ℝ)
    (he : IsEigh cov (eigh cov).1 (eigh cov).2) (he' : IsEigh cov (eigh' cov).1 (eigh' cov).2)
    (hsort : IsArgsort argsort) (hpd : ∀ w, w ≠ 0 → 0 < variance cov w) (lam0 : ℝ)
    (v0 : Fin (n + 1) → ℝ) (hv0 : v0 ≠ 0) (hlam0 : cov *ᵥ v0 = lam0 • v0)
    (hleast : ∀ lam v, v ≠ 0 → cov *ᵥ v = lam • v → lam0 ≤ lam ∧ (lam = lam0 → ∃ c : ℝ, v = c • v0))
    (riskTarget : ℝ) :
    (∀ (a : ℝ) riskDist, pcaWeights eigh argsort cov riskDist (a * riskTarget) =
      a • pcaWeights eigh argsort cov riskDist riskTarget) ∧
    (pcaWeights eigh' argsort cov none riskTarget = pcaWeights eigh argsort cov none riskTarget ∨
      pcaWeights eigh' argsort cov none riskTarget = -pcaWeights eigh argsort cov none riskTarget) := by
  constructor
  · intro a rd
    simp only [pcaWeights]
    rw [← mulVec_smul]
    congr 1
    funext k
    simp only [loads, Pi.smul_apply, smul_eq_mul]
    ring
  · have main : ∀ e : Eigh (n + 1), IsEigh cov (e cov).1 (e cov).2 →
        ∃ c : ℝ, pcaWeights e argsort cov none riskTarget = c • v0 ∧ c ^ 2 * variance cov v0 = riskTarget ^ 2 := by
      intro e hE
      obtain ⟨lam, h1, h2, h3⟩ := C82_default e argsort cov hE hsort hpd riskTarget
      obtain ⟨w, hw⟩ : ∃ w, pcaWeights e argsort cov none riskTarget = w := ⟨_, rfl⟩
      rw [hw] at h1 h3 ⊢
      have hvar : ∀ c : ℝ, variance cov (c • v0) = c ^ 2 * variance cov v0 := by
        intro c
        unfold variance
        rw [mulVec_smul, dotProduct_smul, smul_dotProduct]
        simp only [smul_eq_mul]
        ring
      by_cases hw0 : w = 0
      · refine ⟨0, by rw [hw0]; simp, ?_⟩
        rw [← h3, hw0]
        simp [variance]
      · obtain ⟨h4, h5⟩ := hleast lam w hw0 h1
        obtain ⟨k, hk⟩ := eigenvalue_mem cov _ _ hE lam0 v0 hv0 hlam0
        obtain ⟨c, hc⟩ := h5 (le_antisymm (by rw [← hk]; exact h2 k) h4)
        refine ⟨c, hc, ?_⟩
        rw [← hvar, ← hc]
        exact h3
    obtain ⟨c, hc, hc2⟩ := main eigh he
    obtain ⟨d, hd, hd2⟩ := main eigh' he'
    have hv := hpd v0 hv0
    have : d ^ 2 = c ^ 2 := mul_right_cancel₀ hv.ne' (hd2.trans hc2.symm)
    rw [hc, hd]
    rcases sq_eq_sq_iff_eq_or_eq_neg.1 this with h | h
    · left; rw [h]
    · right; rw [h, neg_smul]

/-- A case: the first of the two assets is the direction of least variance. -/
example : twoAssets *ᵥ ![1, 0] = (1 : ℝ) • ![1, 0] ∧ ∀ (lam : ℝ) (v : Fin 2 → ℝ), v ≠ 0 →
    twoAssets *ᵥ v = lam • v → 1 ≤ lam ∧ (lam = 1 → ∃ c : ℝ, v = c • ![1, 0]) := by
  refine ⟨by funext i; fin_cases i <;> simp [twoAssets, mulVec, dotProduct, Fin.sum_univ_two], ?_⟩
  intro lam v hv h
  have h0 := congrFun h 0
  have h1 := congrFun h 1
  simp only [twoAssets, mulVec, dotProduct, Fin.sum_univ_two, of_apply, cons_val', cons_val_zero,
    cons_val_one, cons_val_fin_one, Pi.smul_apply, smul_eq_mul, one_mul, zero_mul, add_zero, zero_add] at h0 h1
  have hne : v 0 ≠ 0 ∨ v 1 ≠ 0 := by
    by_contra hc
    push Not at hc
    apply hv
    funext i
    fin_cases i
    · exact hc.1
    · exact hc.2
  constructor
  · rcases hne with h2 | h2
    · have : lam = 1 := by
        have : (lam - 1) * v 0 = 0 := by linarith
        rcases mul_eq_zero.1 this with h | h
        · linarith
        · exact absurd h h2
      rw [this]
    · have : lam = 4 := by
        have : (lam - 4) * v 1 = 0 := by linarith
        rcases mul_eq_zero.1 this with h | h
        · linarith
        · exact absurd h h2
      rw [this]; norm_num
  · intro hl
    rw [hl] at h1
    have hv1 : v 1 = 0 := by linarith
    refine ⟨v 0, ?_⟩
    funext i
    fin_cases i
    · simp
    · simpa using hv1

end FinML.Alloc
