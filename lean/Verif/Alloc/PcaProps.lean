import Verif.Py.Basic
import Mathlib.Analysis.SpecialFunctions.Pow.Real
import Mathlib.LinearAlgebra.Matrix.DotProduct
import Mathlib.Data.Matrix.Mul
import Mathlib.Tactic.LinearCombination

/-!
# Model of financial_ml/assets_allocation/pca_hedge.py and property C82

Matrices are real, of size `n` by `n`.  `np.linalg.eigh` and `argsort` are parameters: `eigh` returns
the eigenvalues and the matrix of the eigenvectors (columns), `argsort` a permutation of the indices.
-/

namespace FinML.Alloc

open Matrix

variable {n : ℕ}

/-- `np.zeros(n)` with a one in the last place, pca_hedge.py:9-10. -/
def defaultRisk (n : ℕ) (k : Fin n) : ℝ := if (k : ℕ) + 1 = n then 1 else 0

/-- `eig_val.argsort()[::-1]`, pca_hedge.py:6. -/
def sortIndices (argsort : (Fin n → ℝ) → Equiv.Perm (Fin n)) (vals : Fin n → ℝ) (k : Fin n) : Fin n :=
  argsort vals k.rev

/-- `loads`, pca_hedge.py:11. -/
noncomputable def loads (riskTarget : ℝ) (riskDist vals : Fin n → ℝ) (k : Fin n) : ℝ :=
  riskTarget * (riskDist k / vals k) ^ (0.5 : ℝ)

/-- `pca_weights`, pca_hedge.py:4-13. -/
noncomputable def pcaWeights (eigh : Matrix (Fin n) (Fin n) ℝ → (Fin n → ℝ) × Matrix (Fin n) (Fin n) ℝ)
    (argsort : (Fin n → ℝ) → Equiv.Perm (Fin n)) (cov : Matrix (Fin n) (Fin n) ℝ)
    (riskDist : Option (Fin n → ℝ)) (riskTarget : ℝ) : Fin n → ℝ :=
  let e := eigh cov
  let vals := fun k => e.1 (sortIndices argsort e.1 k)
  let vecs : Matrix (Fin n) (Fin n) ℝ := Matrix.of fun i k => e.2 i (sortIndices argsort e.1 k)
  vecs *ᵥ loads riskTarget (riskDist.getD (defaultRisk n)) vals

/-- What `np.linalg.eigh` returns for a symmetric matrix: an orthonormal basis of eigenvectors. -/
structure IsEigh (cov : Matrix (Fin n) (Fin n) ℝ) (vals : Fin n → ℝ) (vecs : Matrix (Fin n) (Fin n) ℝ) :
    Prop where
  orthonormal : ∀ k l, (fun i => vecs i k) ⬝ᵥ (fun i => vecs i l) = if k = l then 1 else 0
  eigen : ∀ k, cov *ᵥ (fun i => vecs i k) = vals k • fun i => vecs i k

/-- What `argsort` returns: a permutation putting the values in increasing order. -/
def IsArgsort (argsort : (Fin n → ℝ) → Equiv.Perm (Fin n)) : Prop :=
  ∀ vals : Fin n → ℝ, Monotone fun k => vals (argsort vals k)

/-- The variance of a portfolio. -/
def variance (cov : Matrix (Fin n) (Fin n) ℝ) (w : Fin n → ℝ) : ℝ := w ⬝ᵥ (cov *ᵥ w)

/-- `v` is a unit principal component of variance `lam` that is `k`-th in decreasing order: there are
an orthonormal eigenbasis with decreasing eigenvalues of which it is the `k`-th. -/
def IsPrincipal (cov : Matrix (Fin n) (Fin n) ℝ) (basis : Fin n → Fin n → ℝ) (lam : Fin n → ℝ) : Prop :=
  (∀ k l, basis k ⬝ᵥ basis l = if k = l then 1 else 0) ∧ (∀ k, cov *ᵥ basis k = lam k • basis k) ∧
    Antitone lam

theorem pcaWeights_eq (eigh : Matrix (Fin n) (Fin n) ℝ → (Fin n → ℝ) × Matrix (Fin n) (Fin n) ℝ)
    (argsort : (Fin n → ℝ) → Equiv.Perm (Fin n)) (cov : Matrix (Fin n) (Fin n) ℝ)
    (riskDist : Option (Fin n → ℝ)) (riskTarget : ℝ) :
    pcaWeights eigh argsort cov riskDist riskTarget =
      ∑ k : Fin n, loads riskTarget (riskDist.getD (defaultRisk n))
        (fun k => (eigh cov).1 (argsort (eigh cov).1 k.rev)) k •
        fun i => (eigh cov).2 i (argsort (eigh cov).1 k.rev) := by
  funext i
  simp only [pcaWeights, mulVec, dotProduct, Finset.sum_apply, Matrix.of_apply, Pi.smul_apply,
    smul_eq_mul, sortIndices]
  exact Finset.sum_congr rfl fun k _ => mul_comm _ _

/-- The variance of a combination of principal components is the sum of their shares. -/
theorem variance_combination (cov : Matrix (Fin n) (Fin n) ℝ) (basis : Fin n → Fin n → ℝ)
    (lam : Fin n → ℝ) (h : IsPrincipal cov basis lam) (x : Fin n → ℝ) :
    variance cov (∑ k, x k • basis k) = ∑ k, x k ^ 2 * lam k ∧
      ∀ k, (∑ k, x k • basis k) ⬝ᵥ basis k = x k := by
  have hdot : ∀ k, (∑ k, x k • basis k) ⬝ᵥ basis k = x k := by
    intro k
    rw [sum_dotProduct]
    simp only [smul_dotProduct, h.1, smul_eq_mul, mul_ite, mul_one, mul_zero, Finset.sum_ite_eq',
      Finset.mem_univ, if_true]
  refine ⟨?_, hdot⟩
  unfold variance
  rw [show cov *ᵥ (∑ k, x k • basis k) = ∑ k, x k • (lam k • basis k) by
    rw [mulVec_sum]
    exact Finset.sum_congr rfl fun k _ => by rw [mulVec_smul, h.2.1]]
  rw [dotProduct_sum]
  refine Finset.sum_congr rfl fun k _ => ?_
  rw [dotProduct_smul, dotProduct_smul, hdot]
  simp only [smul_eq_mul]
  ring

/-- C82: for every positive definite covariance (all eigenvalues positive), non-negative risk
distribution and risk target, there is an orthonormal basis of principal components in order of
decreasing variance such that the component of the portfolio along the `k`-th one has variance
`risk_target² · risk_dist[k]`, and the portfolio has variance `risk_target² · Σ risk_dist`. -/
theorem C82_pca (eigh : Matrix (Fin n) (Fin n) ℝ → (Fin n → ℝ) × Matrix (Fin n) (Fin n) ℝ)
    (argsort : (Fin n → ℝ) → Equiv.Perm (Fin n)) (cov : Matrix (Fin n) (Fin n) ℝ)
    (heigh : IsEigh cov (eigh cov).1 (eigh cov).2) (hsort : IsArgsort argsort)
    (hpd : ∀ w, w ≠ 0 → 0 < variance cov w)
    (riskDist : Option (Fin n → ℝ)) (hr : ∀ d, riskDist = some d → ∀ k, 0 ≤ d k) (riskTarget : ℝ) :
    ∃ basis lam, IsPrincipal cov basis lam ∧
      (∀ k, variance cov ((pcaWeights eigh argsort cov riskDist riskTarget ⬝ᵥ basis k) • basis k) =
        riskTarget ^ 2 * riskDist.getD (defaultRisk n) k) ∧
      variance cov (pcaWeights eigh argsort cov riskDist riskTarget) =
        riskTarget ^ 2 * ∑ k, riskDist.getD (defaultRisk n) k := by
  set d := riskDist.getD (defaultRisk n) with hd
  have hd0 : ∀ k, 0 ≤ d k := by
    intro k
    cases hrd : riskDist with
    | none =>
      simp only [hd, hrd, Option.getD_none, defaultRisk]
      split_ifs <;> norm_num
    | some d' => simpa [hd, hrd] using hr d' hrd k
  set σ := argsort (eigh cov).1 with hσ
  let basis : Fin n → Fin n → ℝ := fun k i => (eigh cov).2 i (σ k.rev)
  let lam : Fin n → ℝ := fun k => (eigh cov).1 (σ k.rev)
  have hprin : IsPrincipal cov basis lam := by
    refine ⟨?_, ?_, ?_⟩
    · intro k l
      have := heigh.orthonormal (σ k.rev) (σ l.rev)
      simpa [basis] using this
    · intro k
      exact heigh.eigen (σ k.rev)
    · intro k l hkl
      exact hsort (eigh cov).1 (Fin.rev_le_rev.2 hkl)
  have hlam : ∀ k, 0 < lam k := by
    intro k
    have hne : basis k ≠ 0 := by
      intro h0
      have := hprin.1 k k
      rw [h0] at this
      simp at this
    have := hpd _ hne
    unfold variance at this
    rw [hprin.2.1, dotProduct_smul, hprin.1] at this
    simpa using this
  have hw : pcaWeights eigh argsort cov riskDist riskTarget =
      ∑ k, loads riskTarget d lam k • basis k := pcaWeights_eq _ _ _ _ _
  have hload : ∀ k, loads riskTarget d lam k ^ 2 * lam k = riskTarget ^ 2 * d k := by
    intro k
    have h0 : 0 ≤ d k / lam k := div_nonneg (hd0 k) (hlam k).le
    have : ((d k / lam k) ^ (0.5 : ℝ)) ^ 2 = d k / lam k := by
      rw [← Real.rpow_natCast, ← Real.rpow_mul h0]
      norm_num
    unfold loads
    rw [mul_pow, this]
    have := (hlam k).ne'
    field_simp
  obtain ⟨hvar, hdot⟩ := variance_combination cov basis lam hprin (loads riskTarget d lam)
  refine ⟨basis, lam, hprin, ?_, ?_⟩
  · intro k
    rw [hw, hdot, ← hload k]
    unfold variance
    rw [mulVec_smul, hprin.2.1, dotProduct_smul, dotProduct_smul, smul_dotProduct, hprin.1]
    simp only [if_true, smul_eq_mul]
    ring
  · rw [hw, hvar, Finset.mul_sum]
    exact Finset.sum_congr rfl fun k _ => hload k

/-- C82: by default the portfolio is a multiple of the principal component of least variance: it is an
eigenvector of the covariance whose eigenvalue is at most every eigenvalue, and its variance is the
square of the risk target. -/
theorem C82_default (eigh : Matrix (Fin (n + 1)) (Fin (n + 1)) ℝ →
      (Fin (n + 1) → ℝ) × Matrix (Fin (n + 1)) (Fin (n + 1)) ℝ)
    (argsort : (Fin (n + 1) → ℝ) → Equiv.Perm (Fin (n + 1)))
    (cov : Matrix (Fin (n + 1)) (Fin (n + 1)) ℝ)
    (heigh : IsEigh cov (eigh cov).1 (eigh cov).2) (hsort : IsArgsort argsort)
    (hpd : ∀ w, w ≠ 0 → 0 < variance cov w) (riskTarget : ℝ) :
    ∃ lam, cov *ᵥ pcaWeights eigh argsort cov none riskTarget =
        lam • pcaWeights eigh argsort cov none riskTarget ∧
      (∀ k, lam ≤ (eigh cov).1 k) ∧
      variance cov (pcaWeights eigh argsort cov none riskTarget) = riskTarget ^ 2 := by
  obtain ⟨-, -, -, -, hv⟩ := C82_pca eigh argsort cov heigh hsort hpd none (by simp) riskTarget
  have hsum : ∑ k, defaultRisk (n + 1) k = 1 := by
    rw [Fin.sum_univ_castSucc]
    have : ∀ k : Fin n, defaultRisk (n + 1) k.castSucc = 0 := by
      intro k
      simp only [defaultRisk, Fin.val_castSucc]
      rw [if_neg (by omega)]
    rw [Finset.sum_eq_zero fun k _ => this k]
    simp [defaultRisk]
  set σ := argsort (eigh cov).1 with hσ
  have hw : ∃ c : ℝ, pcaWeights eigh argsort cov none riskTarget =
      c • fun i => (eigh cov).2 i (σ 0) := by
    rw [pcaWeights_eq, Fin.sum_univ_castSucc]
    have : ∀ k : Fin n, loads riskTarget (Option.getD none (defaultRisk (n + 1)))
        (fun k => (eigh cov).1 (argsort (eigh cov).1 k.rev)) k.castSucc = 0 := by
      intro k
      simp only [loads, Option.getD_none, defaultRisk, Fin.val_castSucc]
      rw [if_neg (by omega)]
      norm_num
    simp only [this, zero_smul, Finset.sum_const_zero, zero_add]
    rw [Fin.rev_last]
    exact ⟨_, rfl⟩
  obtain ⟨c, hc⟩ := hw
  refine ⟨(eigh cov).1 (σ 0), ?_, ?_, ?_⟩
  · rw [hc, mulVec_smul, heigh.eigen, smul_comm]
  · intro k
    have := hsort (eigh cov).1 (Fin.zero_le (σ.symm k))
    simpa [hσ] using this
  · rw [hv]
    simp [hsum]

/-- The hypotheses hold for the identity covariance of two assets. -/
example : IsEigh (1 : Matrix (Fin 2) (Fin 2) ℝ) (fun _ => 1) 1 ∧
    ∀ w : Fin 2 → ℝ, w ≠ 0 → 0 < variance 1 w := by
  refine ⟨⟨?_, ?_⟩, ?_⟩
  · intro k l
    fin_cases k <;> fin_cases l <;> simp [dotProduct, Matrix.one_apply]
  · intro k
    simp
  · intro w hw
    have h : w 0 ≠ 0 ∨ w 1 ≠ 0 := by
      by_contra hc
      push Not at hc
      apply hw
      funext i
      fin_cases i
      · exact hc.1
      · exact hc.2
    simp only [variance, one_mulVec, dotProduct, Fin.sum_univ_two]
    rcases h with h | h
    · nlinarith [mul_self_pos.2 h, mul_self_nonneg (w 1)]
    · nlinarith [mul_self_pos.2 h, mul_self_nonneg (w 0)]

end FinML.Alloc
