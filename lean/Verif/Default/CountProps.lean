import Verif.Default.CountLemmas
import Mathlib.Data.Finset.Powerset
import Mathlib.Algebra.BigOperators.Fin
import Mathlib.Algebra.Order.BigOperators.Ring.Finset
import Mathlib.Algebra.Order.BigOperators.Group.Finset
import Mathlib.Data.Rat.Floor

/-!
# Properties C114 and C115
-/

namespace FinML.Default

open Polynomial Finset

section Law

variable {K : Type} [Field K]

/-- The probability that exactly `k` of the firms default, when they default independently: the sum over
the sets of `k` firms of the probability that these default and the others do not. -/
def exactlyDefault (probs : List K) (k : ℕ) : K :=
  ∑ S ∈ (Finset.univ : Finset (Fin probs.length)).powersetCard k,
    (∏ i ∈ S, probs[i]) * ∏ i ∈ Sᶜ, (1 - probs[i])

theorem toPoly_pair (p : K) : toPoly [1 - p, p] = C p * X + C (1 - p) := by
  ext n
  rw [coeff_toPoly, coeff_add, coeff_C_mul, coeff_X, coeff_C]
  match n with
  | 0 => simp
  | 1 => simp
  | n + 2 => simp

theorem polyProd_pairs (probs : List K) :
    polyProd (probs.map fun p => [1 - p, p]) = ∏ i : Fin probs.length, (C probs[i] * X + C (1 - probs[i])) := by
  unfold polyProd
  rw [List.map_map]
  have : (toPoly ∘ fun p : K => [1 - p, p]) = fun p => C p * X + C (1 - p) := funext toPoly_pair
  rw [this]
  exact (Fin.prod_univ_fun_getElem probs fun p => C p * X + C (1 - p)).symm

theorem coeff_polyProd_pairs (probs : List K) (k : ℕ) :
    (polyProd (probs.map fun p => [1 - p, p])).coeff k = exactlyDefault probs k := by
  rw [polyProd_pairs, Finset.prod_add, finsetSum_coeff]
  unfold exactlyDefault
  rw [Finset.powersetCard_eq_filter, Finset.sum_filter]
  refine Finset.sum_congr rfl fun S _ => ?_
  rw [Finset.prod_mul_distrib, Finset.prod_const, ← map_prod, ← map_prod, coeff_mul_C, coeff_C_mul,
    coeff_X_pow, ← Finset.compl_eq_univ_sdiff]
  by_cases h : k = #S
  · rw [if_pos h, if_pos h.symm, mul_one]
  · rw [if_neg h, if_neg (Ne.symm h), mul_zero, zero_mul]

theorem degreeSum_pairs (probs : List K) : degreeSum (probs.map fun p => [1 - p, p]) = probs.length := by
  unfold degreeSum
  rw [List.map_map]
  induction probs with
  | nil => rfl
  | cons a l ih => simp [ih, add_comm]

theorem systematic_spec (probs : List K) (hne : probs ≠ []) :
    ∃ v, systematicDefaultProbs probs = .ok v ∧ toPoly v = polyProd (probs.map fun p => [1 - p, p]) ∧
      v.length = probs.length + 1 := by
  obtain ⟨v, h1, h2, h3⟩ := getDefaultCountProbs_spec (probs.map fun p => [1 - p, p])
    (by intro v hv; obtain ⟨p, -, rfl⟩ := List.mem_map.1 hv; simp) (by simpa using hne)
  exact ⟨v, h1, h2, by rw [h3, degreeSum_pairs]⟩

/-- C114. There is one number for each count from 0 to the number of firms, and it is the probability of
that many defaults. -/
theorem C114_law (probs : List K) (hne : probs ≠ []) :
    ∃ v, systematicDefaultProbs probs = .ok v ∧ v.length = probs.length + 1 ∧
      ∀ (k : ℕ) (hk : k < v.length), v[k] = exactlyDefault probs k := by
  obtain ⟨v, h1, h2, h3⟩ := systematic_spec probs hne
  refine ⟨v, h1, h3, fun k hk => ?_⟩
  have := coeff_toPoly v k
  rw [h2, coeff_polyProd_pairs, List.getD_eq_getElem _ _ hk] at this
  exact this.symm

theorem eval_polyProd_pairs (probs : List K) : (polyProd (probs.map fun p => [1 - p, p])).eval 1 = 1 := by
  unfold polyProd
  rw [List.map_map]
  induction probs with
  | nil => simp
  | cons a l ih => rw [List.map_cons, List.prod_cons, eval_mul, ih]; simp [toPoly_pair]

theorem derivative_polyProd_pairs (probs : List K) :
    (derivative (polyProd (probs.map fun p => [1 - p, p]))).eval 1 = probs.sum := by
  induction probs with
  | nil => simp [polyProd]
  | cons a l ih =>
    have h1 := eval_polyProd_pairs l
    have e : polyProd ((a :: l).map fun p => [1 - p, p]) =
        (C a * X + C (1 - a)) * polyProd (l.map fun p => [1 - p, p]) := by
      simp [polyProd, toPoly_pair]
    rw [e, derivative_mul, eval_add, eval_mul, eval_mul, h1, ih]
    simp

theorem derivative2_polyProd_pairs (probs : List K) :
    (derivative (derivative (polyProd (probs.map fun p => [1 - p, p])))).eval 1 =
      probs.sum ^ 2 - (probs.map fun p => p ^ 2).sum := by
  induction probs with
  | nil => simp [polyProd]
  | cons a l ih =>
    have h1 := eval_polyProd_pairs l
    have h2 := derivative_polyProd_pairs l
    have e : polyProd ((a :: l).map fun p => [1 - p, p]) =
        (C a * X + C (1 - a)) * polyProd (l.map fun p => [1 - p, p]) := by
      simp [polyProd, toPoly_pair]
    rw [e, derivative_mul, derivative_add, derivative_mul, derivative_mul]
    simp only [derivative_add, derivative_mul, derivative_C, derivative_X, zero_mul, mul_one, zero_add,
      add_zero, eval_add, eval_mul, eval_C, eval_X, ih, h2, List.map_cons, List.sum_cons]
    ring

/-- C114. The numbers sum to one, their mean is the sum of the probabilities, and their variance is the sum
of the variances of the firms. -/
theorem C114_moments (probs v : List K) (h : systematicDefaultProbs probs = .ok v) :
    v.sum = 1 ∧ ∑ k ∈ range v.length, (k : K) * v.getD k 0 = probs.sum ∧
      ∑ k ∈ range v.length, ((k : K) - probs.sum) ^ 2 * v.getD k 0 = (probs.map fun p => p * (1 - p)).sum := by
  have hne : probs ≠ [] := by
    rintro rfl
    simp [systematicDefaultProbs, getDefaultCountProbs, mergeAll, pyGet] at h
  obtain ⟨w, h1, h2, -⟩ := systematic_spec probs hne
  obtain rfl : w = v := by
    rw [h1] at h
    exact Except.ok.inj h
  have s0 : w.sum = 1 := by rw [← eval_toPoly, h2, eval_polyProd_pairs]
  have s1 : ∑ k ∈ range w.length, (k : K) * w.getD k 0 = probs.sum := by
    rw [← eval_derivative_toPoly, h2, derivative_polyProd_pairs]
  refine ⟨s0, s1, ?_⟩
  have s2 : ∑ k ∈ range w.length, ((k : K) * ((k : K) - 1)) * w.getD k 0 =
      probs.sum ^ 2 - (probs.map fun p => p ^ 2).sum := by
    rw [← derivative2_polyProd_pairs, ← h2]
    unfold toPoly
    rw [derivative_sum, derivative_sum, eval_finsetSum]
    refine Finset.sum_congr rfl fun k _ => ?_
    rw [derivative_monomial, derivative_monomial, eval_monomial, one_pow, mul_one]
    cases k with
    | zero => simp
    | succ k => push_cast; simp; ring
  have s0' : ∑ k ∈ range w.length, w.getD k 0 = 1 := by
    rw [← s0, ← eval_toPoly]
    unfold toPoly
    rw [eval_finsetSum]
    simp
  have e : ∀ k ∈ range w.length, ((k : K) - probs.sum) ^ 2 * w.getD k 0 =
      ((k : K) * ((k : K) - 1)) * w.getD k 0 + (1 - 2 * probs.sum) * ((k : K) * w.getD k 0)
        + probs.sum ^ 2 * w.getD k 0 := fun k _ => by ring
  rw [Finset.sum_congr rfl e, Finset.sum_add_distrib, Finset.sum_add_distrib, ← Finset.mul_sum,
    ← Finset.mul_sum, s0', s1, s2]
  have hv : (probs.map fun p => p * (1 - p)).sum = probs.sum - (probs.map fun p => p ^ 2).sum := by
    clear h h1 h2 s0 s1 s2 s0' e hne
    induction probs with
    | nil => simp
    | cons a l ih => simp only [List.map_cons, List.sum_cons, ih]; ring
  rw [hv]
  ring

/-- C114. Without firms there is an IndexError. -/
theorem C114_empty : systematicDefaultProbs ([] : List K) = .error .indexError := by
  simp [systematicDefaultProbs, getDefaultCountProbs, mergeAll, pyGet]

/-- C115. The order of the firms does not matter, whatever the (non-empty) vectors of the firms are. -/
theorem C115_order (l l' : List (List K)) (hp : l.Perm l') (h : ∀ v ∈ l, v ≠ []) :
    getDefaultCountProbs l = getDefaultCountProbs l' := by
  by_cases hne : l = []
  · subst hne
    rw [List.nil_perm.1 hp]
  have hne' : l' ≠ [] := by
    rintro rfl
    exact hne (List.perm_nil.1 hp)
  obtain ⟨v, h1, h2, h3⟩ := getDefaultCountProbs_spec l h hne
  obtain ⟨v', h1', h2', h3'⟩ := getDefaultCountProbs_spec l' (fun v hv => h v (hp.mem_iff.2 hv)) hne'
  rw [h1, h1']
  congr 1
  apply toPoly_inj
  · rw [h3, h3']
    unfold degreeSum
    rw [(hp.map _).sum_eq]
  · rw [h2, h2']
    unfold polyProd
    rw [(hp.map _).prod_eq]

/-- C115. In particular for a list of default probabilities. -/
theorem C115_firms (probs probs' : List K) (hp : probs.Perm probs') :
    systematicDefaultProbs probs = systematicDefaultProbs probs' := by
  refine C115_order _ _ (hp.map _) fun v hv => ?_
  obtain ⟨p, -, rfl⟩ := List.mem_map.1 hv
  simp

end Law

/-- C114. Probabilities of the firms give probabilities. -/
theorem C114_probability {K : Type} [Field K] [LinearOrder K] [IsStrictOrderedRing K] (probs v : List K)
    (h : systematicDefaultProbs probs = .ok v) (hp : ∀ p ∈ probs, 0 ≤ p ∧ p ≤ 1) :
    (∀ x ∈ v, 0 ≤ x ∧ x ≤ 1) ∧ v.sum = 1 := by
  have hs := (C114_moments probs v h).1
  have hne : probs ≠ [] := by
    rintro rfl
    rw [C114_empty] at h
    cases h
  have h0 : ∀ x ∈ v, 0 ≤ x := by
    obtain ⟨w, h1, -, h3⟩ := C114_law probs hne
    rw [h1] at h
    cases h
    intro x hx
    obtain ⟨k, hk, rfl⟩ := List.mem_iff_getElem.1 hx
    rw [h3 k hk]
    unfold exactlyDefault
    refine Finset.sum_nonneg fun S _ => mul_nonneg ?_ ?_
    · exact Finset.prod_nonneg fun i _ => (hp _ (List.getElem_mem _)).1
    · exact Finset.prod_nonneg fun i _ => sub_nonneg.2 (hp _ (List.getElem_mem _)).2
  exact ⟨fun x hx => ⟨h0 x hx, hs ▸ List.single_le_sum h0 x hx⟩, hs⟩

/-- Three firms. -/
example : systematicDefaultProbs [(1/2 : ℚ), 1/3, 1/4] = .ok [1/4, 11/24, 1/4, 1/24] := by
  obtain ⟨v, h1, h2, h3⟩ := C114_law [(1/2 : ℚ), 1/3, 1/4] (by simp)
  rw [h1]
  congr 1
  match v, h2 with
  | [a, b, c, d], _ =>
    have e0 := h3 0 (by simp)
    have e1 := h3 1 (by simp)
    have e2 := h3 2 (by simp)
    have e3 := h3 3 (by simp)
    simp only [List.getElem_cons_zero, List.getElem_cons_succ] at e0 e1 e2 e3
    rw [e0, e1, e2, e3]
    decide +kernel

/-- `C115_order` needs its hypothesis: two empty vectors side by side are a ValueError, and apart they are
not. -/
example : getDefaultCountProbs [[], [1, 1], [], ([1, 1] : List ℚ)] = .ok [0] ∧
    getDefaultCountProbs [[], [], [1, 1], ([1, 1] : List ℚ)] = .error .valueError := by
  constructor
  · simp [getDefaultCountProbs, mergeAll, pairUp, convolvePy, convolve, addAt, pyGet]
  · simp [getDefaultCountProbs, mergeAll, pairUp, convolvePy, convolve, addAt, pyGet]

end FinML.Default
