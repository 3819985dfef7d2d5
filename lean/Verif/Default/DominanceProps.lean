import Verif.Default.CountProps

/-! # Property C250: riskier firms shift the number of defaults up -/

namespace FinML.Default

open Polynomial Finset

variable {K : Type} [Field K] [LinearOrder K] [IsStrictOrderedRing K]

/-- The mean of `g` of the number of defaults, taking in the firms one by one. -/
def meanOf : List K → (ℕ → K) → K
  | [], g => g 0
  | p :: l, g => (1 - p) * meanOf l g + p * meanOf l fun k => g (k + 1)

omit [LinearOrder K] [IsStrictOrderedRing K] in
theorem coeff_beyond (probs : List K) :
    (polyProd (probs.map fun p => [1 - p, p])).coeff (probs.length + 1) = 0 := by
  rw [coeff_polyProd_pairs, exactlyDefault, Finset.powersetCard_eq_empty.2 (by simp), sum_empty]

omit [LinearOrder K] [IsStrictOrderedRing K] in
theorem meanOf_eq (probs : List K) (g : ℕ → K) :
    ∑ k ∈ range (probs.length + 1), g k * (polyProd (probs.map fun p => [1 - p, p])).coeff k =
      meanOf probs g := by
  induction probs generalizing g with
  | nil => simp [polyProd, meanOf]
  | cons a l ih =>
    have e : polyProd ((a :: l).map fun p => [1 - p, p]) =
        (C a * X + C (1 - a)) * polyProd (l.map fun p => [1 - p, p]) := by
      simp [polyProd, toPoly_pair]
    set Q := polyProd (l.map fun p => [1 - p, p]) with hQ
    have h0 : ∀ k, ((C a * X + C (1 - a)) * Q).coeff (k + 1) = a * Q.coeff k + (1 - a) * Q.coeff (k + 1) := by
      intro k
      rw [add_mul, coeff_add, mul_assoc, coeff_C_mul, coeff_X_mul, coeff_C_mul]
    have h1 : ((C a * X + C (1 - a)) * Q).coeff 0 = (1 - a) * Q.coeff 0 := by
      rw [add_mul, coeff_add, mul_assoc, coeff_C_mul, coeff_X_mul_zero, coeff_C_mul, mul_zero, zero_add]
    have hb : Q.coeff (l.length + 1) = 0 := coeff_beyond l
    rw [e, List.length_cons, sum_range_succ', h1, meanOf, ← ih g, ← ih fun k => g (k + 1)]
    simp only [h0]
    have h2 : ∑ k ∈ range (l.length + 1), g k * Q.coeff k =
        ∑ k ∈ range (l.length + 1), g (k + 1) * Q.coeff (k + 1) + g 0 * Q.coeff 0 := by
      rw [← sum_range_succ' (fun k => g k * Q.coeff k), sum_range_succ _ (l.length + 1), hb, mul_zero, add_zero]
    rw [h2, mul_add, mul_sum, mul_sum]
    have h3 : ∑ k ∈ range (l.length + 1), g (k + 1) * (a * Q.coeff k + (1 - a) * Q.coeff (k + 1)) =
        ∑ k ∈ range (l.length + 1), (1 - a) * (g (k + 1) * Q.coeff (k + 1)) +
          ∑ k ∈ range (l.length + 1), a * (g (k + 1) * Q.coeff k) := by
      rw [← sum_add_distrib]
      exact sum_congr rfl fun k _ => by ring
    rw [h3]
    ring

theorem meanOf_mono {l : List K} (hl : ∀ p ∈ l, 0 ≤ p ∧ p ≤ 1) {g g' : ℕ → K} (h : ∀ k, g k ≤ g' k) :
    meanOf l g ≤ meanOf l g' := by
  induction l generalizing g g' with
  | nil => exact h 0
  | cons p l ih =>
    have hp := hl p (by simp)
    have ih' := fun g g' => @ih (fun q hq => hl q (by simp [hq])) g g'
    exact add_le_add (mul_le_mul_of_nonneg_left (ih' _ _ h) (by linarith))
      (mul_le_mul_of_nonneg_left (ih' _ _ fun k => h (k + 1)) hp.1)

theorem meanOf_riskier {l l' : List K} (h : List.Forall₂ (fun p p' => 0 ≤ p ∧ p ≤ p' ∧ p' ≤ 1) l l')
    {g : ℕ → K} (hg : Monotone g) : meanOf l g ≤ meanOf l' g := by
  induction h generalizing g with
  | nil => exact le_rfl
  | @cons p p' l l' hp hr ih =>
    have hl : ∀ q ∈ l, 0 ≤ q ∧ q ≤ 1 := by
      intro q hq
      obtain ⟨n, hn, rfl⟩ := List.mem_iff_getElem.1 hq
      have := List.forall₂_iff_get.1 hr
      have h2 := this.2 n hn (this.1 ▸ hn)
      exact ⟨h2.1, h2.2.1.trans h2.2.2⟩
    have hs : meanOf l g ≤ meanOf l fun k => g (k + 1) := meanOf_mono hl fun k => hg (Nat.le_succ k)
    have h1 := ih hg
    have h2 : meanOf l (fun k => g (k + 1)) ≤ meanOf l' fun k => g (k + 1) := ih fun a b hab => hg (by omega)
    have h3 := mul_le_mul_of_nonneg_left h1 (sub_nonneg.2 hp.2.2)
    have h4 := mul_le_mul_of_nonneg_left h2 (hp.1.trans hp.2.1)
    have h5 := mul_le_mul_of_nonneg_right hp.2.1 (sub_nonneg.2 hs)
    simp only [meanOf]
    linarith

omit [LinearOrder K] [IsStrictOrderedRing K] in
theorem mean_of_ok {probs v : List K} (h : systematicDefaultProbs probs = .ok v) (g : ℕ → K) :
    v.length = probs.length + 1 ∧ ∑ k ∈ range v.length, g k * v.getD k 0 = meanOf probs g := by
  have hne : probs ≠ [] := by
    rintro rfl
    rw [C114_empty] at h
    cases h
  obtain ⟨w, h1, h2, h3⟩ := systematic_spec probs hne
  obtain rfl := Except.ok.inj (h.symm.trans h1)
  refine ⟨h3, ?_⟩
  rw [← meanOf_eq, ← h2, h3]
  exact sum_congr rfl fun k _ => by rw [coeff_toPoly]

/-- C250. If no firm has become safer, the mean of every loss that grows with the number of defaults has not
become smaller. -/
theorem C250_losses {probs probs' v v' : List K}
    (h : List.Forall₂ (fun p p' => 0 ≤ p ∧ p ≤ p' ∧ p' ≤ 1) probs probs')
    (hv : systematicDefaultProbs probs = .ok v) (hv' : systematicDefaultProbs probs' = .ok v') (g : ℕ → K)
    (hg : Monotone g) :
    ∑ k ∈ range v.length, g k * v.getD k 0 ≤ ∑ k ∈ range v'.length, g k * v'.getD k 0 := by
  rw [(mean_of_ok hv g).2, (mean_of_ok hv' g).2]
  exact meanOf_riskier h hg

omit [LinearOrder K] [IsStrictOrderedRing K] in
theorem drop_sum (v : List K) (k : ℕ) :
    (v.drop k).sum = ∑ j ∈ range v.length, (if k ≤ j then 1 else 0) * v.getD j 0 := by
  induction v generalizing k with
  | nil => simp
  | cons a v ih =>
    rw [List.length_cons, sum_range_succ']
    cases k with
    | zero =>
      rw [List.drop_zero, List.sum_cons, ← List.drop_zero (l := v), ih 0]
      simp [add_comm]
    | succ k =>
      rw [List.drop_succ_cons, ih k]
      simp

/-- C250. In particular, for every number, the probability of at least so many defaults has not become
smaller. -/
theorem C250_at_least {probs probs' v v' : List K}
    (h : List.Forall₂ (fun p p' => 0 ≤ p ∧ p ≤ p' ∧ p' ≤ 1) probs probs')
    (hv : systematicDefaultProbs probs = .ok v) (hv' : systematicDefaultProbs probs' = .ok v') (k : ℕ) :
    (v.drop k).sum ≤ (v'.drop k).sum := by
  rw [drop_sum, drop_sum]
  refine C250_losses h hv hv' (fun j => if k ≤ j then 1 else 0) fun a b hab => ?_
  dsimp only
  split_ifs
  · exact le_rfl
  · omega
  · exact zero_le_one
  · exact le_rfl

omit [LinearOrder K] [IsStrictOrderedRing K] in
/-- C250. The probability of no default and of all firms defaulting are the products one expects. -/
theorem C250_ends {probs v : List K} (hv : systematicDefaultProbs probs = .ok v) :
    v[0]? = some ((probs.map fun p => 1 - p).prod) ∧ v[probs.length]? = some probs.prod := by
  have hne : probs ≠ [] := by
    rintro rfl
    rw [C114_empty] at hv
    cases hv
  obtain ⟨w, h1, h2, h3⟩ := C114_law probs hne
  obtain rfl := Except.ok.inj (hv.symm.trans h1)
  constructor
  · rw [List.getElem?_eq_getElem (by omega), h3 0 (by omega), exactlyDefault, powersetCard_zero, sum_singleton]
    simp only [prod_empty, compl_empty, one_mul, Option.some.injEq]
    exact Fin.prod_univ_fun_getElem probs fun p => 1 - p
  · rw [List.getElem?_eq_getElem (by omega), h3 probs.length (by omega), exactlyDefault]
    have : powersetCard probs.length (univ : Finset (Fin probs.length)) = {univ} := by
      have h := powersetCard_self (univ : Finset (Fin probs.length))
      rwa [card_univ, Fintype.card_fin] at h
    rw [this, sum_singleton]
    simp only [compl_univ, prod_empty, mul_one, Option.some.injEq]
    simp

/-- Two firms, the second of which becomes riskier. -/
example : systematicDefaultProbs [(1 / 2 : ℚ), 1 / 4] = .ok [3 / 8, 1 / 2, 1 / 8] ∧
    systematicDefaultProbs [(1 / 2 : ℚ), 1 / 2] = .ok [1 / 4, 1 / 2, 1 / 4] ∧
    List.Forall₂ (fun p p' : ℚ => 0 ≤ p ∧ p ≤ p' ∧ p' ≤ 1) [1 / 2, 1 / 4] [1 / 2, 1 / 2] := by
  refine ⟨?_, ?_, by norm_num⟩ <;>
  · simp [systematicDefaultProbs, getDefaultCountProbs, mergeAll, pairUp, convolvePy, convolve, addAt, pyGet]
    norm_num [List.range_succ]

end FinML.Default
