import Verif.Default.Model
import Verif.Py.Lemmas
import Mathlib.Algebra.Polynomial.Coeff
import Mathlib.Algebra.Polynomial.Eval.Degree
import Mathlib.Algebra.Polynomial.Derivative
import Mathlib.Algebra.BigOperators.Ring.Finset
import Mathlib.Data.List.GetD

/-!
# Vectors of counts as polynomials
-/

namespace FinML.Default

open Polynomial Finset

variable {K : Type} [Field K]

/-- The polynomial with the given coefficients. -/
noncomputable def toPoly (l : List K) : K[X] := ∑ i ∈ range l.length, monomial i (l.getD i 0)

theorem coeff_toPoly (l : List K) (n : ℕ) : (toPoly l).coeff n = l.getD n 0 := by
  unfold toPoly
  rw [finsetSum_coeff]
  simp only [coeff_monomial]
  rw [Finset.sum_ite_eq']
  split_ifs with h
  · rfl
  · rw [List.getD_eq_default _ _ (by simpa using h)]

theorem toPoly_inj {l l' : List K} (hl : l.length = l'.length) (h : toPoly l = toPoly l') : l = l' := by
  apply List.ext_getElem hl
  intro i h1 h2
  have := congrArg (fun p => p.coeff i) h
  simpa only [coeff_toPoly, List.getD_eq_getElem _ _ h1, List.getD_eq_getElem _ _ h2] using this

theorem addAt_length (vec : List K) (i : ℕ) (x : K) : (addAt vec i x).length = vec.length := by
  simp [addAt]

theorem toPoly_addAt {vec : List K} {i : ℕ} (x : K) (h : i < vec.length) :
    toPoly (addAt vec i x) = toPoly vec + monomial i x := by
  ext n
  rw [coeff_add, coeff_toPoly, coeff_toPoly, coeff_monomial, List.getD_eq_getElem?_getD,
    List.getD_eq_getElem?_getD, addAt, List.getElem?_modify]
  by_cases hn : i = n
  · subst hn
    simp [h]
  · simp [hn]

theorem toPoly_foldl {α : Type} (g : List K → α → List K) (q : α → K[X]) (m : ℕ) (l : List α)
    (h : ∀ x ∈ l, ∀ v : List K, v.length = m → (g v x).length = m ∧ toPoly (g v x) = toPoly v + q x)
    (v : List K) (hv : v.length = m) :
    (l.foldl g v).length = m ∧ toPoly (l.foldl g v) = toPoly v + (l.map q).sum := by
  induction l generalizing v with
  | nil => simp [hv]
  | cons x l ih =>
    obtain ⟨h1, h2⟩ := h x List.mem_cons_self v hv
    obtain ⟨h3, h4⟩ := ih (fun y hy => h y (List.mem_cons_of_mem _ hy)) (g v x) h1
    refine ⟨h3, ?_⟩
    rw [List.foldl_cons, h4, h2, List.map_cons, List.sum_cons, add_assoc]

theorem toPoly_replicate (n : ℕ) : toPoly (List.replicate n (0 : K)) = 0 := by
  ext k
  rw [coeff_toPoly, coeff_zero, List.getD_eq_getElem?_getD, List.getElem?_replicate]
  split_ifs <;> rfl

theorem list_range_sum (f : ℕ → K[X]) (n : ℕ) : ((List.range n).map f).sum = ∑ i ∈ range n, f i := by
  induction n with
  | zero => simp
  | succ n ih => rw [List.range_succ, List.map_append, List.sum_append, ih, Finset.sum_range_succ]; simp

theorem convolve_spec (a b : List K) :
    (convolve a b).length = a.length + b.length - 1 ∧ toPoly (convolve a b) = toPoly a * toPoly b := by
  have h := toPoly_foldl
    (fun vec j => (List.range b.length).foldl
      (fun vec k => addAt vec (j + k) (a.getD j 0 * b.getD k 0)) vec)
    (fun j => ((List.range b.length).map fun k => (monomial (j + k) (a.getD j 0 * b.getD k 0) : K[X])).sum)
    (a.length + b.length - 1) (List.range a.length)
    (by
      intro j hj v hv
      refine toPoly_foldl (fun vec k => addAt vec (j + k) (a.getD j 0 * b.getD k 0))
        (fun k => (monomial (j + k) (a.getD j 0 * b.getD k 0) : K[X])) _ (List.range b.length) ?_ v hv
      intro k hk w hw
      rw [List.mem_range] at hj hk
      exact ⟨by rw [addAt_length, hw], toPoly_addAt _ (by omega)⟩)
    (List.replicate (a.length + b.length - 1) 0) List.length_replicate
  refine ⟨h.1, ?_⟩
  have h2 := h.2
  rw [toPoly_replicate, zero_add] at h2
  unfold convolve
  rw [h2]
  simp only [list_range_sum]
  unfold toPoly
  rw [Finset.sum_mul_sum]
  simp only [monomial_mul_monomial]

/-- What merging vectors keeps. -/
def degreeSum (l : List (List K)) : ℕ := (l.map fun v => v.length - 1).sum

/-- The product of the polynomials. -/
noncomputable def polyProd (l : List (List K)) : K[X] := (l.map toPoly).prod

theorem pairUp_spec : ∀ (l : List (List K)), (∀ v ∈ l, v ≠ []) →
    ∃ l', pairUp l = .ok l' ∧ (∀ v ∈ l', v ≠ []) ∧ polyProd l' = polyProd l ∧ degreeSum l' = degreeSum l
  | [], h => ⟨[], rfl, h, rfl, rfl⟩
  | [a], h => ⟨[a], rfl, h, rfl, rfl⟩
  | a :: b :: rest, h => by
    have ha : a ≠ [] := h a (by simp)
    have hb : b ≠ [] := h b (by simp)
    have ha' := List.length_pos_iff.2 ha
    have hb' := List.length_pos_iff.2 hb
    obtain ⟨l', h1, h2, h3, h4⟩ := pairUp_spec rest (fun v hv => h v (by simp [hv]))
    obtain ⟨c1, c2⟩ := convolve_spec a b
    refine ⟨convolve a b :: l', ?_, ?_, ?_, ?_⟩
    · unfold pairUp
      rw [convolvePy, if_neg (by omega), h1]
      rfl
    · intro v hv
      rcases List.mem_cons.1 hv with rfl | hv
      · intro hnil
        rw [hnil] at c1
        simp at c1
        omega
      · exact h2 v hv
    · simp only [polyProd, List.map_cons, List.prod_cons] at h3 ⊢
      rw [h3, c2, mul_assoc]
    · simp only [degreeSum, List.map_cons, List.sum_cons] at h4 ⊢
      rw [h4, c1]
      omega

theorem mergeAll_spec (l : List (List K)) (h : ∀ v ∈ l, v ≠ []) (hne : l ≠ []) :
    ∃ v, mergeAll l = .ok [v] ∧ toPoly v = polyProd l ∧ v.length = degreeSum l + 1 := by
  obtain ⟨n, hn⟩ : ∃ n, l.length = n := ⟨_, rfl⟩
  induction n using Nat.strong_induction_on generalizing l with
  | _ n ih =>
    rw [mergeAll]
    by_cases hl : 1 < l.length
    · rw [if_pos hl]
      obtain ⟨l', h1, h2, h3, h4⟩ := pairUp_spec l h
      have hlen := pairUp_length h1
      have hne' : l' ≠ [] := by
        rintro rfl
        simp at hlen
        omega
      obtain ⟨v, hv1, hv2, hv3⟩ := ih l'.length (by omega) l' h2 hne' rfl
      refine ⟨v, ?_, by rw [hv2, h3], by rw [hv3, h4]⟩
      split
      · next l'' heq => rw [h1] at heq; cases heq; exact hv1
      · next e heq => rw [h1] at heq; cases heq
    · rw [if_neg hl]
      match l, hne, hl with
      | [v], _, _ =>
        refine ⟨v, rfl, by simp [polyProd], ?_⟩
        have := List.length_pos_iff.2 (h v (by simp))
        simp [degreeSum]
        omega
      | a :: b :: rest, _, hl => simp at hl

theorem getDefaultCountProbs_spec (l : List (List K)) (h : ∀ v ∈ l, v ≠ []) (hne : l ≠ []) :
    ∃ v, getDefaultCountProbs l = .ok v ∧ toPoly v = polyProd l ∧ v.length = degreeSum l + 1 := by
  obtain ⟨v, h1, h2, h3⟩ := mergeAll_spec l h hne
  refine ⟨v, ?_, h2, h3⟩
  unfold getDefaultCountProbs
  rw [h1]
  rfl

/-! ## Evaluation at one -/

theorem eval_toPoly (l : List K) : (toPoly l).eval 1 = l.sum := by
  unfold toPoly
  rw [eval_finsetSum]
  simp only [eval_monomial, one_pow, mul_one]
  induction l with
  | nil => simp
  | cons a l ih => rw [List.length_cons, Finset.sum_range_succ', List.sum_cons, ← ih]; simp [add_comm]

theorem eval_derivative_toPoly (l : List K) :
    (derivative (toPoly l)).eval 1 = ∑ k ∈ range l.length, (k : K) * l.getD k 0 := by
  unfold toPoly
  rw [derivative_sum, eval_finsetSum]
  refine Finset.sum_congr rfl fun k _ => ?_
  rw [derivative_monomial, eval_monomial, one_pow, mul_one, mul_comm]

end FinML.Default
