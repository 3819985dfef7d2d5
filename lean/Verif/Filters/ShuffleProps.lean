import Verif.Filters.MmiProps
import Mathlib.Data.Fintype.Perm
import Mathlib.Data.Fin.Tuple.Sort
import Mathlib.Algebra.BigOperators.Intervals
import Mathlib.Data.List.FinRange
import Mathlib.Algebra.BigOperators.Fin
import Mathlib.Algebra.BigOperators.Field
import Mathlib.Data.Fin.VecNotation
import Mathlib.Tactic.LinearCombination
import Mathlib.Tactic.FieldSimp

/-! # Property C268: the market meanness index of shuffled prices -/

namespace FinML.Filters

variable {K : Type} [Field K] [LinearOrder K] [IsStrictOrderedRing K]

omit [LinearOrder K] [IsStrictOrderedRing K] in
theorem count_steps (p : K → K → Bool) (l : List K) :
    ((List.zipWith p l.tail l).count true) =
      ∑ i ∈ Finset.range (l.length - 1), if p (l.getD (i + 1) 0) (l.getD i 0) then 1 else 0 := by
  induction l with
  | nil => simp
  | cons x t ih =>
    cases t with
    | nil => simp
    | cons y s =>
      simp only [List.tail_cons, List.zipWith_cons_cons, List.count_cons, List.length_cons, Nat.add_sub_cancel] at ih ⊢
      rw [Finset.sum_range_succ', ih]
      have e : ∀ i, ((x :: y :: s).getD (i + 1 + 1) 0) = (y :: s).getD (i + 1) 0 := fun i => rfl
      have e' : ∀ i, ((x :: y :: s).getD (i + 1) 0) = (y :: s).getD i 0 := fun i => rfl
      simp only [e, e']
      congr 1
      have e0 : (y :: s).getD 0 0 = y := rfl
      have e1 : (x :: y :: s).getD 0 0 = x := rfl
      rw [e0, e1]
      cases p y x <;> simp

/-- The two kinds of steps the index counts, as a number. -/
noncomputable def stepCount (med : K) (new old : K) : ℕ :=
  (if med < new ∧ old < new then 1 else 0) + if new < med ∧ new < old then 1 else 0

theorem hilo_sum (med : K) (l : List K) : nHi med l + nLo med l =
    ∑ i ∈ Finset.range (l.length - 1), stepCount med (l.getD (i + 1) 0) (l.getD i 0) := by
  unfold nHi nLo stepCount
  rw [count_steps, count_steps, ← Finset.sum_add_distrib]
  refine Finset.sum_congr rfl fun i _ => ?_
  simp only [Bool.and_eq_true, decide_eq_true_eq, gt_iff_lt, sub_pos, sub_neg]

omit [LinearOrder K] [IsStrictOrderedRing K] in
theorem getD_ofFn {n : ℕ} (g : Fin n → K) {i : ℕ} (hi : i < n) : (List.ofFn g).getD i 0 = g ⟨i, hi⟩ := by
  rw [List.getD_eq_getElem _ _ (by simpa using hi), List.getElem_ofFn]

/-! ## Averages over all orders -/

theorem two_transitive {n : ℕ} (i j i' j' : Fin n) (h : i ≠ j) (h' : i' ≠ j') :
    ∃ τ : Equiv.Perm (Fin n), τ i = i' ∧ τ j = j' := by
  refine ⟨Equiv.swap (Equiv.swap i i' j) j' * Equiv.swap i i', ?_, ?_⟩
  · rw [Equiv.Perm.mul_apply, Equiv.swap_apply_left]
    refine Equiv.swap_apply_of_ne_of_ne ?_ h'
    intro he
    apply h
    have : Equiv.swap i i' i = Equiv.swap i i' j := by rw [Equiv.swap_apply_left]; exact he
    exact (Equiv.swap i i').injective this
  · rw [Equiv.Perm.mul_apply, Equiv.swap_apply_left]

/-- Every ordered pair of places sees every ordered pair of values equally often. -/
theorem pair_sum {n : ℕ} (F : Fin n → Fin n → ℕ) (i j : Fin n) (h : i ≠ j) :
    n * (n - 1) * ∑ σ : Equiv.Perm (Fin n), F (σ i) (σ j) =
      n.factorial * ∑ q ∈ (Finset.univ : Finset (Fin n)).offDiag, F q.1 q.2 := by
  have e1 : ∀ q ∈ (Finset.univ : Finset (Fin n)).offDiag,
      ∑ σ : Equiv.Perm (Fin n), F (σ q.1) (σ q.2) = ∑ σ : Equiv.Perm (Fin n), F (σ i) (σ j) := by
    intro q hq
    obtain ⟨τ, h1, h2⟩ := two_transitive i j q.1 q.2 h (Finset.mem_offDiag.1 hq).2.2
    refine (Fintype.sum_equiv (Equiv.mulRight τ) _ _ fun σ => ?_)
    simp only [Equiv.coe_mulRight, Equiv.Perm.mul_apply]
    rw [h1, h2]
  have e2 : ∀ σ : Equiv.Perm (Fin n), ∑ q ∈ (Finset.univ : Finset (Fin n)).offDiag, F (σ q.1) (σ q.2) =
      ∑ q ∈ (Finset.univ : Finset (Fin n)).offDiag, F q.1 q.2 := by
    intro σ
    refine Finset.sum_bij (fun q _ => (σ q.1, σ q.2)) ?_ ?_ ?_ ?_
    · intro q hq
      simp only [Finset.mem_offDiag, Finset.mem_univ, true_and] at hq ⊢
      exact fun he => hq (σ.injective he)
    · intro q _ r _ he
      simp only [Prod.mk.injEq] at he
      exact Prod.ext (σ.injective he.1) (σ.injective he.2)
    · intro q hq
      refine ⟨(σ.symm q.1, σ.symm q.2), ?_, by simp⟩
      simp only [Finset.mem_offDiag, Finset.mem_univ, true_and] at hq ⊢
      exact fun he => hq (σ.symm.injective he)
    · intro q _; rfl
  have e3 : ∑ q ∈ (Finset.univ : Finset (Fin n)).offDiag, ∑ σ : Equiv.Perm (Fin n), F (σ q.1) (σ q.2) =
      n * (n - 1) * ∑ σ : Equiv.Perm (Fin n), F (σ i) (σ j) := by
    rw [Finset.sum_congr rfl e1, Finset.sum_const, Finset.offDiag_card, smul_eq_mul, Finset.card_univ, Fintype.card_fin,
      Nat.mul_sub_one]
  rw [← e3, Finset.sum_comm, Finset.sum_congr rfl fun σ _ => e2 σ, Finset.sum_const, smul_eq_mul, Finset.card_univ,
    Fintype.card_perm, Fintype.card_fin]

/-! ## The count over all pairs -/

/-- Twice the sum of the upper half of the ranks `0, …, n-1`. -/
def upperTwice (n : ℕ) : ℕ := if n % 2 = 0 then (n / 2) * (3 * (n / 2) - 1) else (n / 2) * (3 * (n / 2) + 1)

theorem upper_sum (n : ℕ) : 2 * (∑ a ∈ Finset.range n, if n ≤ 2 * a then a else 0) = upperTwice n := by
  have e : (∑ a ∈ Finset.range n, if n ≤ 2 * a then a else 0) = ∑ a ∈ Finset.Ico ((n + 1) / 2) n, a := by
    rw [← Finset.sum_filter]
    refine Finset.sum_congr ?_ fun _ _ => rfl
    ext a
    simp only [Finset.mem_filter, Finset.mem_range, Finset.mem_Ico]
    omega
  have h1 := Finset.sum_range_id_mul_two n
  have h2 := Finset.sum_range_id_mul_two ((n + 1) / 2)
  have h3 := Finset.sum_range_add_sum_Ico (fun a : ℕ => a) (show (n + 1) / 2 ≤ n by omega)
  rw [e]
  unfold upperTwice
  rcases Nat.even_or_odd' n with ⟨m, rfl | rfl⟩
  · rw [if_pos (by omega)]
    rw [show (2 * m + 1) / 2 = m by omega] at *
    rw [show 2 * m / 2 = m by omega]
    cases m with
    | zero => simp
    | succ k =>
      rw [show 3 * (k + 1) - 1 = 3 * k + 2 by omega]
      rw [show 2 * (k + 1) - 1 = 2 * k + 1 by omega] at h1
      rw [show k + 1 - 1 = k by omega] at h2
      nlinarith
  · rw [if_neg (by omega)]
    rw [show (2 * m + 1 + 1) / 2 = m + 1 by omega] at *
    rw [show (2 * m + 1) / 2 = m by omega]
    rw [show 2 * m + 1 - 1 = 2 * m by omega] at h1
    rw [show m + 1 - 1 = m by omega] at h2
    nlinarith

theorem lower_sum (n : ℕ) : (∑ a ∈ Finset.range n, if 2 * a + 2 ≤ n then n - 1 - a else 0) =
    ∑ a ∈ Finset.range n, if n ≤ 2 * a then a else 0 := by
  rw [← Finset.sum_range_reflect (fun a => if n ≤ 2 * a then a else 0) n]
  refine Finset.sum_congr rfl fun a ha => ?_
  have ha := Finset.mem_range.1 ha
  by_cases h : 2 * a + 2 ≤ n
  · rw [if_pos h, if_pos (by omega)]
  · rw [if_neg h, if_neg (by omega)]

theorem pairs_total {n : ℕ} (hn : 2 ≤ n) (x : Fin n → K) (hx : StrictMono x) :
    ∑ q ∈ (Finset.univ : Finset (Fin n)).offDiag, stepCount (npMedian (List.ofFn x)) (x q.1) (x q.2) = upperTwice n := by
  have hmed : npMedian (List.ofFn x) = (x ⟨(n - 1) / 2, by omega⟩ + x ⟨n / 2, by omega⟩) / 2 := by
    rw [npMedian_sorted _ (List.pairwise_ofFn.2 fun i j hij => (hx hij).le) (by intro h; have := congrArg List.length h; simp at this; omega),
      List.length_ofFn, getD_ofFn x (by omega), getD_ofFn x (by omega)]
  have hle : x ⟨(n - 1) / 2, by omega⟩ ≤ x ⟨n / 2, by omega⟩ := hx.monotone (by rw [Fin.mk_le_mk]; omega)
  have hup : ∀ a : Fin n, npMedian (List.ofFn x) < x a ↔ n ≤ 2 * (a : ℕ) := by
    intro a
    rw [hmed]
    constructor
    · intro h
      by_contra hc
      have h1 : x a ≤ x ⟨(n - 1) / 2, by omega⟩ := hx.monotone (by rw [Fin.le_def]; simp only; omega)
      linarith
    · intro h
      rcases Nat.even_or_odd' n with ⟨m, hm | hm⟩
      · have h1 : x ⟨n / 2, by omega⟩ ≤ x a := hx.monotone (by rw [Fin.le_def]; simp only; omega)
        have h2 : x ⟨(n - 1) / 2, by omega⟩ < x ⟨n / 2, by omega⟩ := hx (by rw [Fin.mk_lt_mk]; omega)
        linarith
      · have h1 : x ⟨n / 2, by omega⟩ < x a := hx (by rw [Fin.lt_def]; simp only; omega)
        linarith
  have hdn : ∀ a : Fin n, x a < npMedian (List.ofFn x) ↔ 2 * (a : ℕ) + 2 ≤ n := by
    intro a
    rw [hmed]
    constructor
    · intro h
      by_contra hc
      have h1 : x ⟨n / 2, by omega⟩ ≤ x a := hx.monotone (by rw [Fin.le_def]; simp only; omega)
      linarith
    · intro h
      rcases Nat.even_or_odd' n with ⟨m, hm | hm⟩
      · have h1 : x a ≤ x ⟨(n - 1) / 2, by omega⟩ := hx.monotone (by rw [Fin.le_def]; simp only; omega)
        have h2 : x ⟨(n - 1) / 2, by omega⟩ < x ⟨n / 2, by omega⟩ := hx (by rw [Fin.mk_lt_mk]; omega)
        linarith
      · have h1 : x a < x ⟨(n - 1) / 2, by omega⟩ := hx (by rw [Fin.lt_def]; simp only; omega)
        linarith
  have e1 : ∑ q ∈ (Finset.univ : Finset (Fin n)).offDiag, stepCount (npMedian (List.ofFn x)) (x q.1) (x q.2) =
      ∑ a : Fin n, ∑ b : Fin n, stepCount (npMedian (List.ofFn x)) (x a) (x b) := by
    rw [← Finset.sum_product', Finset.univ_product_univ]
    refine Finset.sum_subset (Finset.subset_univ _) ?_
    intro q _ hq
    have : q.1 = q.2 := by
      by_contra hc
      exact hq (Finset.mem_offDiag.2 ⟨Finset.mem_univ _, Finset.mem_univ _, hc⟩)
    unfold stepCount
    rw [this]
    simp
  have e2 : ∀ a : Fin n, ∑ b : Fin n, stepCount (npMedian (List.ofFn x)) (x a) (x b) =
      (if n ≤ 2 * (a : ℕ) then (a : ℕ) else 0) + if 2 * (a : ℕ) + 2 ≤ n then n - 1 - (a : ℕ) else 0 := by
    intro a
    unfold stepCount
    simp only [hup, hdn, hx.lt_iff_lt]
    rw [Finset.sum_add_distrib]
    congr 1
    · by_cases h : n ≤ 2 * (a : ℕ)
      · simp only [h, true_and, if_true]
        rw [Finset.sum_boole]
        have : (Finset.univ.filter fun b : Fin n => b < a) = Finset.Iio a := by ext; simp
        rw [this, Fin.card_Iio]; rfl
      · simp [h]
    · by_cases h : 2 * (a : ℕ) + 2 ≤ n
      · simp only [h, true_and, if_true]
        rw [Finset.sum_boole]
        have : (Finset.univ.filter fun b : Fin n => a < b) = Finset.Ioi a := by ext; simp
        rw [this, Fin.card_Ioi]; rfl
      · simp [h]
  rw [e1, Finset.sum_congr rfl fun a _ => e2 a, Finset.sum_add_distrib,
    Fin.sum_univ_eq_sum_range (fun a => if n ≤ 2 * a then a else 0) n,
    Fin.sum_univ_eq_sum_range (fun a => if 2 * a + 2 ≤ n then n - 1 - a else 0) n, lower_sum, ← upper_sum, two_mul]

/-- The sum of the counts over all orders of strictly increasing values. -/
theorem orders_sum {n : ℕ} (hn : 2 ≤ n) (x : Fin n → K) (hx : StrictMono x) :
    n * ∑ σ : Equiv.Perm (Fin n), (nHi (npMedian (List.ofFn fun i => x (σ i))) (List.ofFn fun i => x (σ i)) +
      nLo (npMedian (List.ofFn fun i => x (σ i))) (List.ofFn fun i => x (σ i))) = n.factorial * upperTwice n := by
  have hm : ∀ σ : Equiv.Perm (Fin n), npMedian (List.ofFn fun i => x (σ i)) = npMedian (List.ofFn x) := fun σ =>
    npMedian_perm _ _ (Equiv.Perm.ofFn_comp_perm σ x)
  have e1 : ∀ σ : Equiv.Perm (Fin n), (nHi (npMedian (List.ofFn fun i => x (σ i))) (List.ofFn fun i => x (σ i)) +
      nLo (npMedian (List.ofFn fun i => x (σ i))) (List.ofFn fun i => x (σ i))) =
      ∑ i : Fin (n - 1), stepCount (npMedian (List.ofFn x)) (x (σ ⟨i + 1, by omega⟩)) (x (σ ⟨i, by omega⟩)) := by
    intro σ
    rw [hm, hilo_sum, List.length_ofFn, Finset.sum_range]
    refine Finset.sum_congr rfl fun i _ => ?_
    rw [getD_ofFn _ (show (i : ℕ) + 1 < n by omega), getD_ofFn _ (show (i : ℕ) < n by omega)]
  rw [Finset.sum_congr rfl fun σ _ => e1 σ, Finset.sum_comm]
  have e2 : ∀ i : Fin (n - 1), n * (n - 1) * ∑ σ : Equiv.Perm (Fin n),
      stepCount (npMedian (List.ofFn x)) (x (σ ⟨i + 1, by omega⟩)) (x (σ ⟨i, by omega⟩)) = n.factorial * upperTwice n := by
    intro i
    rw [pair_sum (fun a b => stepCount (npMedian (List.ofFn x)) (x a) (x b)) ⟨i + 1, by omega⟩ ⟨i, by omega⟩
      (by simp), pairs_total hn x hx]
  have hpos : 0 < n - 1 := by omega
  apply Nat.eq_of_mul_eq_mul_left hpos
  calc (n - 1) * (n * _) = ∑ i : Fin (n - 1), n * (n - 1) * ∑ σ : Equiv.Perm (Fin n),
      stepCount (npMedian (List.ofFn x)) (x (σ ⟨i + 1, by omega⟩)) (x (σ ⟨i, by omega⟩)) := by
        rw [← Finset.mul_sum]; ring
    _ = (n - 1) * (n.factorial * upperTwice n) := by
        rw [Finset.sum_congr rfl fun i _ => e2 i, Finset.sum_const, Finset.card_univ, Fintype.card_fin, smul_eq_mul]

/-- The average of a statistic over all orders of the prices `x`. -/
noncomputable def avgOrders {n : ℕ} (f : List K → K) (x : Fin n → K) : K :=
  (∑ σ : Equiv.Perm (Fin n), f (List.ofFn fun i => x (σ i))) / (n.factorial : K)

/-- C268.  Prices that come in a random order, each order as likely as any other, have a market meanness index of
three quarters, but for a quarter of `1/(n-1)` or `1/n`: whatever the `n` different prices are, the average over all
their orders is exactly that. -/
theorem C268_shuffled {n : ℕ} (hn : 2 ≤ n) (x : Fin n → K) (hx : Function.Injective x) :
    ∃ v : List K → K, (∀ σ : Equiv.Perm (Fin n), mmi (List.ofFn fun i => x (σ i)) = .ok (v (List.ofFn fun i => x (σ i)))) ∧
      (n % 2 = 0 → avgOrders v x = 3 / 4 + 1 / (4 * ((n : K) - 1))) ∧
      (n % 2 = 1 → avgOrders v x = 3 / 4 - 1 / (4 * (n : K))) := by
  refine ⟨fun l => ((nHi (npMedian l) l + nLo (npMedian l) l : ℕ) : K) / ((n - 1 : ℕ) : K), fun σ => ?_, ?_⟩
  · unfold mmi
    rw [List.length_ofFn, if_neg (by omega), if_neg (by omega)]
  have hτ : StrictMono (x ∘ Tuple.sort x) :=
    (Tuple.monotone_sort x).strictMono_of_injective (hx.comp (Tuple.sort x).injective)
  have key := orders_sum hn (x ∘ Tuple.sort x) hτ
  have e : ∑ σ : Equiv.Perm (Fin n), (nHi (npMedian (List.ofFn fun i => (x ∘ Tuple.sort x) (σ i))) (List.ofFn fun i => (x ∘ Tuple.sort x) (σ i)) +
      nLo (npMedian (List.ofFn fun i => (x ∘ Tuple.sort x) (σ i))) (List.ofFn fun i => (x ∘ Tuple.sort x) (σ i))) =
      ∑ σ : Equiv.Perm (Fin n), (nHi (npMedian (List.ofFn fun i => x (σ i))) (List.ofFn fun i => x (σ i)) +
      nLo (npMedian (List.ofFn fun i => x (σ i))) (List.ofFn fun i => x (σ i))) :=
    Fintype.sum_equiv (Equiv.mulLeft (Tuple.sort x)) _ _ fun σ => rfl
  rw [e] at key
  have keyK : (n : K) * ((∑ σ : Equiv.Perm (Fin n), (nHi (npMedian (List.ofFn fun i => x (σ i))) (List.ofFn fun i => x (σ i)) +
      nLo (npMedian (List.ofFn fun i => x (σ i))) (List.ofFn fun i => x (σ i))) : ℕ) : K) =
      (n.factorial : K) * (upperTwice n : K) := by exact_mod_cast key
  have hn0 : (n : K) ≠ 0 := by positivity
  have hn1 : (n : K) - 1 ≠ 0 := by
    have : (2 : K) ≤ n := by exact_mod_cast hn
    intro h; linarith
  have hf : (n.factorial : K) ≠ 0 := by exact_mod_cast n.factorial_ne_zero
  have hsub : ((n - 1 : ℕ) : K) = (n : K) - 1 := by
    rw [Nat.cast_sub (by omega), Nat.cast_one]
  have havg : avgOrders (fun l => ((nHi (npMedian l) l + nLo (npMedian l) l : ℕ) : K) / ((n - 1 : ℕ) : K)) x =
      (upperTwice n : K) / ((n : K) * ((n : K) - 1)) := by
    unfold avgOrders
    rw [← Finset.sum_div, ← Nat.cast_sum, hsub, div_div, div_eq_div_iff (mul_ne_zero hn1 hf) (mul_ne_zero hn0 hn1)]
    linear_combination ((n : K) - 1) * keyK
  rw [havg]
  constructor
  · intro h
    obtain ⟨m, rfl⟩ : ∃ m, n = 2 * (m + 1) := ⟨n / 2 - 1, by omega⟩
    rw [upperTwice, if_pos h, show 2 * (m + 1) / 2 = m + 1 by omega, show 3 * (m + 1) - 1 = 3 * m + 2 by omega]
    push_cast
    have h1 : (2 : K) * m + 1 ≠ 0 := by positivity
    have h2 : (m : K) + 1 ≠ 0 := by positivity
    rw [show (2 : K) * (m + 1) - 1 = 2 * m + 1 by ring]
    field_simp
    ring
  · intro h
    obtain ⟨m, rfl⟩ : ∃ m, n = 2 * m + 1 := ⟨n / 2, by omega⟩
    rw [upperTwice, if_neg (by omega), show (2 * m + 1) / 2 = m by omega]
    push_cast
    have h0 : m ≠ 0 := by omega
    have h1 : (m : K) ≠ 0 := by exact_mod_cast h0
    have h2 : (2 : K) * m + 1 ≠ 0 := by positivity
    rw [show (2 : K) * m + 1 - 1 = 2 * m by ring]
    field_simp
    ring

/-- Four different prices. -/
example : Function.Injective (![3, 1, 4, 15 / 10] : Fin 4 → ℚ) := by decide +kernel

end FinML.Filters
