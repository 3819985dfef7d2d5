import Verif.Micro.Model
import Mathlib.Algebra.BigOperators.Intervals
import Mathlib.Algebra.BigOperators.Field
import Mathlib.Algebra.Order.BigOperators.Group.Finset
import Mathlib.Data.Finset.Powerset
import Mathlib.Tactic.FieldSimp
import Mathlib.Tactic.Linarith

/-! # What the Roll estimator estimates (C260)

Trades at the mid price plus or minus half the spread, averaged over all ways of assigning the sides. -/

namespace FinML.Micro

/-- The side of trade `i` if the trades in `s` are buys. -/
def sideIn (s : Finset ℕ) (i : ℕ) : ℝ := if i ∈ s then 1 else -1

/-- The prices of `T` trades at mid prices `m` with half spread `c`, those in `s` being buys. -/
noncomputable def quoted (m : ℕ → ℝ) (c : ℝ) (T : ℕ) (s : Finset ℕ) : List ℝ :=
  (List.range T).map fun i => m i + c * sideIn s i

/-- The average over all assignments of sides to `T` trades. -/
noncomputable def avgSides (T : ℕ) (f : Finset ℕ → ℝ) : ℝ := (∑ s ∈ (Finset.range T).powerset, f s) / 2 ^ T

/-! ## Averages over the sides -/

theorem avg_const (T : ℕ) (a : ℝ) : avgSides T (fun _ => a) = a := by
  unfold avgSides
  rw [Finset.sum_const, Finset.card_powerset, Finset.card_range, nsmul_eq_mul]
  push_cast
  field_simp

theorem avg_add (T : ℕ) (f g : Finset ℕ → ℝ) : avgSides T (fun s => f s + g s) = avgSides T f + avgSides T g := by
  unfold avgSides; rw [Finset.sum_add_distrib, add_div]

theorem avg_mul (T : ℕ) (a : ℝ) (f : Finset ℕ → ℝ) : avgSides T (fun s => a * f s) = a * avgSides T f := by
  unfold avgSides; rw [← Finset.mul_sum, mul_div_assoc]

theorem avg_sum (T n : ℕ) (f : ℕ → Finset ℕ → ℝ) :
    avgSides T (fun s => ∑ i ∈ Finset.range n, f i s) = ∑ i ∈ Finset.range n, avgSides T (f i) := by
  unfold avgSides; rw [Finset.sum_comm, Finset.sum_div]

theorem avg_le (T : ℕ) (f g : Finset ℕ → ℝ) (h : ∀ s, f s ≤ g s) : avgSides T f ≤ avgSides T g :=
  div_le_div_of_nonneg_right (Finset.sum_le_sum fun s _ => h s) (by positivity)

/-- The same trades with the side of trade `i` changed. -/
def flip (i : ℕ) (s : Finset ℕ) : Finset ℕ := if i ∈ s then s.erase i else insert i s

theorem flip_flip (i : ℕ) (s : Finset ℕ) : flip i (flip i s) = s := by
  unfold flip
  by_cases h : i ∈ s <;> simp [h]

theorem flip_mem {i T : ℕ} (hi : i < T) {s : Finset ℕ} (hs : s ∈ (Finset.range T).powerset) :
    flip i s ∈ (Finset.range T).powerset := by
  rw [Finset.mem_powerset] at hs ⊢
  unfold flip
  split
  · exact (Finset.erase_subset _ _).trans hs
  · exact Finset.insert_subset (Finset.mem_range.2 hi) hs

theorem side_flip (i : ℕ) (s : Finset ℕ) : sideIn (flip i s) i = -sideIn s i := by
  unfold flip sideIn
  by_cases h : i ∈ s <;> simp [h]

theorem side_flip_ne {i j : ℕ} (h : j ≠ i) (s : Finset ℕ) : sideIn (flip i s) j = sideIn s j := by
  unfold flip sideIn
  by_cases hi : i ∈ s <;> simp [hi, h]

/-- A quantity that changes sign with one side averages to 0. -/
theorem avg_odd {T i : ℕ} (hi : i < T) (f : Finset ℕ → ℝ) (h : ∀ s, f (flip i s) = -f s) : avgSides T f = 0 := by
  unfold avgSides
  rw [Finset.sum_involution (fun s _ => flip i s), zero_div]
  · intro s _; rw [h]; ring
  · intro s _ hne he
    have := h s
    rw [he] at this
    exact hne (by linarith)
  · intro s hs; exact flip_mem hi hs
  · intro s _; exact flip_flip i s

theorem avg_price {T i : ℕ} (hi : i < T) (m : ℕ → ℝ) (c : ℝ) : avgSides T (fun s => m i + c * sideIn s i) = m i := by
  rw [avg_add, avg_const, avg_mul, avg_odd hi (fun s => sideIn s i) fun s => side_flip i s]
  ring

theorem avg_prod {T i j : ℕ} (hi : i < T) (hj : j < T) (m : ℕ → ℝ) (c : ℝ) :
    avgSides T (fun s => (m i + c * sideIn s i) * (m j + c * sideIn s j)) =
      m i * m j + if i = j then c ^ 2 else 0 := by
  have e : (fun s => (m i + c * sideIn s i) * (m j + c * sideIn s j)) =
      fun s => (m i * m j + (m i * c) * sideIn s j) + ((m j * c) * sideIn s i + c ^ 2 * (sideIn s i * sideIn s j)) := by
    funext s; ring
  rw [e, avg_add, avg_add, avg_add, avg_const, avg_mul, avg_mul, avg_mul,
    avg_odd hj (fun s => sideIn s j) (fun s => side_flip j s), avg_odd hi (fun s => sideIn s i) fun s => side_flip i s]
  by_cases h : i = j
  · subst h
    have : (fun s => sideIn s i * sideIn s i) = fun _ => (1 : ℝ) := by
      funext s; unfold sideIn; split <;> norm_num
    rw [this, avg_const, if_pos rfl]
    ring
  · rw [if_neg h, avg_odd hi (fun s => sideIn s i * sideIn s j) fun s => by
      rw [side_flip, side_flip_ne (Ne.symm h)]; ring]
    ring

theorem avg_moves {T i j k l : ℕ} (hi : i < T) (hj : j < T) (hk : k < T) (hl : l < T) (m : ℕ → ℝ) (c : ℝ) :
    avgSides T (fun s => ((m i + c * sideIn s i) - (m j + c * sideIn s j)) *
        ((m k + c * sideIn s k) - (m l + c * sideIn s l))) =
      (m i - m j) * (m k - m l) + c ^ 2 * ((if i = k then 1 else 0) - (if i = l then 1 else 0)
        - (if j = k then 1 else 0) + (if j = l then 1 else 0)) := by
  have e : (fun s => ((m i + c * sideIn s i) - (m j + c * sideIn s j)) *
        ((m k + c * sideIn s k) - (m l + c * sideIn s l))) =
      fun s => ((m i + c * sideIn s i) * (m k + c * sideIn s k) + (-1) * ((m i + c * sideIn s i) * (m l + c * sideIn s l)))
        + ((-1) * ((m j + c * sideIn s j) * (m k + c * sideIn s k)) + (m j + c * sideIn s j) * (m l + c * sideIn s l)) := by
    funext s; ring
  rw [e, avg_add, avg_add, avg_add, avg_mul, avg_mul, avg_prod hi hk, avg_prod hi hl, avg_prod hj hk, avg_prod hj hl]
  split_ifs <;> ring

/-! ## The estimates of a list of prices -/

theorem diff1_range (T : ℕ) (P : ℕ → ℝ) :
    diff1 ((List.range (T + 1)).map P) = (List.range T).map fun i => P (i + 1) - P i := by
  unfold diff1
  apply List.ext_getElem
  · simp
  · intro i h1 h2
    simp

theorem range_sum (n : ℕ) (f : ℕ → ℝ) : ((List.range n).map f).sum = ∑ i ∈ Finset.range n, f i := rfl

/-- The variance of the changes of `T + 1` prices. -/
theorem npVar_range (T : ℕ) (hT : 0 < T) (P : ℕ → ℝ) :
    npVar ((List.range T).map fun i => P (i + 1) - P i) =
      some ((∑ i ∈ Finset.range T, (P (i + 1) - P i) ^ 2 - (P T - P 0) ^ 2 / T) / T) := by
  unfold npVar
  rw [if_neg (by simp; omega)]
  congr 1
  have hT' : (T : ℝ) ≠ 0 := by positivity
  have hm : mean ((List.range T).map fun i => P (i + 1) - P i) = (P T - P 0) / T := by
    unfold mean
    rw [range_sum, Finset.sum_range_sub, List.length_map, List.length_range]
  rw [hm, List.map_map, List.length_map, List.length_range, range_sum]
  congr 1
  have e : ∀ i ∈ Finset.range T, ((fun x => (x - (P T - P 0) / T) ^ 2) ∘ fun i => P (i + 1) - P i) i =
      (P (i + 1) - P i) ^ 2 - 2 * ((P T - P 0) / T) * (P (i + 1) - P i) + ((P T - P 0) / T) ^ 2 := by
    intro i _; simp only [Function.comp]; ring
  rw [Finset.sum_congr rfl e, Finset.sum_add_distrib, Finset.sum_sub_distrib, ← Finset.mul_sum,
    Finset.sum_range_sub, Finset.sum_const, Finset.card_range, nsmul_eq_mul]
  field_simp
  ring

/-- The covariance of successive changes of `n + 2` prices. -/
theorem npCov_range (n : ℕ) (hn : 2 ≤ n) (P : ℕ → ℝ) :
    npCov ((List.range (n + 1)).map fun i => P (i + 1) - P i).dropLast
        ((List.range (n + 1)).map fun i => P (i + 1) - P i).tail =
      some ((∑ i ∈ Finset.range n, (P (i + 1) - P i) * (P (i + 2) - P (i + 1)) -
        (P n - P 0) * (P (n + 1) - P 1) / n) / ((n : ℝ) - 1)) := by
  have h1 : ((List.range (n + 1)).map fun i => P (i + 1) - P i).dropLast =
      (List.range n).map fun i => P (i + 1) - P i := by
    rw [List.range_succ, List.map_append, List.map_singleton, List.dropLast_concat]
  have h2 : ((List.range (n + 1)).map fun i => P (i + 1) - P i).tail =
      (List.range n).map fun i => P (i + 2) - P (i + 1) := by
    rw [List.range_succ_eq_map, List.map_cons, List.tail_cons, List.map_map]
    rfl
  rw [h1, h2]
  unfold npCov
  rw [List.length_map, List.length_range, if_neg (by omega)]
  congr 2
  have hn' : (n : ℝ) ≠ 0 := by positivity
  have ma : mean ((List.range n).map fun i => P (i + 1) - P i) = (P n - P 0) / n := by
    unfold mean
    rw [range_sum, Finset.sum_range_sub, List.length_map, List.length_range]
  have mb : mean ((List.range n).map fun i => P (i + 2) - P (i + 1)) = (P (n + 1) - P 1) / n := by
    unfold mean
    rw [range_sum, Finset.sum_range_sub (fun i => P (i + 1)), List.length_map, List.length_range]
  rw [ma, mb, List.zipWith_map_left, List.zipWith_map_right, List.zipWith_self, range_sum]
  have e : ∀ i ∈ Finset.range n, (P (i + 1) - P i - (P n - P 0) / n) * (P (i + 2) - P (i + 1) - (P (n + 1) - P 1) / n) =
      (P (i + 1) - P i) * (P (i + 2) - P (i + 1)) - (P n - P 0) / n * (P (i + 2) - P (i + 1))
        - (P (n + 1) - P 1) / n * (P (i + 1) - P i) + (P n - P 0) / n * ((P (n + 1) - P 1) / n) := by
    intro i _; ring
  rw [Finset.sum_congr rfl e, Finset.sum_add_distrib, Finset.sum_sub_distrib, Finset.sum_sub_distrib,
    ← Finset.mul_sum, ← Finset.mul_sum, Finset.sum_range_sub (fun i => P (i + 1)), Finset.sum_range_sub P,
    Finset.sum_const, Finset.card_range, nsmul_eq_mul]
  field_simp
  ring

/-- The two estimates from `n + 2` prices. -/
theorem roll_range (n : ℕ) (hn : 2 ≤ n) (P : ℕ → ℝ) :
    ∃ v w : ℝ, v = (∑ i ∈ Finset.range (n + 1), (P (i + 1) - P i) ^ 2 - (P (n + 1) - P 0) ^ 2 / ((n : ℝ) + 1)) / ((n : ℝ) + 1) ∧
      w = (∑ i ∈ Finset.range n, (P (i + 1) - P i) * (P (i + 2) - P (i + 1)) -
        (P n - P 0) * (P (n + 1) - P 1) / n) / ((n : ℝ) - 1) ∧
      rollSpread ((List.range (n + 2)).map P) = (√(max 0 (-w)) * 2, some (v + 2 * w)) := by
  refine ⟨_, _, rfl, rfl, ?_⟩
  unfold rollSpread
  have hv := npVar_range (n + 1) (by omega) P
  push_cast at hv
  simp only [diff1_range, hv, npCov_range n hn P]
  rfl

/-! ## The averages -/

theorem avg_var (n : ℕ) (m : ℕ → ℝ) (c : ℝ) :
    avgSides (n + 2) (fun s => (∑ i ∈ Finset.range (n + 1), ((m (i + 1) + c * sideIn s (i + 1)) - (m i + c * sideIn s i)) ^ 2
        - ((m (n + 1) + c * sideIn s (n + 1)) - (m 0 + c * sideIn s 0)) ^ 2 / ((n : ℝ) + 1)) / ((n : ℝ) + 1)) =
      (∑ i ∈ Finset.range (n + 1), (m (i + 1) - m i) ^ 2 - (m (n + 1) - m 0) ^ 2 / ((n : ℝ) + 1)) / ((n : ℝ) + 1)
        + 2 * c ^ 2 * (1 - 1 / ((n : ℝ) + 1) ^ 2) := by
  have e : (fun s => (∑ i ∈ Finset.range (n + 1), ((m (i + 1) + c * sideIn s (i + 1)) - (m i + c * sideIn s i)) ^ 2
        - ((m (n + 1) + c * sideIn s (n + 1)) - (m 0 + c * sideIn s 0)) ^ 2 / ((n : ℝ) + 1)) / ((n : ℝ) + 1)) =
      fun s => (1 / ((n : ℝ) + 1)) * (∑ i ∈ Finset.range (n + 1),
          ((m (i + 1) + c * sideIn s (i + 1)) - (m i + c * sideIn s i)) * ((m (i + 1) + c * sideIn s (i + 1)) - (m i + c * sideIn s i)))
        + (-(1 / ((n : ℝ) + 1) ^ 2)) * (((m (n + 1) + c * sideIn s (n + 1)) - (m 0 + c * sideIn s 0)) *
          ((m (n + 1) + c * sideIn s (n + 1)) - (m 0 + c * sideIn s 0))) := by
    funext s
    simp only [sq]
    field_simp
    ring
  rw [e, avg_add, avg_mul, avg_mul, avg_sum, avg_moves (by omega) (by omega) (by omega) (by omega)]
  have h : ∀ i ∈ Finset.range (n + 1), avgSides (n + 2) (fun s => ((m (i + 1) + c * sideIn s (i + 1)) - (m i + c * sideIn s i)) *
      ((m (i + 1) + c * sideIn s (i + 1)) - (m i + c * sideIn s i))) = (m (i + 1) - m i) ^ 2 + 2 * c ^ 2 := by
    intro i hi
    have := Finset.mem_range.1 hi
    rw [avg_moves (by omega) (by omega) (by omega) (by omega)]
    simp
    ring
  rw [Finset.sum_congr rfl h, Finset.sum_add_distrib, Finset.sum_const, Finset.card_range, nsmul_eq_mul]
  simp
  field_simp
  ring

theorem avg_cov (n : ℕ) (hn : 2 ≤ n) (m : ℕ → ℝ) (c : ℝ) :
    avgSides (n + 2) (fun s => (∑ i ∈ Finset.range n, ((m (i + 1) + c * sideIn s (i + 1)) - (m i + c * sideIn s i)) *
          ((m (i + 2) + c * sideIn s (i + 2)) - (m (i + 1) + c * sideIn s (i + 1)))
        - ((m n + c * sideIn s n) - (m 0 + c * sideIn s 0)) *
          ((m (n + 1) + c * sideIn s (n + 1)) - (m 1 + c * sideIn s 1)) / n) / ((n : ℝ) - 1)) =
      (∑ i ∈ Finset.range n, (m (i + 1) - m i) * (m (i + 2) - m (i + 1)) -
        (m n - m 0) * (m (n + 1) - m 1) / n) / ((n : ℝ) - 1) - c ^ 2 * n / ((n : ℝ) - 1) := by
  have hn0 : (n : ℝ) ≠ 0 := by positivity
  have hn1 : (n : ℝ) - 1 ≠ 0 := by
    have : (2 : ℝ) ≤ n := by exact_mod_cast hn
    intro h; linarith
  have e : (fun s => (∑ i ∈ Finset.range n, ((m (i + 1) + c * sideIn s (i + 1)) - (m i + c * sideIn s i)) *
          ((m (i + 2) + c * sideIn s (i + 2)) - (m (i + 1) + c * sideIn s (i + 1)))
        - ((m n + c * sideIn s n) - (m 0 + c * sideIn s 0)) *
          ((m (n + 1) + c * sideIn s (n + 1)) - (m 1 + c * sideIn s 1)) / n) / ((n : ℝ) - 1)) =
      fun s => (1 / ((n : ℝ) - 1)) * (∑ i ∈ Finset.range n, ((m (i + 1) + c * sideIn s (i + 1)) - (m i + c * sideIn s i)) *
          ((m (i + 2) + c * sideIn s (i + 2)) - (m (i + 1) + c * sideIn s (i + 1))))
        + (-(1 / (n * ((n : ℝ) - 1)))) * (((m n + c * sideIn s n) - (m 0 + c * sideIn s 0)) *
          ((m (n + 1) + c * sideIn s (n + 1)) - (m 1 + c * sideIn s 1))) := by
    funext s
    field_simp
    ring
  rw [e, avg_add, avg_mul, avg_mul, avg_sum, avg_moves (by omega) (by omega) (by omega) (by omega)]
  have h : ∀ i ∈ Finset.range n, avgSides (n + 2) (fun s => ((m (i + 1) + c * sideIn s (i + 1)) - (m i + c * sideIn s i)) *
      ((m (i + 2) + c * sideIn s (i + 2)) - (m (i + 1) + c * sideIn s (i + 1)))) =
      (m (i + 1) - m i) * (m (i + 2) - m (i + 1)) - c ^ 2 := by
    intro i hi
    have := Finset.mem_range.1 hi
    rw [avg_moves (by omega) (by omega) (by omega) (by omega), if_neg (by omega), if_pos rfl, if_neg (by omega),
      if_neg (by omega)]
    ring
  rw [Finset.sum_congr rfl h, Finset.sum_sub_distrib, Finset.sum_const, Finset.card_range, nsmul_eq_mul,
    if_neg (by omega), if_neg (by omega), if_neg (by omega), if_neg (by omega)]
  field_simp
  ring

/-- C260.  Averaged over all sides of `T ≥ 4` trades, the noise variance is that of the mid prices themselves,
less `2c²(1/(T-1)² + 1/(T-3))`, a bias that vanishes as the number of trades grows. -/
theorem C260_noise (T : ℕ) (hT : 4 ≤ T) (m : ℕ → ℝ) (c : ℝ) :
    ∃ (w : Finset ℕ → ℝ) (w0 : ℝ), (∀ s, (rollSpread (quoted m c T s)).2 = some (w s)) ∧
      (rollSpread ((List.range T).map m)).2 = some w0 ∧
      avgSides T w = w0 - 2 * c ^ 2 * (1 / ((T : ℝ) - 1) ^ 2 + 1 / ((T : ℝ) - 3)) := by
  obtain ⟨n, rfl⟩ : ∃ n, T = n + 2 := ⟨T - 2, by omega⟩
  have hn : 2 ≤ n := by omega
  have hn' : (2 : ℝ) ≤ n := by exact_mod_cast hn
  obtain ⟨v, w, hv, hw, e⟩ := roll_range n hn m
  choose vs ws hvs hws es using fun s => roll_range n hn fun i => m i + c * sideIn s i
  refine ⟨fun s => vs s + 2 * ws s, v + 2 * w, fun s => congrArg Prod.snd (es s), congrArg Prod.snd e, ?_⟩
  rw [avg_add, avg_mul, funext hvs, funext hws, avg_var, avg_cov n hn, ← hv, ← hw]
  push_cast
  have h1 : (n : ℝ) - 1 ≠ 0 := by intro h; linarith
  have h2 : (n : ℝ) + 2 - 1 ≠ 0 := by intro h; linarith
  have h3 : (n : ℝ) + 2 - 3 ≠ 0 := by intro h; linarith
  have h4 : (n : ℝ) + 1 ≠ 0 := by intro h; linarith
  rw [show (n : ℝ) + 2 - 3 = n - 1 by ring, show (n : ℝ) + 2 - 1 = n + 1 by ring]
  field_simp
  ring

/-- C260.  For a mid price that stands still or moves by the same amount with each trade, the square of the
reported spread is on average at least that of the true spread `2c`, by the factor `(T-2)/(T-3)`. -/
theorem C260_spread (T : ℕ) (hT : 4 ≤ T) (a d c : ℝ) :
    (2 * c) ^ 2 * (((T : ℝ) - 2) / ((T : ℝ) - 3)) ≤
      avgSides T (fun s => (rollSpread (quoted (fun i => a + d * i) c T s)).1 ^ 2) := by
  obtain ⟨n, rfl⟩ : ∃ n, T = n + 2 := ⟨T - 2, by omega⟩
  have hn : 2 ≤ n := by omega
  have hn' : (2 : ℝ) ≤ n := by exact_mod_cast hn
  have h1 : (n : ℝ) - 1 ≠ 0 := by intro h; linarith
  choose vs ws hvs hws es using fun s => roll_range n hn fun i => (fun i : ℕ => a + d * i) i + c * sideIn s i
  have hle : ∀ s, (-4) * ws s ≤ (rollSpread (quoted (fun i => a + d * i) c (n + 2) s)).1 ^ 2 := by
    intro s
    have : rollSpread (quoted (fun i => a + d * i) c (n + 2) s) = _ := es s
    rw [this]
    simp only []
    rw [mul_pow, Real.sq_sqrt (le_max_left _ _)]
    linarith [le_max_right 0 (-ws s)]
  refine le_trans (le_of_eq ?_) (avg_le _ _ _ hle)
  have hc := avg_cov n hn (fun i : ℕ => a + d * i) c
  rw [avg_mul, funext hws]
  refine Eq.trans ?_ (congrArg (fun x => (-4) * x) hc.symm)
  have e : ∑ i ∈ Finset.range n, ((a + d * ((i + 1 : ℕ) : ℝ)) - (a + d * (i : ℝ))) *
      ((a + d * ((i + 2 : ℕ) : ℝ)) - (a + d * ((i + 1 : ℕ) : ℝ))) = n * d ^ 2 := by
    rw [Finset.sum_congr rfl (g := fun _ => d ^ 2) (fun i _ => by push_cast; ring), Finset.sum_const,
      Finset.card_range, nsmul_eq_mul]
  rw [e]
  push_cast
  rw [show (n : ℝ) + 2 - 3 = n - 1 by ring, show (n : ℝ) + 2 - 2 = n by ring]
  field_simp
  ring

/-- With four trades at a constant mid price there are 16 assignments of sides. -/
example : quoted (fun _ => 100) 1 4 {0, 2} = [101, 99, 101, 99] ∧
    ((Finset.range 4).powerset).card = 16 := by
  constructor
  · norm_num [quoted, sideIn, List.range, List.range.loop]
  · decide

end FinML.Micro
