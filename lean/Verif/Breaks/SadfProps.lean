import Verif.Breaks.CusumProps
import Mathlib.LinearAlgebra.Matrix.DotProduct
import Mathlib.Algebra.Order.BigOperators.Ring.Finset

/-!
# Properties C119, C120, C121 and C149
-/

namespace FinML.Breaks

open Matrix

/-! ## The design -/

section Design

variable {K : Type} [Field K]

theorem shift_getElem? (l : List K) (lag i : ℕ) (hi : i < l.length) :
    ((shift l lag)[i]?).join = if lag ≤ i then some (l.getD (i - lag) 0) else none := by
  unfold shift
  rw [List.getElem?_map, List.getElem?_range hi, Option.map_some, Option.join_some]
  split_ifs with h
  · rw [List.getElem?_eq_getElem (by omega), List.getD_eq_getElem _ _ (by omega)]
  · rfl

omit [Field K] in
theorem mapM_ite (lags : List ℕ) (i M : ℕ) (f : ℕ → K) (hM : ∀ k ∈ lags, k ≤ M) (hm : M ∈ lags ∨ M ≤ i) :
    (lags.mapM fun lag => if lag ≤ i then some (f lag) else none) =
      if M ≤ i then some (lags.map f) else none := by
  induction lags with
  | nil =>
    rcases hm with h | h
    · cases h
    · simp [h]
  | cons a l ih =>
    rw [List.mapM_cons]
    by_cases hi : M ≤ i
    · rw [if_pos (le_trans (hM a (by simp)) hi), ih (fun k hk => hM k (by simp [hk])) (.inr hi), if_pos hi, if_pos hi]
      rfl
    · rw [if_neg hi]
      rcases hm with h | h
      · rcases List.mem_cons.1 h with rfl | h
        · rw [if_neg hi]; rfl
        · rw [ih (fun k hk => hM k (by simp [hk])) (.inl h), if_neg hi]
          split_ifs <;> rfl
      · exact absurd h hi

theorem filterMap_range {α : Type} (M D : ℕ) (f : ℕ → α) :
    ((List.range D).filterMap fun i => if M ≤ i then some (f i) else none) =
      (List.range (D - M)).map fun j => f (M + j) := by
  induction D with
  | zero => simp
  | succ D ih =>
    rw [List.range_succ, List.filterMap_append, ih]
    by_cases h : M ≤ D
    · rw [show D + 1 - M = (D - M) + 1 by omega, List.range_succ, List.map_append]
      simp [h]
    · rw [show D + 1 - M = D - M by omega]
      simp [h]

theorem lagRows_eq (diff : List K) (lags : List ℕ) (M : ℕ) (hM : ∀ k ∈ lags, k ≤ M) (hm : M ∈ lags) :
    lagRows diff lags =
      (List.range (diff.length - M)).map fun j => lags.map fun k => diff.getD (M + j - k) 0 := by
  unfold lagRows
  rw [← filterMap_range M diff.length fun i => lags.map fun k => diff.getD (i - k) 0]
  apply List.filterMap_congr
  intro i hi
  rw [List.mem_range] at hi
  simp only [shift_getElem? _ _ _ hi]
  exact mapM_ite lags i M _ hM (.inl hm)

theorem npDiff_getD (s : List K) (i : ℕ) (h : i + 1 < s.length) :
    (npDiff s).getD i 0 = s.getD (i + 1) 0 - s.getD i 0 := by
  rw [List.getD_eq_getElem?_getD, npDiff_getElem? _ _ h]
  rfl

/-- The design for a list of lags. -/
theorem getYx_eq (s : List K) (constant : String) (h : ℕ) (ls : List ℕ) (M : ℕ)
    (hd : (h :: ls).Nodup) (hM : ∀ k ∈ h :: ls, k ≤ M) (hm : M ∈ h :: ls) (hn : M + 2 ≤ s.length) :
    getYx s constant (h :: ls) = .ok
      ((List.range (s.length - 1 - M)).map fun j => s.getD (M + j + 1) 0 - s.getD (M + j) 0,
       (List.range (s.length - 1 - M)).map fun j =>
        s.getD (M + j) 0 :: (ls.map fun k => s.getD (M + j + 1 - k) 0 - s.getD (M + j - k) 0) ++
          deterministic constant j) := by
  have hrows : setLevels s (lagRows (npDiff s) (h :: ls)) = (List.range (s.length - 1 - M)).map fun j =>
      s.getD (M + j) 0 :: (ls.map fun k => s.getD (M + j + 1 - k) 0 - s.getD (M + j - k) 0) := by
    unfold setLevels
    rw [lagRows_eq _ _ M hM hm, npDiff_length]
    apply List.ext_getElem?
    intro j
    rw [List.getElem?_zipWith, List.getElem?_map, List.getElem?_map]
    by_cases hj : j < s.length - 1 - M
    · rw [List.getElem?_range hj, List.getElem?_take, if_pos (by simpa using hj), List.getElem?_drop,
        List.length_map, List.length_range, show s.length - (s.length - 1 - M + 1) + j = M + j by omega,
        List.getElem?_eq_getElem (by omega)]
      simp only [Option.map_some, List.map_cons, List.tail_cons, Option.some.injEq]
      rw [List.getD_eq_getElem _ _ (by omega)]
      congr 1
      apply List.map_congr_left
      intro k hk
      have := hM k (by simp [hk])
      rw [npDiff_getD _ _ (by omega), show M + j - k + 1 = M + j + 1 - k by omega]
    · rw [List.getElem?_eq_none (l := List.range _) (by simpa using hj)]
      simp only [Option.map_none]
      split <;> simp_all
  unfold getYx
  rw [if_neg (by simp), if_neg (not_not.2 hd)]
  simp only [hrows, List.length_map, List.length_range, Except.ok.injEq, Prod.mk.injEq]
  constructor
  · unfold lastRows
    rw [if_neg (by omega), npDiff_length, show s.length - 1 - (s.length - 1 - M) = M by omega]
    apply List.ext_getElem?
    intro j
    rw [List.getElem?_drop, List.getElem?_map]
    by_cases hj : j < s.length - 1 - M
    · rw [List.getElem?_range hj, npDiff_getElem? _ _ (by omega)]
      rfl
    · rw [List.getElem?_eq_none (by rw [npDiff_length]; omega), List.getElem?_eq_none (by simpa using hj)]
      rfl
  · apply List.ext_getElem?
    intro j
    rw [List.getElem?_mapIdx, List.getElem?_map, List.getElem?_map]
    by_cases hj : j < s.length - 1 - M
    · rw [List.getElem?_range hj]
      rfl
    · rw [List.getElem?_eq_none (l := List.range _) (by simpa using hj)]
      rfl

/-- C119. With `lags` lags and `n` values the design has a row for every time `t` from `lags + 1` to
`n - 1`: response `s_t - s_{t-1}`, level `s_{t-1}`, the changes `s_{t-k} - s_{t-k-1}` for `k = 1, …, lags`,
and then the deterministic terms. -/
theorem C119_rows (s : List K) (constant : String) (lags : ℕ) (hn : lags + 2 ≤ s.length) :
    ∃ y x, getYxInt s constant lags = .ok (y, x) ∧ y.length + lags + 1 = s.length ∧
      x.length = y.length ∧
      ∀ t, lags < t → t < s.length →
        y[t - lags - 1]? = some (s.getD t 0 - s.getD (t - 1) 0) ∧
        ∃ row, x[t - lags - 1]? = some row ∧ row[0]? = some (s.getD (t - 1) 0) ∧
          (∀ k, 1 ≤ k → k ≤ lags → row[k]? = some (s.getD (t - k) 0 - s.getD (t - k - 1) 0)) ∧
          row.drop (lags + 1) = deterministic constant (t - lags - 1) := by
  have h0 : List.range (lags + 1) = 0 :: (List.range lags).map (· + 1) := by
    rw [List.range_succ_eq_map]
  have heq := getYx_eq s constant 0 ((List.range lags).map (· + 1)) lags (by rw [← h0]; exact List.nodup_range) (by
    intro k hk
    rw [← h0, List.mem_range] at hk
    omega) (by rw [← h0, List.mem_range]; omega) hn
  refine ⟨_, _, (by unfold getYxInt; rw [h0]; exact heq), ?_, ?_, ?_⟩
  · simp
    omega
  · simp
  · intro t h1 h2
    obtain ⟨j, rfl⟩ : ∃ j, t = lags + j + 1 := ⟨t - lags - 1, by omega⟩
    rw [show lags + j + 1 - lags - 1 = j by omega]
    rw [List.getElem?_map, List.getElem?_map, List.getElem?_range (by omega)]
    refine ⟨rfl, _, rfl, rfl, ?_, ?_⟩
    · intro k hk1 hk2
      rw [List.getElem?_append_left (by simp; omega)]
      obtain ⟨i, rfl⟩ : ∃ i, k = i + 1 := ⟨k - 1, by omega⟩
      rw [List.getElem?_cons_succ, List.map_map, List.getElem?_map, List.getElem?_range (by omega)]
      simp only [Option.map_some, Function.comp_apply, Option.some.injEq]
      rw [show lags + j + 1 - (i + 1) - 1 = lags + j - (i + 1) by omega]
    · rw [List.drop_append_of_le_length (by simp), List.drop_of_length_le (by simp)]
      rfl

/-- C119. The deterministic terms: none, a constant, a linear trend and a quadratic trend. -/
theorem C119_deterministic (j : ℕ) :
    (deterministic "nc" j : List K) = [] ∧ (deterministic "c" j : List K) = [1] ∧
    (deterministic "ct" j : List K) = [1, (j : K)] ∧
    (deterministic "ctt" j : List K) = [1, (j : K), (j : K) ^ 2] := by
  refine ⟨?_, ?_, ?_, ?_⟩ <;> simp [deterministic]

/-- C119. With too little history there are no rows, but the responses are all changes. -/
theorem C119_short (s : List K) (constant : String) (lags : ℕ) (hn : s.length < lags + 2) :
    getYxInt s constant lags = .ok (npDiff s, []) := by
  have hl : lagRows (npDiff s) (List.range (lags + 1)) = [] := by
    rw [lagRows_eq _ _ lags (by intro k hk; rw [List.mem_range] at hk; omega) (by simp),
      npDiff_length, show s.length - 1 - lags = 0 by omega]
    rfl
  unfold getYxInt getYx
  rw [if_neg (by simp), if_neg (not_not.2 List.nodup_range)]
  simp only [hl]
  simp [setLevels, lastRows]

/-! ## C149: a list of lags -/

/-- C149, the full claim: with a list of different lags the row of time `t` has the level, the changes at the
positive lags of the list, and the deterministic terms. -/
def ListLags (K : Type) [Field K] : Prop :=
  ∀ (s : List K) (constant : String) (lags : List ℕ) (M : ℕ), lags.Nodup → (∀ k ∈ lags, k ≤ M) → M ∈ lags →
    M + 2 ≤ s.length → ∃ y x, getYx s constant lags = .ok (y, x) ∧
      ∀ t, M < t → t < s.length → x[t - M - 1]? = some (s.getD (t - 1) 0 ::
        ((lags.filter fun k => 0 < k).map fun k => s.getD (t - k) 0 - s.getD (t - k - 1) 0) ++
          deterministic constant (t - M - 1))

/-- C149. The level takes the place of the first lag of the list: with the list `[1]` the lagged change is
missing. -/
theorem C149_list_counterexample : ¬ ListLags K := by
  intro h
  obtain ⟨y, x, h1, h2⟩ := h [0, 1, 2] "nc" [1] 1 (by simp) (by simp) (by simp) (by simp)
  have := h2 2 (by norm_num) (by simp)
  rw [getYx_eq [0, 1, 2] "nc" 1 [] 1 (by simp) (by simp) (by simp) (by simp)] at h1
  cases h1
  simp [deterministic] at this

/-- C149, what holds: the claim for lists that begin with lag 0.

Missing: lists that do not begin with 0, where the first lag is lost (see
`C149_list_counterexample`). -/
theorem C149_list_partial (s : List K) (constant : String) (ls : List ℕ) (M : ℕ)
    (hd : (0 :: ls).Nodup) (hM : ∀ k ∈ ls, k ≤ M) (hm : M ∈ 0 :: ls) (hn : M + 2 ≤ s.length) :
    ∃ y x, getYx s constant (0 :: ls) = .ok (y, x) ∧
      ∀ t, M < t → t < s.length → x[t - M - 1]? = some (s.getD (t - 1) 0 ::
        (((0 :: ls).filter fun k => 0 < k).map fun k => s.getD (t - k) 0 - s.getD (t - k - 1) 0) ++
          deterministic constant (t - M - 1)) := by
  refine ⟨_, _, getYx_eq s constant 0 ls M hd (by simpa using hM) hm hn, ?_⟩
  intro t h1 h2
  obtain ⟨j, rfl⟩ : ∃ j, t = M + j + 1 := ⟨t - M - 1, by omega⟩
  rw [show M + j + 1 - M - 1 = j by omega, List.getElem?_map, List.getElem?_range (by omega)]
  have hf : (0 :: ls).filter (fun k => 0 < k) = ls := by
    rw [List.filter_cons_of_neg (by simp), List.filter_eq_self]
    intro k hk
    have : k ≠ 0 := fun h0 => (List.nodup_cons.1 hd).1 (h0 ▸ hk)
    simpa using Nat.pos_of_ne_zero this
  rw [hf]
  simp only [Option.map_some, Option.some.injEq]
  congr 2
  apply List.map_congr_left
  intro k _
  rw [show M + j + 1 - k - 1 = M + j - k by omega]

/-- C149. The list of lags is refused exactly if it is empty or repeats a lag. -/
theorem C149_refused (s : List K) (constant : String) (lags : List ℕ) :
    (getYx s constant lags = .error .indexError ↔ lags = []) ∧
      (getYx s constant lags = .error .valueError ↔ ∃ i j, i < j ∧ j < lags.length ∧ lags[i]? = lags[j]?) ∧
      ((∃ e, getYx s constant lags = .error e) ↔ lags = [] ∨ ¬ lags.Nodup) := by
  have hdup : (∃ i j, i < j ∧ j < lags.length ∧ lags[i]? = lags[j]?) ↔ ¬ lags.Nodup := by
    rw [List.nodup_iff_getElem?_ne_getElem?]
    push Not
    rfl
  rw [hdup]
  unfold getYx
  by_cases h1 : lags = []
  · subst h1
    simp
  · rw [if_neg h1]
    by_cases h2 : lags.Nodup
    · rw [if_neg (not_not.2 h2)]
      simp [h1, h2]
    · rw [if_pos h2]
      simp [h1, h2]

/-- A list that begins with lag 0, and a list with a repeated lag. -/
example : (getYx [(0 : ℚ), 1, 3, 6, 10] "c" [0, 2]).isOk ∧
    getYx [(0 : ℚ), 1, 3, 6, 10] "c" [0, 2, 2] = .error .valueError := by decide +kernel

end Design

/-- A design with one lag and a trend. -/
example : getYxInt ([1, 2, 4, 7] : List ℚ) "ct" 1 = .ok ([2, 3], [[2, 1, 1, 0], [4, 2, 1, 1]]) := by
  decide +kernel

/-! ## C120: least squares -/

variable {m k : ℕ}

/-- C120. If `x'x` is invertible, `_fit_adf` returns the only coefficients that minimise the sum of squared
residuals; the residuals are orthogonal to the regressors; the second value is that minimum, the third the
degrees of freedom and the last the inverse. -/
theorem C120_least_squares (y : Fin m → ℝ) (x : Matrix (Fin m) (Fin k) ℝ) (b : Fin k → ℝ) (sq : ℝ) (df : ℤ)
    (inv : Matrix (Fin k) (Fin k) ℝ) (h : fitAdf y x = .ok (b, sq, df, inv)) :
    (∀ j, ∑ i, x i j * (y i - ∑ l, x i l * b l) = 0) ∧
    sq = ∑ i, (y i - ∑ l, x i l * b l) ^ 2 ∧
    (∀ c : Fin k → ℝ, sq ≤ ∑ i, (y i - ∑ l, x i l * c l) ^ 2) ∧
    (∀ c : Fin k → ℝ, ∑ i, (y i - ∑ l, x i l * c l) ^ 2 = sq → c = b) ∧
    df = m - k ∧ inv * (xᵀ * x) = 1 := by
  unfold fitAdf at h
  simp only at h
  split_ifs at h with hdet
  have hu : IsUnit (xᵀ * x).det := isUnit_iff_ne_zero.2 hdet
  simp only [Except.ok.injEq, Prod.mk.injEq] at h
  obtain ⟨hb, hsq, hdf, hinv⟩ := h
  rw [hb] at hsq
  have horth : xᵀ *ᵥ (y - x *ᵥ b) = 0 := by
    rw [Matrix.mulVec_sub, Matrix.mulVec_mulVec, ← hb, Matrix.mulVec_mulVec, Matrix.mul_nonsing_inv _ hu,
      Matrix.one_mulVec, sub_self]
  have e0 : ∀ c : Fin k → ℝ, ∑ i, (y i - ∑ l, x i l * c l) ^ 2 = (y - x *ᵥ c) ⬝ᵥ (y - x *ᵥ c) := by
    intro c
    simp only [dotProduct, Pi.sub_apply, Matrix.mulVec, pow_two]
  have key : ∀ c : Fin k → ℝ, ∑ i, (y i - ∑ l, x i l * c l) ^ 2 =
      sq + (x *ᵥ (b - c)) ⬝ᵥ (x *ᵥ (b - c)) := by
    intro c
    rw [e0, ← hsq]
    have e : y - x *ᵥ c = (y - x *ᵥ b) + x *ᵥ (b - c) := by
      rw [Matrix.mulVec_sub]
      abel
    have z : (y - x *ᵥ b) ⬝ᵥ (x *ᵥ (b - c)) = 0 := by
      rw [Matrix.dotProduct_mulVec, ← Matrix.mulVec_transpose, horth, zero_dotProduct]
    rw [e, add_dotProduct, dotProduct_add, dotProduct_add, z, dotProduct_comm (x *ᵥ (b - c)) (y - x *ᵥ b), z]
    ring
  refine ⟨?_, ?_, ?_, ?_, hdf.symm, ?_⟩
  · intro j
    have := congrFun horth j
    simpa only [Matrix.mulVec, dotProduct, Matrix.transpose_apply, Pi.sub_apply, Pi.zero_apply] using this
  · rw [e0, hsq]
  · intro c
    rw [key c]
    have : 0 ≤ (x *ᵥ (b - c)) ⬝ᵥ (x *ᵥ (b - c)) := Finset.sum_nonneg fun i _ => mul_self_nonneg _
    linarith
  · intro c hc
    rw [key c] at hc
    have h0 : (x *ᵥ (b - c)) ⬝ᵥ (x *ᵥ (b - c)) = 0 := by linarith
    have h1 : x *ᵥ (b - c) = 0 := by
      rwa [dotProduct_self_eq_zero] at h0
    have h2 : (xᵀ * x) *ᵥ (b - c) = 0 := by
      rw [← Matrix.mulVec_mulVec, h1, Matrix.mulVec_zero]
    have h3 : b - c = 0 := by
      have := congrArg (fun v => (xᵀ * x)⁻¹ *ᵥ v) h2
      simpa only [Matrix.mulVec_mulVec, Matrix.nonsing_inv_mul _ hu, Matrix.one_mulVec, Matrix.mulVec_zero] using this
    exact (sub_eq_zero.1 h3).symm
  · rw [← hinv, Matrix.nonsing_inv_mul _ hu]

/-- C120. It fails exactly if the regressors are linearly dependent. -/
theorem C120_error (y : Fin m → ℝ) (x : Matrix (Fin m) (Fin k) ℝ) :
    fitAdf y x = .error .exception ↔ ∃ c : Fin k → ℝ, c ≠ 0 ∧ ∀ i, ∑ l, x i l * c l = 0 := by
  unfold fitAdf
  simp only
  rw [ite_eq_left_iff]
  simp only [reduceCtorEq, imp_false, not_not]
  constructor
  · intro h
    obtain ⟨c, hc, h0⟩ := Matrix.exists_mulVec_eq_zero_iff.2 h
    refine ⟨c, hc, fun i => ?_⟩
    have h1 : (x *ᵥ c) ⬝ᵥ (x *ᵥ c) = 0 := by
      rw [Matrix.dotProduct_mulVec, ← Matrix.mulVec_transpose, Matrix.mulVec_mulVec, h0, zero_dotProduct]
    rw [dotProduct_self_eq_zero] at h1
    exact congrFun h1 i
  · rintro ⟨c, hc, h0⟩
    apply Matrix.exists_mulVec_eq_zero_iff.1
    refine ⟨c, hc, ?_⟩
    rw [← Matrix.mulVec_mulVec, show x *ᵥ c = 0 from funext h0, Matrix.mulVec_zero]

/-! ## C121: the supremum -/

/-- The diagonal of the inverse is positive. -/
theorem inv_diag_pos (y : Fin m → ℝ) (x : Matrix (Fin m) (Fin k) ℝ) (b : Fin k → ℝ) (sq : ℝ) (df : ℤ)
    (inv : Matrix (Fin k) (Fin k) ℝ) (h : fitAdf y x = .ok (b, sq, df, inv)) (j : Fin k) : 0 < inv j j := by
  have hi := (C120_least_squares y x b sq df inv h).2.2.2.2.2
  have hi' : (xᵀ * x) * inv = 1 := by
    exact mul_eq_one_comm.1 hi
  set c : Fin k → ℝ := fun l => inv l j with hc
  have h1 : (xᵀ * x) *ᵥ c = Pi.single j 1 := by
    ext l
    have := congrFun (congrFun hi' l) j
    rw [Matrix.mul_apply] at this
    simp only [Matrix.mulVec, dotProduct, hc]
    rw [this, Matrix.one_apply, Pi.single_apply]
  have h2 : (x *ᵥ c) ⬝ᵥ (x *ᵥ c) = inv j j := by
    rw [Matrix.dotProduct_mulVec, ← Matrix.mulVec_transpose, Matrix.mulVec_mulVec, h1, single_dotProduct, one_mul]
  have h3 : 0 ≤ (x *ᵥ c) ⬝ᵥ (x *ᵥ c) := Finset.sum_nonneg fun i _ => mul_self_nonneg _
  refine lt_of_le_of_ne (h2 ▸ h3) fun h0 => ?_
  rw [← h0] at h2
  rw [dotProduct_self_eq_zero] at h2
  have h4 : (xᵀ * x) *ᵥ c = 0 := by rw [← Matrix.mulVec_mulVec, h2, Matrix.mulVec_zero]
  rw [h1] at h4
  have := congrFun h4 j
  simp at this

/-- C121. The statistic of a start point with more rows than columns and a fit that is not perfect: the
least-squares coefficient of the level over its standard error. -/
theorem C121_statistic (y : List ℝ) (rows : List (List ℝ)) (k : ℕ) (hk : 0 < k) (o : Option EReal)
    (h : adfStat y rows k hk = .ok o) (hrows : k < rows.length) :
    y.length = rows.length ∧ ∃ (b : Fin k → ℝ) (inv : Matrix (Fin k) (Fin k) ℝ) (sq : ℝ),
      (∀ c : Fin k → ℝ, sq ≤ ∑ i : Fin rows.length, (y.getD i 0 - ∑ l : Fin k, rows[i].getD l 0 * c l) ^ 2) ∧
      sq = ∑ i : Fin rows.length, (y.getD i 0 - ∑ l : Fin k, rows[i].getD l 0 * b l) ^ 2 ∧
      inv * ((toMatrix rows k)ᵀ * toMatrix rows k) = 1 ∧ 0 < inv ⟨0, hk⟩ ⟨0, hk⟩ ∧
      (0 < sq → o = some ((b ⟨0, hk⟩ / √(sq / ((rows.length : ℝ) - k) * inv ⟨0, hk⟩ ⟨0, hk⟩) : ℝ) : EReal)) ∧
      (sq = 0 → (0 < b ⟨0, hk⟩ → o = some ⊤) ∧ (b ⟨0, hk⟩ < 0 → o = some ⊥) ∧ (b ⟨0, hk⟩ = 0 → o = none)) := by
  unfold adfStat at h
  split_ifs at h with hl
  push Not at hl
  rw [py_bind_eq_ok] at h
  obtain ⟨⟨b, sq, df, inv⟩, hf, h⟩ := h
  rw [py_pure, Except.ok.injEq] at h
  have hpos := inv_diag_pos _ _ b sq df inv hf ⟨0, hk⟩
  obtain ⟨-, h2, h3, -, h5, h6⟩ := C120_least_squares _ _ b sq df inv hf
  refine ⟨hl, b, inv, sq, h3, h2, h6, hpos, ?_, ?_⟩
  · intro hsq
    rw [← h, h5]
    unfold tStat
    simp only
    rw [if_neg (by omega)]
    have hd : (0 : ℝ) < (rows.length : ℝ) - k := by
      have : (k : ℝ) < rows.length := by exact_mod_cast hrows
      linarith
    have hv : 0 < sq / ((rows.length : ℝ) - k) * inv ⟨0, hk⟩ ⟨0, hk⟩ := mul_pos (div_pos hsq hd) hpos
    have e : (((rows.length : ℤ) - (k : ℤ) : ℤ) : ℝ) = (rows.length : ℝ) - k := by push_cast; rfl
    rw [e, if_neg (not_lt.2 hv.le), if_neg hv.ne']
  · intro hsq
    rw [← h, h5, hsq]
    unfold tStat
    simp only [zero_div, zero_mul, lt_irrefl, if_false, if_true]
    rw [if_neg (by omega)]
    refine ⟨fun hb => by rw [if_pos hb], fun hb => by rw [if_neg (not_lt.2 hb.le), if_pos hb], fun hb => ?_⟩
    rw [if_neg (by rw [hb]; exact lt_irrefl _), if_neg (by rw [hb]; exact lt_irrefl _)]

theorem foldl_pyMax (l : List (Option EReal)) (a : EReal) :
    a ≤ l.foldl pyMax a ∧ (∀ e, some e ∈ l → e ≤ l.foldl pyMax a) ∧
      (l.foldl pyMax a = a ∨ some (l.foldl pyMax a) ∈ l) := by
  induction l generalizing a with
  | nil => simp
  | cons o l ih =>
    obtain ⟨h1, h2, h3⟩ := ih (pyMax a o)
    rw [List.foldl_cons]
    have hle : a ≤ pyMax a o := by
      cases o with
      | none => exact le_refl _
      | some e => unfold pyMax; simp only; split_ifs with h; exacts [h.le, le_refl _]
    refine ⟨hle.trans h1, ?_, ?_⟩
    · intro e he
      rcases List.mem_cons.1 he with rfl | he
      · refine le_trans ?_ h1
        unfold pyMax
        simp only
        split_ifs with h
        exacts [le_refl _, not_lt.1 h]
      · exact h2 e he
    · rcases h3 with h3 | h3
      · rw [h3]
        cases o with
        | none => exact .inl rfl
        | some e =>
          unfold pyMax
          simp only
          split_ifs
          · exact .inr (by simp)
          · exact .inl rfl
      · exact .inr (List.mem_cons_of_mem _ h3)

/-- `v` is the largest number among the statistics `stat start` of the start points that satisfy `ok`;
statistics that are NaN do not count, and without numbers it is minus infinity. -/
def IsSup (ok : ℕ → Prop) (stat : ℕ → Py (Option EReal)) (v : EReal) : Prop :=
  (∀ start, ok start → ∃ o, stat start = .ok o ∧ ∀ e, o = some e → e ≤ v) ∧
  (v = ⊥ ∨ ∃ start, ok start ∧ stat start = .ok (some v))

theorem sadf_iff (series : List ℝ) (minLen : ℕ) (constant : String) (lags : ℕ) (v : EReal) (y : List ℝ)
    (x : List (List ℝ)) (hyx : getYxInt series constant lags = .ok (y, x)) :
    sadfStat series minLen constant lags = .ok v ↔
      ∃ stats : List (Option EReal), stats.length = y.length + lags + 1 - minLen ∧
        (∀ (i : ℕ) o, stats[i]? = some o → adfStat (y.drop i) (x.drop i) (numCols constant lags)
          (numCols_pos constant lags) = .ok o) ∧ v = stats.foldl pyMax ⊥ := by
  unfold sadfStat
  rw [hyx, py_bind_ok, py_bind_eq_ok]
  refine exists_congr fun stats => ?_
  rw [mapM_eq_ok_iff, py_pure, Except.ok.injEq, eq_comm (b := v)]
  constructor
  · rintro ⟨h, rfl⟩
    have hl := h.length_eq
    rw [List.length_range] at hl
    refine ⟨hl.symm, ?_, rfl⟩
    intro i o ho
    obtain ⟨hi, rfl⟩ := List.getElem?_eq_some_iff.1 ho
    have hl' : y.length + lags + 1 - minLen = stats.length := hl
    have := h.get (i := i) (by simp only [List.length_range]; omega) hi
    simpa using this
  · rintro ⟨h1, h2, h3⟩
    refine ⟨?_, h3⟩
    rw [List.forall₂_iff_get]
    refine ⟨by simp [h1], ?_⟩
    intro i hi hi'
    have := h2 i _ (List.getElem?_eq_getElem hi')
    simpa using this

/-- C121. `sadf_stat` is the largest ADF statistic over the start points that leave at least
`min_sample_len - lags` rows. -/
theorem C121_supremum (series : List ℝ) (minLen : ℕ) (constant : String) (lags : ℕ) (v : EReal) (y : List ℝ)
    (x : List (List ℝ)) (hyx : getYxInt series constant lags = .ok (y, x))
    (h : sadfStat series minLen constant lags = .ok v) :
    IsSup (fun start => start + minLen ≤ y.length + lags)
      (fun start => adfStat (y.drop start) (x.drop start) (numCols constant lags) (numCols_pos constant lags))
      v := by
  rw [sadf_iff _ _ _ _ _ y x hyx] at h
  obtain ⟨stats, h1, h2, rfl⟩ := h
  obtain ⟨-, h3, h4⟩ := foldl_pyMax stats ⊥
  constructor
  · intro start hs
    have hi : start < stats.length := by omega
    refine ⟨stats[start], h2 start _ (List.getElem?_eq_getElem hi), fun e he => ?_⟩
    exact h3 e (he ▸ List.getElem_mem hi)
  · rcases h4 with h4 | h4
    · exact .inl h4
    · obtain ⟨i, hi, he⟩ := List.mem_iff_getElem.1 h4
      exact .inr ⟨i, by omega, h2 i _ (by rw [List.getElem?_eq_getElem hi, he])⟩

/-- C121. A larger `min_sample_len` does not fail where a smaller one succeeds, and never increases the
result. -/
theorem C121_monotone (series : List ℝ) (m₁ m₂ : ℕ) (hm : m₁ ≤ m₂) (constant : String) (lags : ℕ) (v₁ : EReal)
    (h : sadfStat series m₁ constant lags = .ok v₁) :
    ∃ v₂, sadfStat series m₂ constant lags = .ok v₂ ∧ v₂ ≤ v₁ := by
  obtain ⟨⟨y, x⟩, hyx⟩ : ∃ yx, getYxInt series constant lags = .ok yx := by
    unfold getYxInt getYx
    rw [if_neg (by simp), if_neg (not_not.2 List.nodup_range)]
    exact ⟨_, rfl⟩
  have hs := C121_supremum series m₁ constant lags v₁ y x hyx h
  rw [sadf_iff _ _ _ _ _ y x hyx] at h
  obtain ⟨stats, h1, h2, -⟩ := h
  have h' : sadfStat series m₂ constant lags =
      .ok ((stats.take (y.length + lags + 1 - m₂)).foldl pyMax ⊥) := by
    rw [sadf_iff _ _ _ _ _ y x hyx]
    refine ⟨stats.take (y.length + lags + 1 - m₂), ?_, ?_, rfl⟩
    · rw [List.length_take, h1]
      omega
    · intro i o ho
      rw [List.getElem?_take] at ho
      split_ifs at ho
      exact h2 i o ho
  refine ⟨_, h', ?_⟩
  obtain ⟨-, h5⟩ := C121_supremum series m₂ constant lags _ y x hyx h'
  rcases h5 with h5 | ⟨start, h5, h6⟩
  · rw [h5]
    exact bot_le
  · obtain ⟨o, h7, h8⟩ := hs.1 start (by omega)
    rw [h6] at h7
    cases h7
    exact h8 _ rfl

/-- C121. The series has a statistic for every position from `min_sample_len` on: that of the data up to and
including the position. -/
theorem C121_series (series : List ℝ) (minLen : ℕ) (constant : String) (lags : ℕ) (l : List (ℕ × EReal))
    (h : sadfStatSeries series minLen constant lags = .ok l) :
    l.length = series.length - minLen ∧ ∀ t, minLen ≤ t → t < series.length →
      ∃ v, l[t - minLen]? = some (t, v) ∧ sadfStat (series.take (t + 1)) minLen constant lags = .ok v := by
  unfold sadfStatSeries at h
  rw [mapM_eq_ok_iff] at h
  have hl := h.length_eq
  rw [List.length_range] at hl
  refine ⟨hl.symm, ?_⟩
  intro t h1 h2
  have hi : t - minLen < l.length := by omega
  have := h.get (i := t - minLen) (by simp; omega) hi
  simp only [List.get_eq_getElem, List.getElem_range] at this
  rw [py_bind_eq_ok] at this
  obtain ⟨v, hv, he⟩ := this
  rw [show minLen + (t - minLen) = t by omega] at hv he
  rw [py_pure, Except.ok.injEq] at he
  exact ⟨v, by rw [List.getElem?_eq_getElem hi, ← he], hv⟩

/-- C121. The statistic of a time does not depend on later values. -/
theorem C121_causal (s s' : List ℝ) (minLen : ℕ) (constant : String) (lags : ℕ) (l l' : List (ℕ × EReal))
    (h : sadfStatSeries s minLen constant lags = .ok l) (h' : sadfStatSeries s' minLen constant lags = .ok l')
    (t : ℕ) (ht : minLen ≤ t) (hs : t < s.length) (hs' : t < s'.length) (heq : s.take (t + 1) = s'.take (t + 1)) :
    l[t - minLen]? = l'[t - minLen]? := by
  obtain ⟨v, h1, h2⟩ := (C121_series s minLen constant lags l h).2 t ht hs
  obtain ⟨v', h1', h2'⟩ := (C121_series s' minLen constant lags l' h').2 t ht hs'
  rw [heq, h2'] at h2
  cases h2
  rw [h1, h1']

/-- The series 1, 2, 3 without constant and lags has statistic 3. -/
example : sadfStat [1, 2, 3] 2 "nc" 0 = .ok ((3 : ℝ) : EReal) := by
  have hyx : getYxInt ([1, 2, 3] : List ℝ) "nc" 0 = .ok ([1, 1], [[1], [2]]) := by
    obtain ⟨y, x, h1, h2, h3, h4⟩ := C119_rows ([1, 2, 3] : List ℝ) "nc" 0 (by simp)
    rw [h1]
    obtain ⟨a1, r1, b1, c1, -, d1⟩ := h4 1 (by norm_num) (by simp)
    obtain ⟨a2, r2, b2, c2, -, d2⟩ := h4 2 (by norm_num) (by simp)
    rw [(C119_deterministic _).1] at d1 d2
    match y, x, h2, h3 with
    | [p, q], [u, w], _, _ =>
      norm_num at a1 a2 b1 b2
      subst b1 b2 a1 a2
      match u, w, c1, c2, d1, d2 with
      | [a], [b], c1, c2, _, _ =>
        norm_num at c1 c2
        rw [c1, c2]
  have key : ∀ k (hk : 0 < k), k = 1 → adfStat [1, 1] [[1], [2]] k hk = .ok (some ((3 : ℝ) : EReal)) := by
    rintro k hk rfl
    have hne : fitAdf (toVector [1, 1] 2) (toMatrix [[1], [2]] 1) ≠ .error .exception := by
      intro h
      rw [C120_error] at h
      obtain ⟨c, hc, h0⟩ := h
      apply hc
      ext i
      have := h0 ⟨0, by simp⟩
      rw [Subsingleton.elim i 0]
      simpa [toMatrix] using this
    have hok : ∃ o, adfStat [1, 1] [[1], [2]] 1 hk = .ok o := by
      unfold adfStat
      rw [if_neg (by simp)]
      cases hf : fitAdf (toVector [1, 1] 2) (toMatrix [[1], [2]] 1) with
      | error e =>
        exfalso
        unfold fitAdf at hf hne
        simp only at hf hne
        split_ifs at hf hne
        · exact hne rfl
      | ok r =>
        refine ⟨tStat (r.1 ⟨0, hk⟩) r.2.1 r.2.2.1 (r.2.2.2 ⟨0, hk⟩ ⟨0, hk⟩), ?_⟩
        rfl
    obtain ⟨o, ho⟩ := hok
    obtain ⟨-, b, inv, sq, h1, h2, h3, -, h4, -⟩ := C121_statistic _ _ _ hk o ho (by simp)
    have h1' := h1 fun _ => 3 / 5
    have h3' := congrFun (congrFun h3 0) 0
    have hz : (⟨0, hk⟩ : Fin 1) = 0 := rfl
    rw [hz] at h4
    have hs2 : ∀ f : Fin ([[1], [2]] : List (List ℝ)).length → ℝ, ∑ i, f i = f (0 : Fin 2) + f (1 : Fin 2) :=
      fun f => Fin.sum_univ_two f
    rw [hs2] at h1' h2
    rw [Matrix.mul_apply, Fin.sum_univ_one, Matrix.mul_apply, hs2] at h3'
    simp [toMatrix] at h1' h2 h3'
    have hsq : sq = 1 / 5 := by nlinarith [sq_nonneg (b 0 - 3 / 5)]
    have hb : b 0 = 3 / 5 := by
      have : (b 0 - 3 / 5) ^ 2 = 0 := by nlinarith
      have := pow_eq_zero_iff (two_ne_zero) |>.1 this
      linarith
    have hinv : inv 0 0 = 1 / 5 := by linarith
    rw [ho, h4 (by rw [hsq]; norm_num), hsq, hb, hinv]
    have e : √((1 / 5 : ℝ) / ((([[1], [2]] : List (List ℝ)).length : ℝ) - ((1 : ℕ) : ℝ)) * (1 / 5)) = 1 / 5 := by
      rw [show (1 / 5 : ℝ) / ((([[1], [2]] : List (List ℝ)).length : ℝ) - ((1 : ℕ) : ℝ)) * (1 / 5) = (1 / 5) ^ 2 by
        norm_num]
      exact Real.sqrt_sq (by norm_num)
    rw [e]
    norm_num
  have hk : numCols "nc" 0 = 1 := by
    unfold numCols
    rw [(C119_deterministic 0).1]
    rfl
  unfold sadfStat
  rw [hyx, py_bind_ok]
  simp only [List.length_cons, List.length_nil]
  rw [show (0 + 1 + 1 + 0 + 1 - 2) = 1 from rfl, show List.range 1 = [0] from rfl]
  simp only [mapM_cons_py, List.mapM_nil, List.drop_zero, key _ _ hk, py_bind_ok, py_pure]
  simp [pyMax]

end FinML.Breaks
