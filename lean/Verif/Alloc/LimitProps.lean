import Verif.Alloc.DivProps

/-! # Property C320: sizes at the limit price -/

namespace FinML.Alloc

/-- The full claim: at the limit price of an order the sizing function chooses a position between the current and the
target position. -/
def SizeAtLimit : Prop :=
  ∀ (cur target : ℤ) (m : ℕ) (f w price : ℝ) (s : ℤ), 0 < w → cur ≠ target → |cur| < m → |target| < m →
    computeLimitPrice cur target m f w = .ok price → positionSizeFromDivergence f price m w = .ok s →
    min cur target ≤ s ∧ s ≤ max cur target

/-- The divergence at which the position is `j` out of `m`. -/
noncomputable def gap (w : ℝ) (m j : ℕ) : ℝ := (j : ℝ) / m * √(w / (1 - ((j : ℝ) / m) ^ 2))

theorem gap_sigmoid (w : ℝ) (m j : ℕ) (hw : 0 < w) (hj : j < m) : sigmoid w (gap w m j) = (j : ℝ) / m := by
  have hm : (0 : ℝ) < m := by exact_mod_cast (by omega : 0 < m)
  have hlt : |(j : ℝ) / m| < 1 := by
    rw [abs_of_nonneg (by positivity), div_lt_one hm]
    exact_mod_cast hj
  obtain ⟨price, h1, h2, -⟩ := C87_inverse 0 w ((j : ℝ) / m) hw hlt
  rw [inversePrice_eq 0 w _ hw.le hlt, Except.ok.injEq] at h1
  subst h1
  rw [scaledSigmoid_eq _ _ (by positivity), Except.ok.injEq] at h2
  rw [zero_sub, zero_sub, neg_neg] at h2
  exact h2

theorem gap_mono (w : ℝ) (m j k : ℕ) (hw : 0 < w) (hjk : j ≤ k) (hk : k < m) : gap w m j ≤ gap w m k := by
  have hm : (0 : ℝ) < m := by exact_mod_cast (by omega : 0 < m)
  rw [← (sigmoid_strictMono w hw).le_iff_le, gap_sigmoid w m j hw (by omega), gap_sigmoid w m k hw hk]
  apply div_le_div_of_nonneg_right _ hm.le
  exact_mod_cast hjk

/-- The limit price of an order to buy, as a sum over the steps. -/
theorem limit_buy (cur n m : ℕ) (f w : ℝ) (hw : 0 < w) (hn : 0 < n) (hm : cur + n < m) :
    computeLimitPrice cur (cur + n : ℕ) m f w = .ok (f - (∑ k ∈ Finset.range n, gap w m (cur + 1 + k)) / n) := by
  have hn' : ((n : ℕ) : ℝ) ≠ 0 := by exact_mod_cast hn.ne'
  rw [C89_limit_buy_partial cur (cur + n) m f w hw (by omega) hm]
  congr 1
  unfold meanBreakEven
  have hs : unitSteps (cur : ℤ) ((cur + n : ℕ) : ℤ) = (List.range n).map fun k : ℕ => ((cur + 1 + k : ℕ) : ℤ) := by
    unfold unitSteps
    have : (((cur + n : ℕ) : ℤ) - (cur : ℤ)).natAbs = n := by omega
    rw [this]
    apply List.map_congr_left
    intro k _
    rw [if_pos (by omega)]
    push_cast; ring
  rw [hs, List.map_map, List.length_map, List.length_range]
  have hsum : ((List.range n).map (breakEven f w m ∘ fun k : ℕ => ((cur + 1 + k : ℕ) : ℤ))).sum =
      ∑ k ∈ Finset.range n, (f - gap w m (cur + 1 + k)) := by
    rw [Finset.sum_range, ← List.sum_ofFn]
    congr 1
    apply List.ext_getElem
    · simp
    · intro i h1 h2
      simp only [List.getElem_map, List.getElem_range, List.getElem_ofFn, Function.comp_apply, breakEven, gap]
      push_cast
      rfl
  rw [hsum, Finset.sum_sub_distrib, Finset.sum_const, Finset.card_range, nsmul_eq_mul, sub_div,
    mul_div_cancel_left₀ _ hn']

theorem mean_gap (cur n m : ℕ) (w : ℝ) (hw : 0 < w) (hn : 0 < n) (hm : cur + n < m) :
    gap w m (cur + 1) ≤ (∑ k ∈ Finset.range n, gap w m (cur + 1 + k)) / n ∧
      (∑ k ∈ Finset.range n, gap w m (cur + 1 + k)) / n ≤ gap w m (cur + n) := by
  have hn' : (0 : ℝ) < n := by exact_mod_cast hn
  rw [le_div_iff₀ hn', div_le_iff₀ hn']
  constructor
  · have : ∑ _k ∈ Finset.range n, gap w m (cur + 1) ≤ ∑ k ∈ Finset.range n, gap w m (cur + 1 + k) := by
      apply Finset.sum_le_sum
      intro k hk
      rw [Finset.mem_range] at hk
      exact gap_mono w m _ _ hw (by omega) (by omega)
    rw [Finset.sum_const, Finset.card_range, nsmul_eq_mul] at this
    linarith
  · have : ∑ k ∈ Finset.range n, gap w m (cur + 1 + k) ≤ ∑ _k ∈ Finset.range n, gap w m (cur + n) := by
      apply Finset.sum_le_sum
      intro k hk
      rw [Finset.mem_range] at hk
      exact gap_mono w m _ _ hw (by omega) (by omega)
    rw [Finset.sum_const, Finset.card_range, nsmul_eq_mul] at this
    linarith

/-- C320 (partial).  Buying from a non-negative position, the sizing function chooses at the limit price a position
above the current one and at most the target.  Missing: selling and short positions, where it fails, see
`C320_size_counterexample`. -/
theorem C320_size_partial (cur target m : ℕ) (f w price : ℝ) (s : ℤ) (hw : 0 < w) (h : cur < target) (hm : target < m)
    (hp : computeLimitPrice cur target m f w = .ok price)
    (hs : positionSizeFromDivergence f price m w = .ok s) : (cur : ℤ) < s ∧ s ≤ target := by
  obtain ⟨n, rfl⟩ := Nat.exists_eq_add_of_lt h
  rw [show cur + n + 1 = cur + (n + 1) by omega] at *
  rw [limit_buy cur (n + 1) m f w hw (by omega) hm, Except.ok.injEq] at hp
  obtain ⟨g1, g2⟩ := mean_gap cur (n + 1) m w hw (by omega) hm
  rw [positionSize_eq _ _ _ _ hw, Except.ok.injEq] at hs
  have hmR : (0 : ℝ) < m := by exact_mod_cast (by omega : 0 < m)
  have hx : f - price = (∑ k ∈ Finset.range (n + 1), gap w m (cur + 1 + k)) / ((n + 1 : ℕ) : ℝ) := by
    rw [← hp]; ring
  rw [hx] at hs
  have m1 := (sigmoid_strictMono w hw).monotone g1
  have m2 := (sigmoid_strictMono w hw).monotone g2
  rw [gap_sigmoid w m _ hw (by omega)] at m1 m2
  rw [div_le_iff₀ hmR] at m1
  rw [le_div_iff₀ hmR] at m2
  generalize sigmoid w ((∑ k ∈ Finset.range (n + 1), gap w m (cur + 1 + k)) / ((n + 1 : ℕ) : ℝ)) * m = v at *
  have hv : 0 ≤ v := by
    have : (0 : ℝ) ≤ ((cur + 1 : ℕ) : ℝ) := Nat.cast_nonneg _
    linarith
  unfold pyInt at hs
  rw [if_pos hv] at hs
  rw [← hs]
  constructor
  · have : ((cur + 1 : ℕ) : ℤ) ≤ ⌊v⌋ := Int.le_floor.2 (by exact_mod_cast m1)
    omega
  · have : ⌊v⌋ < ((cur + (n + 1) : ℕ) : ℤ) + 1 := Int.floor_lt.2 (by
      push_cast at m2 ⊢
      linarith)
    omega

/-- C320.  A larger order to buy has no higher limit price. -/
theorem C320_larger (cur target target' m : ℕ) (f w price price' : ℝ) (hw : 0 < w) (h : cur < target)
    (ht : target ≤ target') (hm : target' < m) (hp : computeLimitPrice cur target m f w = .ok price)
    (hp' : computeLimitPrice cur target' m f w = .ok price') : price' ≤ price := by
  have step : ∀ n, 0 < n → cur + (n + 1) < m →
      (∑ k ∈ Finset.range n, gap w m (cur + 1 + k)) / n ≤
        (∑ k ∈ Finset.range (n + 1), gap w m (cur + 1 + k)) / ((n + 1 : ℕ) : ℝ) := by
    intro n hn hm
    have h2 := (mean_gap cur n m w hw hn (by omega)).2
    have hn' : (0 : ℝ) < n := by exact_mod_cast hn
    have h3 := gap_mono w m (cur + n) (cur + 1 + n) hw (by omega) (by omega)
    rw [Finset.sum_range_succ, div_le_div_iff₀ hn' (by positivity)]
    rw [div_le_iff₀ hn'] at h2
    push_cast
    nlinarith
  obtain ⟨n, rfl⟩ := Nat.exists_eq_add_of_lt h
  rw [show cur + n + 1 = cur + (n + 1) by omega] at *
  obtain ⟨d, rfl⟩ := Nat.exists_eq_add_of_le ht
  rw [show cur + (n + 1) + d = cur + (n + 1 + d) by omega] at *
  rw [limit_buy cur (n + 1) m f w hw (by omega) (by omega), Except.ok.injEq] at hp
  rw [limit_buy cur (n + 1 + d) m f w hw (by omega) (by omega), Except.ok.injEq] at hp'
  rw [← hp, ← hp']
  have : (∑ k ∈ Finset.range (n + 1), gap w m (cur + 1 + k)) / ((n + 1 : ℕ) : ℝ) ≤
      (∑ k ∈ Finset.range (n + 1 + d), gap w m (cur + 1 + k)) / ((n + 1 + d : ℕ) : ℝ) := by
    clear hp hp' ht
    induction d with
    | zero => exact le_rfl
    | succ d ih => exact (ih (by omega)).trans (step (n + 1 + d) (by omega) (by omega))
  linarith

/-- C320 (refuted).  Selling from 2 to 1 of 4 the limit price is negative and the size there is 3. -/
theorem C320_size_counterexample : ¬ SizeAtLimit := by
  intro h
  have hc : computeLimitPrice 2 1 4 10 1 = .ok (-breakEven 10 1 4 1) := by
    have hr : pyRange ((2 : ℤ) + -1).natAbs ((1 : ℤ) + 1).natAbs = [1] := by decide
    unfold computeLimitPrice
    simp only [gt_iff_lt, show ¬ ((2 : ℤ) < 1) by norm_num, if_false, hr]
    have := inversePrice_step 10 1 4 1 one_pos (by norm_num)
    push_cast at this
    rw [mapM_cons_py]
    simp
    norm_num
    rw [this, py_bind_ok, div_neg, div_one]
  have hv : breakEven 10 1 4 1 = 10 - 1 / 4 * √(16 / 15) := by
    norm_num [breakEven]
  have hs : √(16 / 15) ≤ 2 := by
    rw [Real.sqrt_le_left (by norm_num)]; norm_num
  have := (h 2 1 4 10 1 _ _ one_pos (by norm_num) (by norm_num) (by norm_num) hc
    (positionSize_eq _ _ _ _ one_pos)).2
  have hx : (2 : ℝ) ≤ 10 - -breakEven 10 1 4 1 := by rw [hv]; linarith
  have hm := (sigmoid_strictMono 1 one_pos).monotone hx
  have h2 : (3 / 4 : ℝ) ≤ sigmoid 1 2 := by
    unfold sigmoid
    have h5 : √(1 + 2 ^ 2) ≤ 8 / 3 := by
      rw [Real.sqrt_le_left (by norm_num)]; norm_num
    rw [le_div_iff₀ (Real.sqrt_pos.2 (by norm_num))]
    linarith
  have h3 : (3 : ℝ) ≤ sigmoid 1 (10 - -breakEven 10 1 4 1) * (4 : ℕ) := by
    push_cast
    linarith
  have h4 := pyInt_mono h3
  have h5 : pyInt (3 : ℝ) = 3 := by
    unfold pyInt
    norm_num
  rw [h5] at h4
  have h6 : max (2 : ℤ) 1 = 2 := by decide
  omega

/-- An order within the hypotheses: buying from 1 to 3 of 4. -/
example (f : ℝ) : ∃ price s, computeLimitPrice 1 3 4 f 1 = .ok price ∧
    positionSizeFromDivergence f price 4 1 = .ok s ∧ (s = 2 ∨ s = 3) := by
  have h1 := limit_buy 1 2 4 f 1 one_pos (by norm_num) (by norm_num)
  refine ⟨_, _, h1, positionSize_eq _ _ _ _ one_pos, ?_⟩
  have := C320_size_partial 1 3 4 f 1 _ _ one_pos (by norm_num) (by norm_num) h1 (positionSize_eq _ _ _ _ one_pos)
  push_cast at this ⊢
  omega

end FinML.Alloc
