import Verif.Risk.Props

/-!
# C101, C102: edges of the strategy risk functions
-/

namespace FinML.Risk

/-- C101: how far the tolerance goes. A target of the wrong sign passes exactly if twice its size is at most
`10⁻⁸ + 10⁻⁵` times its size. -/
theorem C101_tolerance (target p profit loss : ℝ) (hp0 : 0 < p) (hp1 : p < 1) (hd : loss < profit)
    (hsign : target * (p * profit + (1 - p) * loss) < 0) :
    ∃ r : Option ℝ, requiredFreq target p profit loss = .ok r ∧
      (r.isSome ↔ 2 * |target| ≤ 1 / 10 ^ 8 + 1 / 10 ^ 5 * |target|) := by
  have hbe : (profit - loss) * p + loss ≠ 0 := by
    intro h
    have : p * profit + (1 - p) * loss = 0 := by rw [← h]; ring
    rw [this] at hsign
    simp at hsign
  have hμ2 : ((profit - loss) * p + loss) ^ 2 ≠ 0 := pow_ne_zero _ hbe
  obtain ⟨f, hf⟩ : ∃ f, (target * (profit - loss)) ^ 2 * p * (1 - p) / ((profit - loss) * p + loss) ^ 2 = f :=
    ⟨_, rfl⟩
  have hq : 0 < 1 - p := by linarith
  have hf0 : 0 ≤ f := by rw [← hf]; positivity
  have heq : f * ((profit - loss) * p + loss) ^ 2 = target ^ 2 * (profit - loss) ^ 2 * (p * (1 - p)) := by
    rw [← hf]; field_simp
  have hS := strategySharpe_eq p f profit loss hp0 hp1 hf0 hd
  have hval := sharpe_of_eq (target := target) hp0 hp1 hf0 hd heq
  obtain ⟨S, hSd⟩ : ∃ S, ((profit - loss) * p + loss) / ((profit - loss) * √(p * (1 - p))) * √f = S := ⟨_, rfl⟩
  rw [hSd] at hS hval
  have hmean : (profit - loss) * p + loss = p * profit + (1 - p) * loss := by ring
  rw [← hmean] at hsign
  have hSt : S = -target := by
    rcases lt_or_gt_of_ne hbe with hneg | hpos
    · have ht : 0 ≤ target := by
        by_contra hc
        linarith [mul_pos_of_neg_of_neg (not_le.1 hc) hneg]
      rw [hval.2 hneg.le, abs_of_nonneg ht]
    · have ht : target ≤ 0 := by
        by_contra hc
        linarith [mul_pos (not_le.1 hc) hpos]
      rw [hval.1 hpos.le, abs_of_nonpos ht]
  have habs : |S - target| = 2 * |target| := by
    rw [hSt]
    have : -target - target = -(2 * target) := by ring
    rw [this, abs_neg, abs_mul]; norm_num
  have hreq : requiredFreq target p profit loss =
      .ok (by classical exact if IsClose S target then some f else none) := by
    unfold requiredFreq pyDiv
    rw [if_neg hμ2]
    simp only [py_bind_ok]
    rw [hf, hS]
    rfl
  refine ⟨_, hreq, ?_⟩
  rw [← habs]
  by_cases h : IsClose S target
  · rw [if_pos h]
    exact ⟨fun _ => h, fun _ => rfl⟩
  · rw [if_neg h]
    exact ⟨fun h' => absurd h' (by simp), fun h' => absurd h' h⟩

/-- C102: without returns the share of gains is a division by zero. -/
theorem C102_no_returns (freq target : ℝ) : probabilityOfFailure [] freq target = .error .zeroDivision := rfl

/-- C102: if there are returns but no gains, or no others, there is no failure probability (NaN), whatever the
target. -/
theorem C102_one_sided (returns : List ℝ) (hne : returns ≠ []) (freq target : ℝ)
    (h : (∀ r ∈ returns, r ≤ 0) ∨ ∀ r ∈ returns, 0 < r) :
    probabilityOfFailure returns freq target = .ok none := by
  unfold probabilityOfFailure
  rw [if_neg (by simpa using hne)]
  simp only
  rcases h with h | h
  · have h0 : (returns.filter fun r => decide (0 < r)) = [] := by
      rw [List.filter_eq_nil_iff]
      intro r hr
      simpa using h r hr
    rw [h0]
    rfl
  · have h0 : (returns.filter fun r => decide (r ≤ 0)) = [] := by
      rw [List.filter_eq_nil_iff]
      intro r hr
      simpa using h r hr
    rw [h0]
    have : meanOpt [] = none := by unfold meanOpt; rw [if_pos rfl]
    rw [this]
    cases meanOpt (returns.filter fun r => decide (0 < r)) <;> rfl

/-- A case: half of the bets lose twice what the others gain, and a tiny positive target passes. -/
example : (4 / 10 ^ 9 : ℝ) * (1 / 2 * 1 + (1 - 1 / 2) * (-2)) < 0 ∧
    2 * |(4 / 10 ^ 9 : ℝ)| ≤ 1 / 10 ^ 8 + 1 / 10 ^ 5 * |(4 / 10 ^ 9 : ℝ)| := by
  refine ⟨by norm_num, ?_⟩
  rw [abs_of_pos (by norm_num)]
  norm_num

end FinML.Risk
